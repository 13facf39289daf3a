import Verif.WaveRead
import Verif.HuffBlock

/-!
# Construction of the wavelet tree of a message
-/

set_option autoImplicit false

namespace Bwtc.Wave
open Huff Props

/-- The pairs (number, length) handed to the search for parameters (WaveletTree.hpp:318-330): the
contents of the map `runDistribution` in increasing order of length.  The keys are lengths of runs
and hence at most `n`, the length of the message. -/
def runDist (runs : Nat → Nat) (n : Nat) : List (Nat × Nat) :=
  (List.range (n + 1)).filterMap fun k => if runs k = 0 then none else some (runs k, k)

/-- The codes of `WaveletTree(src, length)` (WaveletTree.hpp:298-356, everything before
`pushMessage`).  `cheap` stands for the outcomes of the floating-point comparisons. -/
def messageCodes (cheap : Nat → Nat → Nat × Nat → Bool) (data : List UInt8) : Option Codes := do
  let (_, fr, runs) ← Runs.runsAndChars 0 (fun _ => 0) (fun _ => 0) data
  chooseCodes cheap (HuffBlock.freqList fr) (runDist runs data.length)

/-- `WaveletTree(src, length)` (WaveletTree.hpp:298-359). -/
def makeTree (cheap : Nat → Nat → Nat × Nat → Bool) (data : List UInt8) : Option (Codes × Heap) := do
  let c ← messageCodes cheap data
  let h ← pushMessage c data
  return (c, h)

/-! ## Codes chosen for a message -/

theorem chooseCodes_keys {cheap : Nat → Nat → Nat × Nat → Bool} {freqs : List Nat} {dist : List (Nat × Nat)}
    (h256 : freqs.length = 256) (hne : presentSymbols freqs ≠ []) {c : Codes}
    (hc : chooseCodes cheap freqs dist = some c) : (c.codes.map (·.1)).Perm (presentSymbols freqs) := by
  obtain ⟨cl, root, cs, e1, e2, e3, e4, e5, e6, e7, e8, e9⟩ := char_codes freqs h256 hne
  rw [chooseCodes, e1] at hc
  simp only [Option.bind_eq_bind, Option.bind_some, e2.tree, e2.collected] at hc
  cases hf : findParameters cheap dist with
  | none => rw [hf] at hc; simp at hc
  | some r =>
    rw [hf] at hc
    simp only [Option.bind_some] at hc
    cases hi : integerCodes r.2 with
    | none => rw [hi] at hc; simp at hc
    | some x =>
      rw [hi] at hc
      simp at hc
      rw [← hc]
      exact e5

theorem freqList_length (fr : UInt8 → Nat) : (HuffBlock.freqList fr).length = 256 := by
  rw [HuffBlock.freqList, List.length_map, List.length_range]

theorem mem_present (fr : UInt8 → Nat) (x : UInt8) : x.toNat ∈ presentSymbols (HuffBlock.freqList fr) ↔ 0 < fr x := by
  have hx := x.toNat_lt
  rw [presentSymbols, List.mem_filter, List.mem_range, freqList_length, decide_eq_true_eq, HuffBlock.freqList,
    List.getElem?_map, List.getElem?_range (by omega)]
  simp
  omega

theorem runDist_nodup (runs : Nat → Nat) (n : Nat) : ((runDist runs n).map (·.2)).Nodup := by
  have : (runDist runs n).map (·.2) = (List.range (n + 1)).filter fun k => decide (runs k ≠ 0) := by
    rw [runDist]
    generalize List.range (n + 1) = l
    induction l with
    | nil => rfl
    | cons k l ih =>
      rw [List.filterMap_cons, List.filter_cons]
      by_cases h : runs k = 0
      · simp only [h, if_true]; simpa using ih
      · simp only [h, if_false]; simp [h]; simpa using ih
  rw [this]
  exact List.Pairwise.filter _ List.nodup_range

theorem mem_runDist {runs : Nat → Nat} {n : Nat} {p : Nat × Nat} :
    p ∈ runDist runs n ↔ p.1 = runs p.2 ∧ p.1 ≠ 0 ∧ p.2 ≤ n := by
  rw [runDist, List.mem_filterMap]
  constructor
  · rintro ⟨k, hk, e⟩
    rw [List.mem_range] at hk
    split at e
    · simp at e
    · rw [Option.some.injEq] at e
      subst e
      exact ⟨rfl, by assumption, by simp; omega⟩
  · rintro ⟨h1, h2, h3⟩
    refine ⟨p.2, by rw [List.mem_range]; omega, ?_⟩
    rw [if_neg (by omega), ← h1]

/-- Number of runs of a byte. -/
def runsOfByte (data : List UInt8) (x : UInt8) : Nat := ((Runs.runsOf data).map (·.1)).count x

/-- Number of runs of a length. -/
def runsOfLength (data : List UInt8) (n : Nat) : Nat := ((Runs.runsOf data).map (·.2)).count n

theorem messageCodes_eq (cheap : Nat → Nat → Nat × Nat → Bool) {data : List UInt8} (hne : data ≠ [])
    (hlen : data.length < 2 ^ 32) : messageCodes cheap data =
      chooseCodes cheap (HuffBlock.freqList (runsOfByte data)) (runDist (runsOfLength data) data.length) := by
  rw [messageCodes, Runs.runsAndChars_eq _ _ _ _ hne hlen]
  simp only [Option.bind_eq_bind, Option.bind_some]
  have h1 : ((Runs.runsOf data).map (·.1)).foldl Runs.bump (fun _ => 0) = runsOfByte data := by
    funext x
    rw [Runs.bump_foldl, runsOfByte, Nat.zero_add]
  have h2 : ((Runs.runsOf data).map (·.2)).foldl Runs.bump (fun _ => 0) = runsOfLength data := by
    funext x
    rw [Runs.bump_foldl, runsOfLength, Nat.zero_add]
  rw [h1, h2]

theorem runsOfByte_pos {data : List UInt8} {x : UInt8} : 0 < runsOfByte data x ↔ x ∈ data := by
  rw [runsOfByte, List.count_pos_iff]
  have h := Runs.runsOf_isRuns data
  constructor
  · intro hx
    obtain ⟨r, hr, e⟩ := List.mem_map.mp hx
    rw [← h.expands, Runs.expand, List.mem_flatMap]
    exact ⟨r, hr, by rw [List.mem_replicate]; have := h.pos r hr; exact ⟨by omega, e.symm⟩⟩
  · intro hx
    rw [← h.expands, Runs.expand, List.mem_flatMap] at hx
    obtain ⟨r, hr, e⟩ := hx
    rw [List.mem_replicate] at e
    exact List.mem_map.mpr ⟨r, hr, e.2.symm⟩

/-- The codes chosen for a message are good and are codes of its bytes. -/
theorem messageCodes_good {cheap : Nat → Nat → Nat × Nat → Bool} {data : List UInt8} (hne : data ≠ [])
    (hlen : data.length < 2 ^ 32) {c : Codes} (hc : messageCodes cheap data = some c) :
    GoodCodes c ∧ ∀ x : UInt8, x.toNat ∈ c.codes.map (·.1) ↔ x ∈ data := by
  rw [messageCodes_eq cheap hne hlen] at hc
  have hp : presentSymbols (HuffBlock.freqList (runsOfByte data)) ≠ [] := by
    cases data with
    | nil => exact absurd rfl hne
    | cons x l =>
      exact List.ne_nil_of_mem ((mem_present _ x).mpr (runsOfByte_pos.mpr (by simp)))
  refine ⟨chooseCodes_good (freqList_length _) hp (runDist_nodup _ _) ?_ hc, ?_⟩
  · intro p hp h0
    obtain ⟨h1, h2, _⟩ := mem_runDist.mp hp
    rw [h0] at h1
    have : 0 < runsOfLength data 0 := by omega
    rw [runsOfLength, List.count_pos_iff] at this
    obtain ⟨r, hr, e⟩ := List.mem_map.mp this
    have := (Runs.runsOf_isRuns data).pos r hr
    omega
  · intro x
    rw [(chooseCodes_keys (freqList_length _) hp hc).mem_iff, mem_present, runsOfByte_pos]

theorem runs_covered {c : Codes} {data : List UInt8} (hlen : data.length < 2 ^ 32)
    (hk : ∀ x ∈ data, x.toNat ∈ c.codes.map (·.1)) : ∀ r ∈ Runs.runsOf data, Covered c r := by
  intro r hr
  have h1 := (Runs.runsOf_isRuns data).pos r hr
  have h2 := Runs.runsOf_bound data r hr
  refine ⟨hk _ (runsOfByte_pos.mp ?_), by omega, by omega⟩
  rw [runsOfByte, List.count_pos_iff]
  exact List.mem_map.mpr ⟨r, hr, rfl⟩

theorem pushMessage_eq {c : Codes} (hg : GoodCodes c) {data : List UInt8} (hne : data ≠ []) (hlen : data.length < 2 ^ 32)
    (hk : ∀ x ∈ data, x.toNat ∈ c.codes.map (·.1)) : pushMessage c data = some (treeOf c (Runs.runsOf data)) := by
  rw [pushMessage, messageRuns_eq _ _ (Nat.lt_succ_self _) hne]
  simp only [Option.bind_eq_bind, Option.bind_some]
  exact pushRuns_treeOf hg (runs_covered hlen hk)

theorem runsOf_ne_nil {data : List UInt8} (hne : data ≠ []) : Runs.runsOf data ≠ [] := by
  cases data with
  | nil => exact absurd rfl hne
  | cons x l => rw [Runs.runsOf]; simp

/-! ## Nodes of the tree of a message -/

theorem treeOf_bits {c : Codes} {rs : List (UInt8 × Nat)} {q : Path} {n : Node} (h : treeOf c rs q = some n) :
    n.bits = bitsAt (words c rs) q := by
  rw [treeOf] at h
  split at h
  · simp at h; rw [← h]
  · split at h
    · simp at h; rw [← h]
    · split at h
      · simp at h
      · simp at h; rw [← h]

theorem treeOf_isSome {c : Codes} {rs : List (UInt8 × Nat)} {q : Path} {x : UInt8 × Nat} (hx : x ∈ rs)
    (hq : q <+: word c x) : ∃ n, treeOf c rs q = some n := by
  rw [treeOf]
  split
  · exact ⟨_, rfl⟩
  · split
    · exact ⟨_, rfl⟩
    · rename_i hf
      obtain ⟨r, hr⟩ := hq
      have hb : bitsAt (words c rs) q ≠ [] := by
        intro hb
        have hn := bitsAt_eq_nil.mp hb (word c x) (List.mem_map.mpr ⟨x, hx, rfl⟩)
        rw [← hr, nextBit_append] at hn
        cases r with
        | nil =>
          rw [List.append_nil] at hr
          have := List.find?_eq_none.mp hf x hx
          rw [decide_eq_true_eq] at this
          exact this hr.symm
        | cons b r => simp at hn
      rw [if_neg hb]
      exact ⟨_, rfl⟩

theorem treeOf_of_bits {c : Codes} {rs : List (UInt8 × Nat)} {q : Path} (h : bitsAt (words c rs) q ≠ []) :
    ∃ n, treeOf c rs q = some n := by
  cases hb : bitsAt (words c rs) q with
  | nil => exact absurd hb h
  | cons b l =>
    have : b ∈ bitsAt (words c rs) q := by rw [hb]; simp
    obtain ⟨w, hw, e⟩ := mem_bitsAt.mp this
    obtain ⟨x, hx, rfl⟩ := List.mem_map.mp hw
    obtain ⟨r, hr⟩ := nextBit_eq_some.mp e
    exact treeOf_isSome hx ⟨b :: r, hr.symm⟩

/-! ## Symbols of the decoder's tree -/

/-- The symbol the decoder's tree has at a path: that of the code tree of the bytes, and below its
leaves that of the code tree of the run lengths. -/
def label (it : Sh) : Sh → Path → Option Nat
  | t, [] => t.sym
  | .nil, _ :: _ => none
  | .node none l _, false :: q => label it l q
  | .node none _ r, true :: q => label it r q
  | .node (some _) _ _, b :: q => (it.get (b :: q)).sym

theorem label_byte (it : Sh) : ∀ (q : Path) (t : Sh) (s : Option Nat) (l r : Sh),
    (∀ p b x y l' r', q = p ++ b :: x → t.get p = .node (some y) l' r' → False) →
    t.get q = .node s l r → label it t q = s
  | [], t, s, l, r, _, h => by
    rw [Sh.get_nil_path] at h
    rw [h, label, Sh.sym]
  | b :: q, t, s, l, r, hup, h => by
    cases t with
    | nil => simp at h
    | node s' l' r' =>
      cases s' with
      | some y => exact (hup [] b q y l' r' rfl (by simp)).elim
      | none =>
        cases b
        · rw [label]
          refine label_byte it q l' s l r ?_ (by simpa [Sh.get] using h)
          intro p b' x y l2 r2 e hg
          exact hup (false :: p) b' x y l2 r2 (by rw [e]; rfl) (by simpa [Sh.get] using hg)
        · rw [label]
          refine label_byte it q r' s l r ?_ (by simpa [Sh.get] using h)
          intro p b' x y l2 r2 e hg
          exact hup (true :: p) b' x y l2 r2 (by rw [e]; rfl) (by simpa [Sh.get] using hg)

theorem label_int (it : Sh) : ∀ (p : Path) (q : Path) (t : Sh) (s : Nat), q ≠ [] →
    (∀ a b x y l' r', p = a ++ b :: x → t.get a = .node (some y) l' r' → False) →
    t.get p = .leaf s → label it t (p ++ q) = (it.get q).sym
  | [], q, t, s, hq, _, h => by
    rw [Sh.get_nil_path] at h
    cases q with
    | nil => exact absurd rfl hq
    | cons b q => rw [h, List.nil_append, Sh.leaf, label]
  | b :: p, q, t, s, hq, hup, h => by
    cases t with
    | nil => simp [Sh.leaf] at h
    | node s' l' r' =>
      cases s' with
      | some y => exact (hup [] b p y l' r' rfl (by simp)).elim
      | none =>
        cases b
        · rw [List.cons_append, label]
          refine label_int it p q l' s hq ?_ (by simpa [Sh.get] using h)
          intro a b' x y l2 r2 e hg
          exact hup (false :: a) b' x y l2 r2 (by rw [e]; rfl) (by simpa [Sh.get] using hg)
        · rw [List.cons_append, label]
          refine label_int it p q r' s hq ?_ (by simpa [Sh.get] using h)
          intro a b' x y l2 r2 e hg
          exact hup (true :: a) b' x y l2 r2 (by rw [e]; rfl) (by simpa [Sh.get] using hg)

/-- Symbols have no nodes below them. -/
theorem RootOk.no_below {t : Sh} (h : RootOk t) {p : Path} {b : Bool} {x : Path} {y : Nat} {l r : Sh}
    (hn : t.get (p ++ b :: x) ≠ .nil) (hg : t.get p = .node (some y) l r) : False := by
  rcases h with ⟨l', r', _, hF⟩ | ⟨s', rfl⟩
  · obtain ⟨l2, r2, h1, _⟩ := hF.inner (p := p) (b := b) (q := x) hn
    rw [hg] at h1
    simp at h1
  · cases p with
    | nil => simp at hg
    | cons a p =>
      cases a
      · cases p with
        | nil =>
          apply hn
          show (Sh.leaf s').get (b :: x) = .nil
          exact Sh.leaf_get _ _ _
        | cons a' p =>
          have : (Sh.leaf s').get (a' :: p) = .node (some y) l r := hg
          rw [Sh.leaf_get] at this
          simp at this
      · have : Sh.nil.get p = .node (some y) l r := hg
        simp at this

/-- The tree with the decoder's symbols. -/
def relabel (c : Codes) (h : Heap) : Heap := fun q => (h q).map fun n => ⟨label c.itree c.root q, n.bits⟩

end Bwtc.Wave
