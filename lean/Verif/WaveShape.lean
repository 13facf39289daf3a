import Verif.WaveParams
import Verif.Props.Varint
import Verif.Props.BitCodes
import Verif.Props.HuffLengths

/-!
# The codes of a wavelet tree and their serialisation

Model of the part of the constructor of `WaveletTree` that chooses the codes
(WaveletTree.hpp:294-360), of `treeShape` (WaveletTree.hpp:555-612) and of `readShape`
(WaveletTree.hpp:402-499); both in the configuration `OPTIMIZED_INTEGER_CODE`, `SEMI_FIXED_CODE`.
-/

set_option autoImplicit false

namespace Bwtc.Wave
open Huff Varint BitCodes

/-- The codes of a tree: the code tree of the bytes (`m_root`), the codes in it (`m_codes`), the
tree and the map of run-length codes (`m_integerCodeTree`, `m_integerCodes`) and `m_W`. -/
structure Codes where
  root : Sh
  codes : List (Nat × List Bool)
  itree : Sh
  icodes : List (Nat × List Bool)
  w : Nat
  deriving DecidableEq, Repr

/-- `collectCodes` into the map `m_integerCodes`. -/
def toMap (cs : List (Nat × List Bool)) : List (Nat × List Bool) :=
  cs.foldl (fun m p => mapSet p.1 p.2 m) []

/-- The tree and the map of run-length codes for the chosen lengths
(WaveletTree.hpp:334-342). -/
def integerCodes (lens : List (Nat × Nat)) : Option (Sh × List (Nat × List Bool)) :=
  if lens = [] then some (.leaf 0, [(0, [])])
  else do
    let t ← buildTree lens
    let cs ← collect t []
    return (t, toMap cs)

/-- Choice of the codes (WaveletTree.hpp:311-356) for the frequencies of runs per byte and the
pairs (number, length) of run lengths in increasing order of length. -/
def chooseCodes (cheap : Nat → Nat → Nat × Nat → Bool) (runFreqs : List Nat) (dist : List (Nat × Nat)) :
    Option Codes := do
  let cl ← calculateHuffmanLengths runFreqs
  let root ← buildTree (sortPairs cl)
  let (w, lens) ← findParameters cheap dist
  let (itree, icodes) ← integerCodes lens
  let codes ← collect root []
  return ⟨root, codes, itree, icodes, w⟩

/-- Longest code of a list of codes (WaveletTree.hpp:556-565, 585-591). -/
def longest (cs : List (List Bool)) : Nat := cs.foldl (fun m c => max m c.length) 0

/-- The unary codes of the lengths (WaveletTree.hpp:576-577, 606-610). -/
def unaryLengths (ml : Nat) (cs : List (List Bool)) : List Bool :=
  cs.flatMap fun c => unaryCode (ml - c.length + 1)

/-- Bits of a packed integer pushed least significant bit first
(`utils::pushBitsRev(vec, packed, 8*bytes)`). -/
def packedRev (n : Nat) : Option (List Bool) := do
  let (p, k) ← packInteger n
  return bitsOfRev (8 * k) p

/-- The part of `treeShape` for the bytes (WaveletTree.hpp:556-577). -/
def charShape (codes : List (Nat × List Bool)) : Option (List Bool) := do
  let symbols := (List.range 256).filter fun b => 0 < (codeOf codes b).length
  let cs := symbols.map (codeOf codes)
  let ml := longest cs
  let back ← symbols.getLast?
  let packed ← packedRev ml
  let alpha ← interpCode0 symbols back
  return bitsOf 8 back ++ bitsOf 8 symbols.length ++ packed ++ alpha ++ unaryLengths ml cs

/-- The part of `treeShape` for the run lengths (WaveletTree.hpp:579-614). -/
def integerShape (icodes : List (Nat × List Bool)) (w : Nat) : Option (List Bool) := do
  let ints := icodes.map (·.1)
  let ml := longest (icodes.map (·.2))
  let back ← ints.getLast?
  let p ← packInteger back
  let table ←
    if 0 < p.1 then do
      let count ← packedRev ints.length
      let len ← packedRev ml
      let alpha ← interpCode ints 0 (ints.length - 1) 0 back
      some (count ++ len ++ alpha ++ unaryLengths ml (icodes.map (·.2)))
    else some []
  return bitsOfRev (8 * p.2) p.1 ++ table ++ bitsOf 4 w

/-- `treeShape` (WaveletTree.hpp:555-635). -/
def treeShape (c : Codes) : Option (List Bool) := do
  let a ← charShape c.codes
  let b ← integerShape c.icodes c.w
  return a ++ b

/-- The loops reading the lengths (WaveletTree.hpp:418-423, 459-465): `k` more elements.
`maxLengthOfCode - n + 1` is `none` when it wraps around: such a length makes
`assignPrefixCodes` run forever (and the code asserts `n <= maxLengthOfCode`). -/
def readLengths (ml : Nat) : Nat → List Nat → List Bool → Option (List (Nat × Nat) × List Bool)
  | 0, _, s => some ([], s)
  | _ + 1, [], _ => none
  | k + 1, a :: as, s => do
    let (n, s) ← unaryDecode s
    if ml + 1 < n then none
    else do
      let (ps, s) ← readLengths ml k as s
      return ((ml + 1 - n, a) :: ps, s)

/-- The lengths read by the second half of `readShape`, sorted (WaveletTree.hpp:440-473). -/
def readIntegerLens (s : List Bool) : Option (List (Nat × Nat) × List Bool) := do
  let (longestRun, _, s) ← readVarRev s
  if 0 < longestRun then do
    let (symbols, _, s) ← readVarRev s
    let (ml, _, s) ← readVarRev s
    let (ints, _, s) ← interpDecode (2 ^ 32) 0 longestRun symbols s
    let (lens, s) ← readLengths ml symbols ints s
    some (sortPairs lens, s)
  else some ([], s)

/-- `readShape` (WaveletTree.hpp:402-499).  Simplification: the number of bits read, which is only
printed, is left out. -/
def readShape (s : List Bool) : Option (Codes × List Bool) := do
  let (maxSym, s) ← readByte s
  let (symbols, s) ← readByte s
  let symbols := if symbols.toNat = 0 then 256 else symbols.toNat
  let (ml, _, s) ← readVarRev s
  let (alphabet, _, s) ← interpDecode 256 0 maxSym.toNat symbols s
  let (cl, s) ← readLengths ml symbols alphabet s
  let root ← buildTree (sortPairs cl)
  let codes ← collect root []
  let (lens, s) ← readIntegerLens s
  let (itree, icodes) ← integerCodes lens
  let (wb, s) ← readBits 4 s
  return (⟨root, codes, itree, icodes, natOf wb⟩, s)

/-! ## Facts on maps -/

theorem toMap_sorted (cs : List (Nat × List Bool)) : ((toMap cs).map (·.1)).Pairwise (· < ·) := by
  have gen : ∀ (cs m : List (Nat × List Bool)), (m.map (·.1)).Pairwise (· < ·) →
      ((cs.foldl (fun m p => mapSet p.1 p.2 m) m).map (·.1)).Pairwise (· < ·) := by
    intro cs
    induction cs with
    | nil => intro m h; exact h
    | cons p cs ih => intro m h; exact ih _ (mapSet_sorted h)
  exact gen cs [] (by simp)

theorem mapSet_perm {α : Type} {k : Nat} {v : α} {m : List (Nat × α)} (h : k ∉ m.map (·.1)) :
    (mapSet k v m).Perm ((k, v) :: m) := by
  induction m with
  | nil => simp [mapSet]
  | cons q m ih =>
    obtain ⟨k', v'⟩ := q
    simp only [List.map_cons, List.mem_cons, not_or] at h
    rw [mapSet]
    split
    · exact List.Perm.refl _
    · rw [if_neg h.1]
      exact ((ih h.2).cons _).trans (List.Perm.swap _ _ _)

theorem toMap_perm {cs : List (Nat × List Bool)} (h : (cs.map (·.1)).Nodup) : (toMap cs).Perm cs := by
  have gen : ∀ (cs m : List (Nat × List Bool)), ((m ++ cs).map (·.1)).Nodup →
      (cs.foldl (fun m p => mapSet p.1 p.2 m) m).Perm (m ++ cs) := by
    intro cs
    induction cs with
    | nil => intro m _; simp
    | cons p cs ih =>
      intro m h
      have hp : p.1 ∉ m.map (·.1) := by
        rw [List.map_append, List.nodup_append] at h
        intro hm
        exact h.2.2 p.1 hm p.1 (by simp) rfl
      have h1 := mapSet_perm (v := p.2) hp
      have h2 : (mapSet p.1 p.2 m ++ cs).Perm (m ++ p :: cs) :=
        (h1.append_right cs).trans (List.perm_middle.symm)
      rw [List.foldl_cons]
      refine (ih _ ?_).trans h2
      rw [(h2.map _).nodup_iff]
      exact h
  exact gen cs [] (by simpa using h)

/-! ## Sorting is canonical -/

theorem pairLe_antisymm {a b : Nat × Nat} (h1 : pairLe a b = true) (h2 : pairLe b a = true) : a = b := by
  simp only [pairLe, decide_eq_true_eq] at h1 h2
  exact Prod.ext (by omega) (by omega)

theorem sorted_perm_eq : ∀ {a b : List (Nat × Nat)}, a.Perm b → a.Pairwise (fun x y => pairLe x y) →
    b.Pairwise (fun x y => pairLe x y) → a = b := by
  intro a
  induction a with
  | nil => intro b h _ _; exact (List.nil_perm.mp h).symm
  | cons x a ih =>
    intro b h ha hb
    cases b with
    | nil => simp at h
    | cons y b =>
      have hxy : x = y := by
        have hx : x ∈ y :: b := h.mem_iff.mp (by simp)
        have hy : y ∈ x :: a := h.mem_iff.mpr (by simp)
        rw [List.mem_cons] at hx hy
        rcases hx with hx | hx
        · exact hx
        · rcases hy with hy | hy
          · exact hy.symm
          · exact pairLe_antisymm ((List.pairwise_cons.mp ha).1 y hy) ((List.pairwise_cons.mp hb).1 x hx)
      subst hxy
      rw [ih ((List.perm_cons x).mp h) (List.pairwise_cons.mp ha).2 (List.pairwise_cons.mp hb).2]

theorem sortPairs_eq_of_perm {a b : List (Nat × Nat)} (h : a.Perm b) : sortPairs a = sortPairs b :=
  sorted_perm_eq (((sortPairs_perm a).trans h).trans (sortPairs_perm b).symm) (sortPairs_sorted a)
    (sortPairs_sorted b)

theorem sortPairs_of_sorted {a : List (Nat × Nat)} (h : a.Pairwise (fun x y => pairLe x y)) : sortPairs a = a :=
  sorted_perm_eq (sortPairs_perm a) (sortPairs_sorted a) h

/-! ## Reading back lengths -/

theorem longest_ge (cs : List (List Bool)) : ∀ c ∈ cs, c.length ≤ longest cs := by
  have gen : ∀ (cs : List (List Bool)) (m : Nat), m ≤ cs.foldl (fun m c => max m c.length) m ∧
      ∀ c ∈ cs, c.length ≤ cs.foldl (fun m c => max m c.length) m := by
    intro cs
    induction cs with
    | nil => intro m; simp
    | cons c cs ih =>
      intro m
      obtain ⟨h1, h2⟩ := ih (max m c.length)
      rw [List.foldl_cons]
      refine ⟨by omega, ?_⟩
      intro d hd
      rw [List.mem_cons] at hd
      rcases hd with rfl | hd
      · omega
      · exact h2 d hd
  exact (gen cs 0).2

theorem longest_le {cs : List (List Bool)} {n : Nat} (h : ∀ c ∈ cs, c.length ≤ n) : longest cs ≤ n := by
  have gen : ∀ (cs : List (List Bool)) (m : Nat), m ≤ n → (∀ c ∈ cs, c.length ≤ n) →
      cs.foldl (fun m c => max m c.length) m ≤ n := by
    intro cs
    induction cs with
    | nil => intro m hm _; exact hm
    | cons c cs ih =>
      intro m hm h
      rw [List.foldl_cons]
      exact ih _ (by have := h c (by simp); omega) (fun c hc => h c (List.mem_cons_of_mem _ hc))
  exact gen cs 0 (by omega) h

theorem readLengths_unary (ml : Nat) : ∀ (ps : List (Nat × List Bool)) (rest : List Bool),
    (∀ p ∈ ps, p.2.length ≤ ml) →
    readLengths ml ps.length (ps.map (·.1)) (unaryLengths ml (ps.map (·.2)) ++ rest) =
      some (ps.map fun p => (p.2.length, p.1), rest) := by
  intro ps
  induction ps with
  | nil => intro rest _; rfl
  | cons p ps ih =>
    intro rest h
    have hp := h p (by simp)
    have e : unaryLengths ml ((p :: ps).map (·.2)) ++ rest =
        unaryCode (ml - p.2.length + 1) ++ (unaryLengths ml (ps.map (·.2)) ++ rest) := by
      simp [unaryLengths]
    rw [e, List.length_cons, List.map_cons, readLengths, unaryDecode_code _ (by omega)]
    simp only [Option.bind_eq_bind, Option.bind_some]
    rw [if_neg (by omega), ih rest (fun q hq => h q (List.mem_cons_of_mem _ hq))]
    simp only [Option.bind_some, List.map_cons]
    rw [show ml + 1 - (ml - p.2.length + 1) = p.2.length by omega]
    rfl

theorem packedRev_spec {n : Nat} (h : n < 2 ^ 56) : ∃ bits, packedRev n = some bits ∧
    ∀ rest, ∃ k, readVarRev (bits ++ rest) = some (n, k, rest) := by
  obtain ⟨p, k, e1, _, _, _, _, _, _, e8⟩ := Props.C01_packed_integer_roundtrip n h
  refine ⟨bitsOfRev (8 * k) p, by rw [packedRev, e1]; rfl, ?_⟩
  intro rest
  exact ⟨k, (e8 rest).2.2⟩

/-! ## The two halves -/

/-- A list of codes belongs to a list of lengths: built from it, one code per pair. -/
structure CodesOf (lens : List (Nat × Nat)) (t : Sh) (cs : List (Nat × List Bool)) : Prop where
  tree : buildTree lens = some t
  collected : collect t [] = some cs
  lens_eq : (cs.map fun p => (p.2.length, p.1)) = lens

theorem CodesOf.fst {lens : List (Nat × Nat)} {t : Sh} {cs : List (Nat × List Bool)} (h : CodesOf lens t cs) :
    cs.map (·.1) = lens.map (·.2) := by
  rw [← h.lens_eq, List.map_map]
  rfl

theorem readByte_bits8 (n : Nat) (rest : List Bool) :
    ∃ b : UInt8, readByte (bitsOf 8 n ++ rest) = some (b, rest) ∧ b.toNat = n % 256 := by
  refine ⟨UInt8.ofNat n, ?_, by simp⟩
  have : bitsOf 8 n = byteBits (UInt8.ofNat n) := by
    rw [byteBits, UInt8.toNat_ofNat', ← bitsOf_mod 8 n]
  rw [this, readByte_byteBits]

/-- Reading the part for the bytes gives back the lengths, up to order. -/
theorem charShape_read {lens : List (Nat × Nat)} {t : Sh} {cs : List (Nat × List Bool)}
    (h : CodesOf lens t cs) (hne : lens ≠ []) (hnd : (lens.map (·.2)).Nodup) (h256 : ∀ p ∈ lens, p.2 < 256)
    (hpos : ∀ p ∈ lens, 0 < p.1) (hlen : ∀ p ∈ lens, p.1 < 2 ^ 56) :
    ∃ bits, charShape cs = some bits ∧ ∀ (rest : List Bool), ∃ (maxSym count : UInt8) (s1 s2 s3 s4 : List Bool)
      (ml k n : Nat) (alphabet : List Nat) (cl : List (Nat × Nat)),
      readByte (bits ++ rest) = some (maxSym, s1) ∧ readByte s1 = some (count, s2) ∧
      readVarRev s2 = some (ml, k, s3) ∧
      interpDecode 256 0 maxSym.toNat (if count.toNat = 0 then 256 else count.toNat) s3 = some (alphabet, n, s4) ∧
      readLengths ml (if count.toNat = 0 then 256 else count.toNat) alphabet s4 = some (cl, rest) ∧
      cl.Perm lens := by
  have hcsnd : (cs.map (·.1)).Nodup := by rw [h.fst]; exact hnd
  have hcode : ∀ p ∈ cs, codeOf cs p.1 = p.2 := fun p hp => codeOf_mem hcsnd hp
  have hmemlens : ∀ p ∈ cs, (p.2.length, p.1) ∈ lens := by
    intro p hp
    rw [← h.lens_eq]
    exact List.mem_map.mpr ⟨p, hp, rfl⟩
  rw [charShape]
  generalize hsy : ((List.range 256).filter fun b => 0 < (codeOf cs b).length) = symbols
  have hmem : ∀ b, b ∈ symbols ↔ b ∈ cs.map (·.1) := by
    intro b
    rw [← hsy, List.mem_filter, List.mem_range, decide_eq_true_eq]
    constructor
    · rintro ⟨_, h2⟩
      apply Decidable.byContradiction
      intro hc
      rw [codeOf_not_mem hc] at h2
      simp at h2
    · intro hb
      obtain ⟨p, hp, rfl⟩ := List.mem_map.mp hb
      rw [hcode p hp]
      exact ⟨h256 _ (hmemlens p hp), hpos _ (hmemlens p hp)⟩
  have hsorted : symbols.Pairwise (· < ·) := by
    rw [← hsy]; exact List.Pairwise.filter _ List.pairwise_lt_range
  have hlt : ∀ b ∈ symbols, b < 256 := by
    intro b hb
    rw [← hsy, List.mem_filter, List.mem_range] at hb
    exact hb.1
  have hsne : symbols ≠ [] := by
    intro h0
    cases hl : lens with
    | nil => exact hne hl
    | cons p l =>
      have : p.2 ∈ cs.map (·.1) := by rw [h.fst, hl]; simp
      rw [← hmem, h0] at this
      simp at this
  have hcount : symbols.length ≤ 256 := by
    rw [← hsy]
    have := List.length_filter_le (fun b => decide (0 < (codeOf cs b).length)) (List.range 256)
    rw [List.length_range] at this
    exact this
  -- the pairs (symbol, code)
  generalize hps : symbols.map (fun b => (b, codeOf cs b)) = ps
  have hpl : ps.length = symbols.length := by rw [← hps]; simp
  have hp1 : ps.map (·.1) = symbols := by rw [← hps, List.map_map]; exact List.map_id _
  have hp2 : ps.map (·.2) = symbols.map (codeOf cs) := by rw [← hps, List.map_map]; rfl
  have hpsmem : ∀ p, p ∈ ps ↔ p ∈ cs := by
    intro p
    rw [← hps, List.mem_map]
    constructor
    · rintro ⟨b, hb, rfl⟩
      obtain ⟨q, hq, rfl⟩ := List.mem_map.mp ((hmem b).mp hb)
      rw [hcode q hq]
      exact hq
    · intro hp
      exact ⟨p.1, (hmem _).mpr (List.mem_map.mpr ⟨p, hp, rfl⟩), by rw [hcode p hp]⟩
  have hperm : ps.Perm cs := by
    rw [List.perm_ext_iff_of_nodup]
    · exact hpsmem
    · apply nodup_of_nodup_fst
      rw [hp1]
      exact hsorted.imp (fun h => Nat.ne_of_lt h)
    · exact nodup_of_nodup_fst hcsnd
  obtain ⟨alpha, a1, a2⟩ := Props.C13_interpolative_from_zero 256 (symbols.getLast hsne) symbols hsne hsorted
    (by
      intro x hx
      rw [← List.dropLast_concat_getLast hsne] at hsorted hx
      rw [List.mem_append, List.mem_singleton] at hx
      rcases hx with hx | hx
      · exact Nat.le_of_lt ((List.pairwise_append.mp hsorted).2.2 x hx _ (by simp))
      · omega)
    (by have := hlt _ (List.getLast_mem hsne); omega) (hlt _ (List.getLast_mem hsne))
  have hml : longest (symbols.map (codeOf cs)) < 2 ^ 56 := by
    have hle : longest (symbols.map (codeOf cs)) ≤ 2 ^ 56 - 1 := by
      apply longest_le
      intro c hc
      rw [← hp2] at hc
      obtain ⟨p, hp, rfl⟩ := List.mem_map.mp hc
      have := hlen _ (hmemlens p ((hpsmem p).mp hp))
      simp only at this
      omega
    omega
  obtain ⟨packed, k1, k2⟩ := packedRev_spec hml
  have hlast : symbols.getLast? = some (symbols.getLast hsne) := List.getLast?_eq_some_getLast hsne
  refine ⟨_, by rw [hlast, k1]; simp only [Option.bind_eq_bind, Option.bind_some, a1]; rfl, ?_⟩
  intro rest
  have hl256 := hlt _ (List.getLast_mem hsne)
  generalize hU : unaryLengths (longest (symbols.map (codeOf cs))) (symbols.map (codeOf cs)) = U
  have e1 : ∀ b : List Bool, b ++ bitsOf 8 symbols.length ++ packed ++ alpha ++ U ++ rest =
      b ++ (bitsOf 8 symbols.length ++ (packed ++ (alpha ++ (U ++ rest)))) := by
    intro b; simp only [List.append_assoc]
  rw [e1]
  obtain ⟨b1, r1, r2⟩ := readByte_bits8 (symbols.getLast hsne)
    (bitsOf 8 symbols.length ++ (packed ++ (alpha ++ (U ++ rest))))
  obtain ⟨b2, r3, r4⟩ := readByte_bits8 symbols.length (packed ++ (alpha ++ (U ++ rest)))
  obtain ⟨k, k3⟩ := k2 (alpha ++ (U ++ rest))
  have hspos : 0 < symbols.length := List.length_pos_iff.mpr hsne
  have hcnt : (if b2.toNat = 0 then 256 else b2.toNat) = symbols.length := by
    rw [r4]
    by_cases h2 : symbols.length = 256
    · rw [h2]; rfl
    · rw [Nat.mod_eq_of_lt (by omega), if_neg (by omega)]
  have hb1 : b1.toNat = symbols.getLast hsne := by rw [r2, Nat.mod_eq_of_lt hl256]
  refine ⟨b1, b2, _, _, _, U ++ rest, _, k, alpha.length, symbols, ps.map fun p => (p.2.length, p.1),
    r1, r3, k3, ?_, ?_, ?_⟩
  · rw [hcnt, hb1]; exact a2 _
  · rw [hcnt, ← hU, ← hp2, ← hp1, List.length_map]
    refine readLengths_unary _ ps rest ?_
    intro p hp
    exact longest_ge _ _ (List.mem_map.mpr ⟨p, hp, rfl⟩)
  · rw [← h.lens_eq]
    exact hperm.map _

theorem packInteger_pos {n p k : Nat} (hn : n < 2 ^ 56) (h : packInteger n = some (p, k)) : 0 < p ↔ 0 < n := by
  obtain ⟨p', k', e1, e2, _⟩ := Props.C01_packed_integer_roundtrip n hn
  rw [h] at e1
  simp only [Option.some.injEq, Prod.mk.injEq] at e1
  rw [← e1.1] at e2
  constructor
  · intro hp
    apply Decidable.byContradiction
    intro hc
    have : n = 0 := by omega
    subst this
    have h0 : packInteger 0 = some (0, 1) := by decide +kernel
    rw [h0] at h
    simp only [Option.some.injEq, Prod.mk.injEq] at h
    omega
  · intro hn
    apply Decidable.byContradiction
    intro hc
    have : p = 0 := by omega
    rw [this] at e2
    have h0 : unpackInteger 0 = some 0 := by decide +kernel
    rw [h0] at e2
    simp only [Option.some.injEq] at e2
    omega

theorem length_le_of_sorted {l : List Nat} (h : l.Pairwise (· < ·)) {n : Nat} (hn : ∀ x ∈ l, x < n) : l.length ≤ n := by
  have gen : ∀ (l : List Nat) (lo : Nat), l.Pairwise (· < ·) → (∀ x ∈ l, lo ≤ x ∧ x < n) → l.length ≤ n - lo := by
    intro l
    induction l with
    | nil => intro lo _ _; simp
    | cons x l ih =>
      intro lo h hx
      have h1 := hx x (by simp)
      have h2 := ih (x + 1) (List.pairwise_cons.mp h).2 (fun y hy =>
        ⟨(List.pairwise_cons.mp h).1 y hy, (hx y (List.mem_cons_of_mem _ hy)).2⟩)
      rw [List.length_cons]
      omega
  have := gen l 0 h (fun x hx => ⟨Nat.zero_le _, hn x hx⟩)
  omega

theorem getLast_ge {l : List Nat} (h : l.Pairwise (· < ·)) (hne : l ≠ []) : ∀ x ∈ l, x ≤ l.getLast hne := by
  intro x hx
  rw [← List.dropLast_concat_getLast hne] at h hx
  rw [List.mem_append, List.mem_singleton] at hx
  rcases hx with hx | hx
  · exact Nat.le_of_lt ((List.pairwise_append.mp h).2.2 x hx _ (by simp))
  · omega

theorem getLast_pos {l : List Nat} (h : l.Pairwise (· < ·)) (hne : l ≠ []) (h2 : 2 ≤ l.length) :
    0 < l.getLast hne := by
  have hge := getLast_ge h hne
  cases l with
  | nil => exact absurd rfl hne
  | cons a l =>
    cases l with
    | nil => simp at h2
    | cons b l =>
      have h1 : a < b := (List.pairwise_cons.mp h).1 b (by simp)
      have h2 := hge b (by simp)
      omega

/-- Reading the part for the run lengths gives back the sorted lengths and `W`. -/
theorem integerShape_read {lens : List (Nat × Nat)} {t : Sh} {cs : List (Nat × List Bool)}
    (h : CodesOf lens t cs) (ht : Table lens) (h30 : ∀ p ∈ lens, p.2 < 2 ^ 30) {w : Nat} :
    ∃ bits, integerShape (toMap cs) w = some bits ∧ ∀ rest : List Bool,
      readIntegerLens (bits ++ rest) = some (lens, bitsOf 4 w ++ rest) := by
  have hcsnd : (cs.map (·.1)).Nodup := by rw [h.fst]; exact ht.nodup
  have hperm := toMap_perm hcsnd
  have hsorted := toMap_sorted cs
  generalize toMap cs = m at hperm hsorted
  have hlm : (m.map fun p => (p.2.length, p.1)).Perm lens := by rw [← h.lens_eq]; exact hperm.map _
  have hmemlens : ∀ p ∈ m, (p.2.length, p.1) ∈ lens := fun p hp => hlm.mem_iff.mp (List.mem_map.mpr ⟨p, hp, rfl⟩)
  have hmlen : m.length = lens.length := by rw [← hlm.length_eq]; simp
  have h2 := ht.two
  have hmne : m.map (·.1) ≠ [] := by
    intro h0
    have := congrArg List.length h0
    simp only [List.length_map, List.length_nil] at this
    omega
  rw [integerShape]
  have hlast : (m.map (·.1)).getLast? = some ((m.map (·.1)).getLast hmne) := List.getLast?_eq_some_getLast hmne
  have hge := getLast_ge hsorted hmne
  have hback : (m.map (·.1)).getLast hmne < 2 ^ 30 := by
    obtain ⟨p, hp, e⟩ := List.mem_map.mp (List.getLast_mem hmne)
    rw [← e]
    exact h30 _ (hmemlens p hp)
  have hx30 : ∀ x ∈ m.map (·.1), x < 2 ^ 30 := fun x hx => Nat.lt_of_le_of_lt (hge x hx) hback
  have hcount : m.length ≤ 2 ^ 30 := by
    have := length_le_of_sorted hsorted hx30
    rwa [List.length_map] at this
  have hbackpos : 0 < (m.map (·.1)).getLast hmne := getLast_pos hsorted hmne (by rw [List.length_map]; omega)
  generalize hB : (m.map (·.1)).getLast hmne = back at *
  have hml : longest (m.map (·.2)) ≤ m.length := by
    apply longest_le
    intro c hc
    obtain ⟨p, hp, rfl⟩ := List.mem_map.mp hc
    have := ht.bound _ (hmemlens p hp)
    simp only at this
    omega
  obtain ⟨pb, kb, p1, _, _, _, _, _, _, p8⟩ := Props.C01_packed_integer_roundtrip back (by omega)
  have hpb : 0 < pb := (packInteger_pos (by omega) p1).mpr hbackpos
  obtain ⟨count, c1, c2⟩ := packedRev_spec (n := m.length) (by omega)
  obtain ⟨len, l1, l2⟩ := packedRev_spec (n := longest (m.map (·.2))) (by omega)
  obtain ⟨alpha, a1, a2⟩ := Props.C13_interpolative_roundtrip (2 ^ 32) 0 back (m.map (·.1)) hmne hsorted
    (fun x hx => ⟨Nat.zero_le _, hge x hx⟩) (by omega) (by omega) (by omega)
  refine ⟨_, by
    rw [hlast]
    simp only [Option.bind_eq_bind, Option.bind_some, p1]
    rw [if_pos hpb, List.length_map, c1, l1]
    simp only [Option.bind_some]
    rw [List.length_map] at a1
    rw [a1]
    rfl, ?_⟩
  intro rest
  rw [readIntegerLens]
  simp only [List.append_assoc]
  rw [(p8 _).2.2]
  simp only [Option.bind_eq_bind, Option.bind_some]
  rw [if_pos hbackpos]
  obtain ⟨k, k1⟩ := c2 (len ++ (alpha ++ (unaryLengths (longest (m.map (·.2))) (m.map (·.2)) ++ (bitsOf 4 w ++ rest))))
  rw [k1]
  simp only [Option.bind_some]
  obtain ⟨k, k1⟩ := l2 (alpha ++ (unaryLengths (longest (m.map (·.2))) (m.map (·.2)) ++ (bitsOf 4 w ++ rest)))
  rw [k1]
  simp only [Option.bind_some]
  rw [List.length_map] at a2
  rw [a2]
  simp only [Option.bind_some]
  rw [readLengths_unary _ m _ (fun p hp => longest_ge _ _ (List.mem_map.mpr ⟨p, hp, rfl⟩))]
  simp only [Option.bind_some]
  rw [sortPairs_eq_of_perm hlm, sortPairs_of_sorted ht.sorted]

/-- The same without a table. -/
theorem integerShape_read_plain (w : Nat) :
    ∃ bits, integerShape [(0, [])] w = some bits ∧ ∀ rest : List Bool,
      readIntegerLens (bits ++ rest) = some ([], bitsOf 4 w ++ rest) := by
  obtain ⟨pb, kb, p1, _, _, _, _, _, _, p8⟩ := Props.C01_packed_integer_roundtrip 0 (by omega)
  have hpb : ¬ 0 < pb := fun h => absurd ((packInteger_pos (by omega) p1).mp h) (by omega)
  refine ⟨bitsOfRev (8 * kb) pb ++ [] ++ bitsOf 4 w, ?_, ?_⟩
  · rw [integerShape]
    simp only [List.map_cons, List.map_nil, List.getLast?_singleton, Option.bind_eq_bind, Option.bind_some, p1]
    rw [if_neg hpb]
    rfl
  · intro rest
    rw [readIntegerLens]
    simp only [List.append_assoc, List.nil_append]
    rw [(p8 _).2.2]
    simp only [Option.bind_eq_bind, Option.bind_some]
    rw [if_neg (by omega)]

end Bwtc.Wave
