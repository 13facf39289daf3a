import Verif.WaveWords
import Verif.Runs

/-!
# The bit vectors of a wavelet tree in terms of the words of its runs
-/

set_option autoImplicit false

namespace Bwtc.Wave
open Huff

/-! ## Bits of words at a path -/

/-- The bit a word contributes to the node at a path. -/
def nextBit : Path → List Bool → Option Bool
  | [], [] => none
  | [], b :: _ => some b
  | _ :: _, [] => none
  | a :: p, b :: w => if a = b then nextBit p w else none

theorem nextBit_append (p w : List Bool) : nextBit p (p ++ w) = w.head? := by
  induction p with
  | nil => cases w <;> rfl
  | cons a p ih => rw [List.cons_append, nextBit, if_pos rfl, ih]

theorem nextBit_eq_some {p w : List Bool} {b : Bool} : nextBit p w = some b ↔ ∃ r, w = p ++ b :: r := by
  constructor
  · intro h
    induction p generalizing w with
    | nil =>
      cases w with
      | nil => simp [nextBit] at h
      | cons x w => simp [nextBit] at h; subst h; exact ⟨w, rfl⟩
    | cons a p ih =>
      cases w with
      | nil => simp [nextBit] at h
      | cons x w =>
        rw [nextBit] at h
        split at h
        · rename_i e
          obtain ⟨r, hr⟩ := ih h
          exact ⟨r, by rw [e, hr]; rfl⟩
        · simp at h
  · rintro ⟨r, rfl⟩
    rw [nextBit_append]
    rfl

/-- The bits of words at a path, in order. -/
def bitsAt (ws : List (List Bool)) (p : Path) : List Bool := ws.filterMap (nextBit p)

theorem bitsAt_append (a b : List (List Bool)) (p : Path) : bitsAt (a ++ b) p = bitsAt a p ++ bitsAt b p :=
  List.filterMap_append

theorem bitsAt_single (w : List Bool) (p : Path) : bitsAt [w] p = (nextBit p w).toList := by
  rw [bitsAt, List.filterMap_cons]
  cases nextBit p w <;> rfl

theorem bitsAt_cons (w : List Bool) (ws : List (List Bool)) (p : Path) :
    bitsAt (w :: ws) p = (nextBit p w).toList ++ bitsAt ws p := by
  rw [← bitsAt_single, ← bitsAt_append]; rfl

theorem bitsAt_eq_nil {ws : List (List Bool)} {p : Path} : bitsAt ws p = [] ↔ ∀ w ∈ ws, nextBit p w = none := by
  rw [bitsAt, List.filterMap_eq_nil_iff]

theorem mem_bitsAt {ws : List (List Bool)} {p : Path} {b : Bool} :
    b ∈ bitsAt ws p ↔ ∃ w ∈ ws, nextBit p w = some b := by
  rw [bitsAt, List.mem_filterMap]

/-! ## Words of runs -/

/-- The code of a run length as a total function. -/
def icode (c : Codes) (n : Nat) : List Bool := (runCode c n).getD []

/-- The code of a byte. -/
def ccode (c : Codes) (x : UInt8) : List Bool := codeOf c.codes x.toNat

/-- All bits pushed for a run. -/
def word (c : Codes) (r : UInt8 × Nat) : List Bool := ccode c r.1 ++ icode c r.2

/-- A run the codes cover. -/
def Covered (c : Codes) (r : UInt8 × Nat) : Prop := r.1.toNat ∈ c.codes.map (·.1) ∧ 0 < r.2 ∧ r.2 < 2 ^ 32

theorem icode_eq {c : Codes} (hg : GoodCodes c) {n : Nat} (hn : 0 < n) : runCode c n = some (icode c n) := by
  obtain ⟨code, h⟩ := runCode_some hg hn
  rw [icode, h]; rfl

theorem ccode_get {c : Codes} (hg : GoodCodes c) {x : UInt8} (hx : x.toNat ∈ c.codes.map (·.1)) :
    c.root.get (ccode c x) = .leaf x.toNat := by
  obtain ⟨p, hp, e⟩ := List.mem_map.mp hx
  have h1 := codeOf_mem hg.codes.nodup hp
  have e : p.1 = x.toNat := e
  rw [e] at h1
  rw [ccode, h1]
  exact (hg.codes.mem _ _).mp (by rw [← e]; exact hp)

/-- Two paths one of which is a prefix of the other. -/
theorem append_comparable {a b c d : List Bool} (h : a ++ b = c ++ d) :
    (∃ e, c = a ++ e ∧ b = e ++ d) ∨ ∃ e, a = c ++ e ∧ d = e ++ b :=
  List.append_eq_append_iff.mp h

/-- The words of runs are prefix-free. -/
theorem word_prefix {c : Codes} (hg : GoodCodes c) {r r' : UInt8 × Nat} (hr : Covered c r) (hr' : Covered c r')
    {q : List Bool} (h : word c r' = word c r ++ q) : q = [] ∧ r = r' := by
  have hc := ccode_get hg hr.1
  have hc' := ccode_get hg hr'.1
  rw [word, word, List.append_assoc] at h
  have key : ccode c r'.1 = ccode c r.1 ∧ r.1 = r'.1 := by
    rcases append_comparable h with ⟨e, h1, _⟩ | ⟨e, h1, _⟩
    · rw [h1] at hc
      obtain ⟨rfl, h3⟩ := leaf_prefix hc' hc
      exact ⟨by simpa using h1.symm, UInt8.toNat_inj.mp h3.symm⟩
    · rw [h1] at hc'
      obtain ⟨rfl, h3⟩ := leaf_prefix hc hc'
      exact ⟨by simpa using h1, UInt8.toNat_inj.mp h3⟩
  rw [key.1] at h
  have h := List.append_cancel_left h
  have hi := icode_eq hg hr.2.1
  have hi' := icode_eq hg hr'.2.1
  have hq := runCode_prefix hg hr.2.1 hr'.2.1 hi hi' h
  subst hq
  rw [List.append_nil] at h
  rw [h] at hi'
  exact ⟨rfl, Prod.ext key.2 (runCode_inj hg hr.2.1 hr'.2.1 hr.2.2 hr'.2.2 hi hi')⟩

theorem icode_ne_nil {c : Codes} (hg : GoodCodes c) {n : Nat} (hn : 0 < n) : icode c n ≠ [] :=
  (runCode_states hg hn (icode_eq hg hn)).1

/-- A word ends below the code tree of the bytes. -/
theorem root_get_word {c : Codes} (hg : GoodCodes c) {r : UInt8 × Nat} (hr : Covered c r) :
    c.root.get (word c r) = .nil := by
  rw [word, Sh.get_append, ccode_get hg hr.1]
  cases h : icode c r.2 with
  | nil => exact absurd h (icode_ne_nil hg hr.2.1)
  | cons b q => exact Sh.leaf_get _ _ _

/-! ## Pushing a word -/

/-- Appending a bit. -/
def Node.push (b : Bool) (n : Node) : Node := ⟨n.sym, n.bits ++ [b]⟩

theorem pushChar_spec : ∀ (bits : List Bool) (h : Heap) (p : Path), (∀ a b, bits = a ++ b → (h (p ++ a)).isSome) →
    ∃ h', pushChar h p bits = some (h', p ++ bits) ∧
      ∀ q, h' q = if p.length ≤ q.length then
        match nextBit q (p ++ bits) with
        | some b => (h q).map (Node.push b)
        | none => h q
      else h q
  | [], h, p, _ => by
    refine ⟨h, by rw [pushChar, List.append_nil], ?_⟩
    intro q
    split
    · rename_i hl
      have : nextBit q (p ++ []) = none := by
        cases e : nextBit q (p ++ []) with
        | none => rfl
        | some b =>
          obtain ⟨r, hr⟩ := nextBit_eq_some.mp e
          have := congrArg List.length hr
          simp at this
          omega
      rw [this]
    · rfl
  | b :: bs, h, p, hex => by
    obtain ⟨n, hn⟩ := Option.isSome_iff_exists.mp (hex [] (b :: bs) rfl)
    rw [List.append_nil] at hn
    obtain ⟨n', hn'⟩ := Option.isSome_iff_exists.mp (hex [b] bs rfl)
    obtain ⟨h', h1, h2⟩ := pushChar_spec bs (h.set p ⟨n.sym, n.bits ++ [b]⟩) (p ++ [b]) (by
      intro a d e
      rw [Heap.set]
      split
      · rfl
      · rw [List.append_assoc]
        exact hex (b :: a) d (by rw [e]; rfl))
    refine ⟨h', ?_, ?_⟩
    · rw [pushChar, hn, hn']
      simp only []
      rw [h1, List.append_assoc]; rfl
    · intro q
      rw [h2 q, Heap.set]
      rw [List.append_assoc, List.singleton_append]
      by_cases hq : q = p
      · subst hq
        rw [if_neg (by simp), if_pos rfl, if_pos (Nat.le_refl _), nextBit_append, hn]
        rfl
      · rw [if_neg hq]
        by_cases hl : (p ++ [b]).length ≤ q.length
        · rw [if_pos hl, if_pos (by simp at hl; omega)]
        · rw [if_neg hl]
          by_cases hl2 : p.length ≤ q.length
          · rw [if_pos hl2]
            have hle : q.length = p.length := by simp at hl; omega
            have : nextBit q (p ++ b :: bs) = none := by
              cases e : nextBit q (p ++ b :: bs) with
              | none => rfl
              | some x =>
                obtain ⟨r, hr⟩ := nextBit_eq_some.mp e
                exact absurd (List.append_inj hr hle.symm).1.symm hq
            rw [this]
          · rw [if_neg hl2]

theorem nextBit_self (p : List Bool) : nextBit p p = none := by
  have := nextBit_append p []
  rwa [List.append_nil] at this

theorem nextBit_same_length {q p w : List Bool} (hl : q.length = p.length) (hne : q ≠ p) : nextBit q (p ++ w) = none := by
  cases e : nextBit q (p ++ w) with
  | none => rfl
  | some x =>
    obtain ⟨r, hr⟩ := nextBit_eq_some.mp e
    exact absurd (List.append_inj hr hl.symm).1.symm hne

theorem pushInt_spec (sym : Nat) : ∀ (bits : List Bool) (h : Heap) (p : Path), bits ≠ [] → (h p).isSome →
    ∃ h', pushInt h sym p bits = some h' ∧
      ∀ q, h' q = if q = p ++ bits then some ((h q).getD ⟨some sym, []⟩)
        else if p.length ≤ q.length then
          match nextBit q (p ++ bits) with
          | some b => some (Node.push b ((h q).getD ⟨none, []⟩))
          | none => h q
        else h q
  | [], h, p, hne, _ => absurd rfl hne
  | [b], h, p, _, hp => by
    obtain ⟨n, hn⟩ := Option.isSome_iff_exists.mp hp
    rw [pushInt, hn]
    refine ⟨_, rfl, ?_⟩
    intro q
    have hne : p ++ [b] ≠ p := by
      intro e
      have := congrArg List.length e
      simp at this
    have hb : (h.set p ⟨n.sym, n.bits ++ [b]⟩) (p ++ [b]) = h (p ++ [b]) := if_neg hne
    rw [hb]
    by_cases hq : q = p ++ [b]
    · rw [if_pos hq]
      subst hq
      split
      · rename_i hnone
        rw [Heap.set, if_pos rfl]
        rw [Option.isNone_iff_eq_none] at hnone
        rw [hnone]; rfl
      · rename_i hsome
        rw [hb]
        cases h5 : h (p ++ [b]) with
        | none => rw [h5] at hsome; simp at hsome
        | some x => rfl
    · rw [if_neg hq]
      have e : (if (h (p ++ [b])).isNone = true then (h.set p ⟨n.sym, n.bits ++ [b]⟩).set (p ++ [b]) ⟨some sym, []⟩
          else h.set p ⟨n.sym, n.bits ++ [b]⟩) q = h.set p ⟨n.sym, n.bits ++ [b]⟩ q := by
        split
        · rw [Heap.set, if_neg hq]
        · rfl
      rw [e, Heap.set]
      by_cases hqp : q = p
      · subst hqp
        rw [if_pos rfl, if_pos (Nat.le_refl _), nextBit_append, hn]
        rfl
      · rw [if_neg hqp]
        split
        · rename_i hl
          have : nextBit q (p ++ [b]) = none := by
            by_cases hl2 : q.length = p.length
            · exact nextBit_same_length hl2 hqp
            · cases e : nextBit q (p ++ [b]) with
              | none => rfl
              | some x =>
                obtain ⟨r, hr⟩ := nextBit_eq_some.mp e
                have := congrArg List.length hr
                simp at this
                omega
          rw [this]
        · rfl
  | b :: b' :: bs, h, p, _, hp => by
    obtain ⟨n, hn⟩ := Option.isSome_iff_exists.mp hp
    have hne : p ++ [b] ≠ p := by
      intro e
      have := congrArg List.length e
      simp at this
    have hb : (h.set p ⟨n.sym, n.bits ++ [b]⟩) (p ++ [b]) = h (p ++ [b]) := if_neg hne
    obtain ⟨h1, hh1, hh1'⟩ : ∃ h1 : Heap, h1 = (if ((h.set p ⟨n.sym, n.bits ++ [b]⟩) (p ++ [b])).isNone then
        (h.set p ⟨n.sym, n.bits ++ [b]⟩).set (p ++ [b]) ⟨none, []⟩ else h.set p ⟨n.sym, n.bits ++ [b]⟩) ∧
        ∀ q, h1 q = if q = p ++ [b] then some ((h q).getD ⟨none, []⟩)
          else if q = p then some ⟨n.sym, n.bits ++ [b]⟩ else h q := by
      refine ⟨_, rfl, ?_⟩
      intro q
      rw [hb]
      by_cases hq : q = p ++ [b]
      · rw [if_pos hq]
        subst hq
        split
        · rename_i hnone
          rw [Heap.set, if_pos rfl]
          rw [Option.isNone_iff_eq_none] at hnone
          rw [hnone]; rfl
        · rename_i hsome
          rw [hb]
          cases h5 : h (p ++ [b]) with
          | none => rw [h5] at hsome; simp at hsome
          | some x => rfl
      · rw [if_neg hq]
        split
        · rw [Heap.set, if_neg hq]; rfl
        · rfl
    obtain ⟨h', h2, h3⟩ := pushInt_spec sym (b' :: bs) h1 (p ++ [b]) (by simp) (by
      rw [hh1' _, if_pos rfl]; rfl)
    refine ⟨h', ?_, ?_⟩
    · rw [pushInt, hn]
      simp only [← hh1]
      exact h2
    · intro q
      rw [h3 q, List.append_assoc, List.singleton_append, hh1' q]
      by_cases hq : q = p ++ b :: b' :: bs
      · rw [if_pos hq, if_pos hq]
        have h6 : q ≠ p ++ [b] := by
          intro e
          have := congrArg List.length (e.symm.trans hq)
          simp at this
        have h7 : q ≠ p := by
          intro e
          have := congrArg List.length (e.symm.trans hq)
          simp at this
        rw [if_neg h6, if_neg h7]
      · rw [if_neg hq, if_neg hq]
        by_cases hqb : q = p ++ [b]
        · subst hqb
          have e : p ++ b :: b' :: bs = (p ++ [b]) ++ b' :: bs := by simp
          rw [if_pos (Nat.le_refl _), if_pos rfl, if_pos (by simp), e, nextBit_append]
          rfl
        · rw [if_neg hqb]
          by_cases hqp : q = p
          · subst hqp
            rw [if_neg (by simp), if_pos rfl, if_pos (Nat.le_refl _), nextBit_append, hn]
            rfl
          · rw [if_neg hqp]
            by_cases hl : (p ++ [b]).length ≤ q.length
            · rw [if_pos hl, if_pos (by simp at hl; omega)]
            · rw [if_neg hl]
              by_cases hl2 : p.length ≤ q.length
              · have hle : q.length = p.length := by simp at hl; omega
                rw [if_pos hl2, nextBit_same_length hle hqp]
              · rw [if_neg hl2]

/-- A pushed run. -/
def pushed (h : Heap) (W : List Bool) (sym : Nat) : Heap := fun q =>
  if q = W then some ((h q).getD ⟨some sym, []⟩)
  else
    match nextBit q W with
    | some b => some (Node.push b ((h q).getD ⟨none, []⟩))
    | none => h q

theorem pushRun_spec {c : Codes} (hg : GoodCodes c) {r : UInt8 × Nat} (hr : Covered c r) {h : Heap}
    (hex : ∀ a b, ccode c r.1 = a ++ b → (h a).isSome) : pushRun c h r.1 r.2 = some (pushed h (word c r) r.2) := by
  obtain ⟨h1, e1, e2⟩ := pushChar_spec (ccode c r.1) h [] (by simpa using hex)
  rw [List.nil_append] at e1
  have hnn : nextBit (ccode c r.1) (ccode c r.1) = none := nextBit_self _
  obtain ⟨h2, e3, e4⟩ := pushInt_spec r.2 (icode c r.2) h1 (ccode c r.1) (icode_ne_nil hg hr.2.1) (by
    rw [e2, if_pos (by simp), List.nil_append, hnn]
    exact hex _ [] (by simp))
  have : pushRun c h r.1 r.2 = some h2 := by
    rw [pushRun]
    have e1' : pushChar h [] (codeOf c.codes r.1.toNat) = some (h1, ccode c r.1) := e1
    rw [e1']
    simp only [Option.bind_eq_bind, Option.bind_some]
    rw [icode_eq hg hr.2.1]
    exact e3
  rw [this]
  congr 1
  funext q
  rw [e4 q, pushed]
  have hw : ccode c r.1 ++ icode c r.2 = word c r := rfl
  rw [hw]
  have hq1 : h1 q = match nextBit q (ccode c r.1) with
      | some b => (h q).map (Node.push b)
      | none => h q := by rw [e2, if_pos (by simp), List.nil_append]
  by_cases hl : (ccode c r.1).length ≤ q.length
  · have hn : nextBit q (ccode c r.1) = none := by
      cases e : nextBit q (ccode c r.1) with
      | none => rfl
      | some b =>
        obtain ⟨x, hx⟩ := nextBit_eq_some.mp e
        have := congrArg List.length hx
        simp at this
        omega
    rw [hn] at hq1
    simp only [] at hq1
    rw [hq1, if_pos hl]
  · have hne : q ≠ word c r := by
      intro e
      have := congrArg List.length e
      rw [word, List.length_append] at this
      omega
    rw [if_neg hne, if_neg hne, if_neg hl, hq1]
    cases e : nextBit q (ccode c r.1) with
    | none =>
      have : nextBit q (word c r) = none := by
        cases e' : nextBit q (word c r) with
        | none => rfl
        | some b =>
          obtain ⟨x, hx⟩ := nextBit_eq_some.mp e'
          rcases append_comparable (a := ccode c r.1) (b := icode c r.2) hx with ⟨y, h5, h6⟩ | ⟨y, h5, h6⟩
          · exfalso
            rw [h5, List.length_append] at hl
            omega
          · cases y with
            | nil =>
              exfalso
              rw [List.append_nil] at h5
              rw [h5] at hl
              omega
            | cons z y =>
              rw [h5, nextBit_append] at e
              simp at e
      rw [this]
    | some b =>
      obtain ⟨x, hx⟩ := nextBit_eq_some.mp e
      have : nextBit q (word c r) = some b := nextBit_eq_some.mpr ⟨x ++ icode c r.2, by rw [word, hx]; simp⟩
      rw [this]
      obtain ⟨nd, hnd⟩ := Option.isSome_iff_exists.mp (hex q _ hx)
      rw [hnd]
      rfl

/-! ## The tree of a list of runs -/

/-- The words of a list of runs. -/
def words (c : Codes) (rs : List (UInt8 × Nat)) : List (List Bool) := rs.map (word c)

/-- The nodes of the tree into which a list of runs has been pushed. -/
def treeOf (c : Codes) (rs : List (UInt8 × Nat)) : Heap := fun q =>
  match Heap.ofShape c.root q with
  | some nd => some ⟨nd.sym, bitsAt (words c rs) q⟩
  | none =>
    match rs.find? fun r => word c r = q with
    | some r => some ⟨some r.2, bitsAt (words c rs) q⟩
    | none => if bitsAt (words c rs) q = [] then none else some ⟨none, bitsAt (words c rs) q⟩

theorem treeOf_nil (c : Codes) : treeOf c [] = Heap.ofShape c.root := by
  funext q
  rw [treeOf]
  cases h : Heap.ofShape c.root q with
  | none => rfl
  | some nd =>
    rw [Heap.ofShape] at h
    split at h
    · simp at h
    · simp at h; subst h; rfl

theorem ofShape_none {t : Sh} {q : Path} : Heap.ofShape t q = none ↔ t.get q = .nil := by
  rw [Heap.ofShape]
  cases t.get q <;> simp

theorem ofShape_node {t : Sh} {q : Path} {s : Option Nat} {l r : Sh} (h : t.get q = .node s l r) :
    Heap.ofShape t q = some ⟨s, []⟩ := by
  rw [Heap.ofShape, h]

theorem pushed_treeOf {c : Codes} (hg : GoodCodes c) {rs : List (UInt8 × Nat)} {r : UInt8 × Nat}
    (hrs : ∀ x ∈ rs, Covered c x) (hr : Covered c r) :
    pushed (treeOf c rs) (word c r) r.2 = treeOf c (rs ++ [r]) := by
  funext q
  have hbits : bitsAt (words c (rs ++ [r])) q = bitsAt (words c rs) q ++ (nextBit q (word c r)).toList := by
    rw [words, List.map_append, bitsAt_append]
    congr 1
  rw [pushed]
  by_cases hq : q = word c r
  · rw [if_pos hq]
    have hbase : Heap.ofShape c.root q = none := by rw [ofShape_none, hq]; exact root_get_word hg hr
    have hn : nextBit q (word c r) = none := by rw [hq]; exact nextBit_self _
    rw [hn, Option.toList_none, List.append_nil] at hbits
    have hnil : bitsAt (words c rs) q = [] := by
      rw [bitsAt_eq_nil]
      intro w hw
      obtain ⟨r', hr', rfl⟩ := List.mem_map.mp hw
      cases e : nextBit q (word c r') with
      | none => rfl
      | some b =>
        obtain ⟨x, hx⟩ := nextBit_eq_some.mp e
        rw [hq] at hx
        have := (word_prefix hg hr (hrs _ hr') hx).1
        simp at this
    have hsame : ∀ r', (r' ∈ rs ∨ r' = r) → word c r' = q → r' = r := by
      intro r' hm e
      rcases hm with hm | hm
      · have := word_prefix hg hr (hrs _ hm) (q := []) (by rw [List.append_nil, e, hq])
        exact this.2.symm
      · exact hm
    rw [treeOf, treeOf, hbase, hbits, hnil]
    simp only [if_true]
    have h2 : (rs ++ [r]).find? (fun r => word c r = q) = some r := by
      cases e : (rs ++ [r]).find? (fun r => word c r = q) with
      | none =>
        have := List.find?_eq_none.mp e r (by simp)
        rw [decide_eq_true_eq] at this
        exact absurd hq.symm this
      | some r' =>
        have h1 := List.find?_some e
        have h2 := List.mem_of_find?_eq_some e
        rw [decide_eq_true_eq] at h1
        rw [hsame r' (by simpa using h2) h1]
    rw [h2]
    cases e : rs.find? (fun r => word c r = q) with
    | none => rfl
    | some r' =>
      have h1 := List.find?_some e
      have h3 := List.mem_of_find?_eq_some e
      rw [decide_eq_true_eq] at h1
      rw [hsame r' (Or.inl h3) h1]
      rfl
  · rw [if_neg hq]
    have hfind : (rs ++ [r]).find? (fun r => word c r = q) = rs.find? (fun r => word c r = q) := by
      rw [List.find?_append, List.find?_cons]
      have : decide (word c r = q) = false := decide_eq_false (fun e => hq e.symm)
      rw [this]
      simp
    cases e : nextBit q (word c r) with
    | none =>
      rw [e, Option.toList_none, List.append_nil] at hbits
      rw [treeOf, treeOf, hbits, hfind]
    | some b =>
      rw [e, Option.toList_some] at hbits
      rw [treeOf, treeOf, hbits, hfind]
      cases hb : Heap.ofShape c.root q with
      | some nd => rfl
      | none =>
        have hf : rs.find? (fun r => word c r = q) = none := by
          rw [List.find?_eq_none]
          intro r' hr' e2
          rw [decide_eq_true_eq] at e2
          obtain ⟨x, hx⟩ := nextBit_eq_some.mp e
          rw [← e2] at hx
          have := (word_prefix hg (hrs _ hr') hr hx).1
          simp at this
        rw [hf]
        simp only [List.append_eq_nil_iff, List.cons_ne_nil, and_false, if_false]
        by_cases hnil : bitsAt (words c rs) q = []
        · rw [hnil]; rfl
        · rw [if_neg hnil]; rfl

theorem pushRuns_eq {c : Codes} (hg : GoodCodes c) : ∀ (rs pre : List (UInt8 × Nat)),
    (∀ x ∈ pre ++ rs, Covered c x) → pushRuns c (treeOf c pre) rs = some (treeOf c (pre ++ rs))
  | [], pre, _ => by rw [pushRuns, List.append_nil]
  | r :: rs, pre, hcov => by
    have hr : Covered c r := hcov r (by simp)
    rw [pushRuns, pushRun_spec hg hr]
    · rw [Option.bind_some, pushed_treeOf hg (fun x hx => hcov x (by simp [hx])) hr,
        pushRuns_eq hg rs (pre ++ [r]) (by simpa using hcov)]
      simp
    · intro a b e
      have h1 := ccode_get hg hr.1
      rw [e, Sh.get_append] at h1
      rw [treeOf]
      cases hb : Heap.ofShape c.root a with
      | some nd => rfl
      | none =>
        rw [ofShape_none] at hb
        rw [hb] at h1
        simp [Sh.leaf] at h1

theorem pushRuns_treeOf {c : Codes} (hg : GoodCodes c) {rs : List (UInt8 × Nat)} (h : ∀ x ∈ rs, Covered c x) :
    pushRuns c (Heap.ofShape c.root) rs = some (treeOf c rs) := by
  have := pushRuns_eq hg rs [] (by simpa using h)
  rwa [treeOf_nil, List.nil_append] at this

/-! ## The runs of a message -/

theorem leadRun_eq (x : UInt8) (l : List UInt8) : leadRun x l = Runs.extend x l := by
  induction l with
  | nil => rfl
  | cons y l ih => rw [leadRun, Runs.extend, ih]

theorem messageRuns_eq : ∀ (fuel : Nat) (data : List UInt8), data.length < fuel → data ≠ [] →
    messageRuns fuel data = some (Runs.runsOf data)
  | 0, _, h, _ => by omega
  | _ + 1, [], _, h => absurd rfl h
  | fuel + 1, x :: l, hl, _ => by
    have hlen := Runs.extend_length x l
    rw [messageRuns, leadRun_eq, Runs.runsOf]
    cases h : (Runs.extend x l).2 with
    | nil => simp only []; rw [Runs.runsOf, Nat.add_comm]
    | cons y t =>
      rw [h] at hlen
      cases t with
      | nil => simp only []; rw [Runs.runsOf, Nat.add_comm, Runs.extend_single, Runs.runsOf]; rfl
      | cons z t =>
        simp only []
        rw [messageRuns_eq fuel (y :: z :: t) (by simp at hl hlen ⊢; omega) (by simp), Nat.add_comm]
        rfl

end Bwtc.Wave
