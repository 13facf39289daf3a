import Verif.WaveBF

/-!
# The codes of run lengths: decoding, and the states of the decoder along them
-/

set_option autoImplicit false

namespace Bwtc.Wave
open Huff

/-! ## Walking down a code tree -/

theorem Full.get {t : Sh} (h : Full t) : ∀ {p : List Bool}, t.get p ≠ .nil → Full (t.get p) := by
  induction h with
  | leaf s =>
    intro p hp
    cases p with
    | nil => exact Full.leaf s
    | cons b p => exact absurd (Sh.leaf_get s b p) hp
  | node l r hl hr hc ihl ihr =>
    intro p hp
    cases p with
    | nil => exact Full.node l r hl hr hc
    | cons b p => cases b <;> first | exact ihl hp | exact ihr hp

/-- A proper prefix of a path to a node of a full tree leads to an inner node. -/
theorem Full.inner {t : Sh} (h : Full t) {p : List Bool} {b : Bool} {q : List Bool} (hn : t.get (p ++ b :: q) ≠ .nil) :
    ∃ l r, t.get p = .node none l r ∧ Full l ∧ Full r ∧ ∀ s, r = .leaf s → ∃ s', l = .leaf s' := by
  rw [Sh.get_append] at hn
  have h1 : t.get p ≠ .nil := by intro e; rw [e] at hn; simp at hn
  have h2 := h.get h1
  revert h2 hn
  generalize t.get p = u
  intro hn h2
  cases h2 with
  | leaf s => exact absurd (Sh.leaf_get s b q) hn
  | node l r hl hr hc => exact ⟨l, r, rfl, hl, hr, hc⟩

theorem walkTree_get {s : Nat} (rest : List Bool) : ∀ (code : List Bool) (l r : Sh), Full (.node none l r) →
    (Sh.node none l r).get code = .leaf s → walkTree (.node none l r) (code ++ rest) = some (s, rest)
  | [], l, r, _, h => by simp [Sh.leaf] at h
  | b :: code, l, r, hf, h => by
    have key : ∀ t : Sh, Full t → t.get code = .leaf s →
        (match t with
          | .nil => none
          | .node (some y) _ _ => some (y, code ++ rest)
          | .node none l' r' => walkTree (.node none l' r') (code ++ rest)) = some (s, rest) := by
      intro t ht hc
      cases ht with
      | leaf y =>
        cases code with
        | nil => simp [Sh.leaf] at hc; subst hc; rfl
        | cons b' code => rw [Sh.leaf_get] at hc; simp [Sh.leaf] at hc
      | node l' r' hl hr hx => exact walkTree_get rest code l' r' (Full.node l' r' hl hr hx) hc
    cases hf with
    | node _ _ hl hr hx =>
      cases b with
      | false => exact key l hl h
      | true => exact key r hr h

/-- Two leaves of a tree, one above the other, are the same. -/
theorem leaf_prefix {t : Sh} {s s' : Nat} {p q : List Bool} (hp : t.get p = .leaf s) (hq : t.get (p ++ q) = .leaf s') :
    q = [] ∧ s = s' := by
  rw [Sh.get_append, hp] at hq
  cases q with
  | nil => simp [Sh.leaf] at hq; exact ⟨rfl, hq⟩
  | cons b q => rw [Sh.leaf_get] at hq; simp [Sh.leaf] at hq

/-- The code of the escape symbol. -/
theorem escape_get {c : Codes} (hg : GoodCodes c) : c.itree.get (codeOf c.icodes 0) = .leaf 0 := by
  rcases hg.itree with ⟨h1, h2⟩ | ⟨_, h2, h3, _⟩
  · rw [h1, h2]; rfl
  · obtain ⟨p, hp, h0⟩ := List.mem_map.mp h3
    have h0 : p.1 = 0 := h0
    have := codeOf_mem h2.nodup hp
    rw [h0] at this
    rw [this]
    exact (h2.mem 0 p.2).mp (by rw [← h0]; exact hp)

theorem Sh.node_sym_none {l r : Sh} : (Sh.node none l r).sym = none := rfl

theorem Sh.leaf_sym (s : Nat) : (Sh.leaf s).sym = some s := rfl

/-- Looking up a run length in the map of codes. -/
theorem find_icode {c : Codes} (hg : GoodCodes c) {n : Nat} (hn : 0 < n) {p : Nat × List Bool}
    (h : c.icodes.find? (fun p => decide (p.1 = n)) = some p) :
    (∃ l r, c.itree = .node none l r ∧ Full c.itree) ∧ c.itree.get p.2 = .leaf n := by
  have h1 := List.find?_some h
  have h2 := List.mem_of_find?_eq_some h
  simp only [decide_eq_true_eq] at h1
  rcases hg.itree with ⟨_, h4⟩ | ⟨h3, h4, _, _⟩
  · rw [h4, List.mem_singleton] at h2
    subst h2
    simp at h1
    omega
  · exact ⟨h3, (h4.mem n p.2).mp (by rw [← h1]; exact h2)⟩

/-- Every run length has a code. -/
theorem runCode_some {c : Codes} (hg : GoodCodes c) {n : Nat} (hn : 0 < n) : ∃ code, runCode c n = some code := by
  rw [runCode]
  split
  · exact ⟨_, rfl⟩
  · rw [fixedCode_eq hn (by have := hg.w; omega)]
    exact ⟨_, rfl⟩

/-- The code of a run length, in front of any bits, is decoded to that run length. -/
theorem decodeRun_code {c : Codes} (hg : GoodCodes c) {n : Nat} (hn : 0 < n) (h32 : n < 2 ^ 32)
    {code : List Bool} (hc : runCode c n = some code) (rest : List Bool) :
    decodeRun c (code ++ rest) = some (n, rest) := by
  rw [runCode] at hc
  cases hf : c.icodes.find? (fun p => decide (p.1 = n)) with
  | some p =>
    rw [hf] at hc
    simp only [Option.some.injEq] at hc
    subst hc
    obtain ⟨⟨l, r, e, hF⟩, hget⟩ := find_icode hg hn hf
    rw [e] at hget hF
    have := walkTree_get rest p.2 l r hF hget
    rw [decodeRun, e]
    simp only [Sh.node_sym_none, Option.isNone_none, if_true, this]
    show (if n = 0 then readFixed c.w rest else pure (n, rest)) = _
    rw [if_neg (by omega)]
    rfl
  | none =>
    rw [hf] at hc
    simp only [Option.map_eq_some_iff] at hc
    obtain ⟨fc, hfc, rfl⟩ := hc
    have hrd := readFixed_code hn h32 hg.w hfc rest
    have he := escape_get hg
    rcases hg.itree with ⟨h1, h2⟩ | ⟨⟨l, r, e, hF⟩, _⟩
    · have : codeOf c.icodes 0 = [] := by rw [h2]; rfl
      rw [decodeRun, h1, this]
      show readFixed c.w ([] ++ fc ++ rest) = _
      exact hrd
    · rw [e] at he hF
      have := walkTree_get (fc ++ rest) _ l r hF he
      rw [decodeRun, e]
      simp only [Sh.node_sym_none, Option.isNone_none, if_true, List.append_assoc, this]
      exact hrd

/-! ## States of the decoder along a code -/

/-- The state of `decodeTreeBF` at a path below a node with a byte. -/
def irun (w : Nat) : IState → List Bool → IState
  | s, [] => s
  | s, b :: q => irun w (s.step w b) q

theorem irun_append (w : Nat) (s : IState) (p q : List Bool) : irun w s (p ++ q) = irun w (irun w s p) q := by
  induction p generalizing s with
  | nil => rfl
  | cons b p ih => exact ih _

theorem Sh.get_child (t : Sh) (b : Bool) (q : List Bool) : t.get (b :: q) = (t.child b).get q := by
  cases t with
  | nil => cases b <;> simp [Sh.child]
  | node s l r => cases b <;> rfl

theorem irun_tree (w : Nat) : ∀ (q : List Bool) (t : Sh) (a s : Nat), t.get q ≠ .nil →
    irun w ⟨t, a, s⟩ q = ⟨t.get q, a, s⟩
  | [], t, a, s, _ => by simp [irun]
  | b :: q, t, a, s, h => by
    rw [Sh.get_child] at h ⊢
    have hc : t.child b ≠ .nil := by intro e; rw [e] at h; simp at h
    rw [irun, IState.step]
    simp only [hc, if_false]
    exact irun_tree w q _ a s h

/-- The code is not complete here. -/
def IState.inner (s : IState) : Prop := s.goesOn = true ∧ (s.t.sym = none ∨ s.t.sym = some 0)

/-- The code of `n` ends here. -/
def IState.final (n : Nat) (s : IState) : Prop :=
  (s.t.sym = some n ∧ s.goesOn = true) ∨ (s.t.sym = none ∧ s.goesOn = false)

theorem IState.not_final {s : IState} {n : Nat} (hn : 0 < n) (h : s.inner) : ¬ s.final n := by
  obtain ⟨h1, h2⟩ := h
  rintro (⟨h3, _⟩ | ⟨_, h4⟩)
  · rcases h2 with h2 | h2
    · rw [h2] at h3; simp at h3
    · rw [h2] at h3; simp at h3; omega
  · rw [h1] at h4; simp at h4

theorem irun_ones (w k : Nat) : irun w ⟨.leaf 0, 0, 0⟩ (List.replicate (k + 1) true) = ⟨.nil, k + 1, 1⟩ := by
  induction k with
  | zero => rfl
  | succ k ih =>
    rw [List.replicate_succ', irun_append, ih]
    rfl

theorem irun_tail (w : Nat) : ∀ (tl : List Bool) (m : Nat), irun w ⟨.nil, m, 2⟩ tl = ⟨.nil, m - tl.length, 2⟩
  | [], m => rfl
  | b :: tl, m => by
    rw [irun]
    have : IState.step w ⟨.nil, m, 2⟩ b = ⟨.nil, m - 1, 2⟩ := by cases b <;> rfl
    rw [this, irun_tail w tl, List.length_cons]
    congr 1
    omega

theorem irun_zero (w B : Nat) : irun w ⟨.leaf 0, 0, 0⟩ (List.replicate B true ++ [false]) = ⟨.nil, B + w, 2⟩ := by
  rw [irun_append]
  cases B with
  | zero =>
    show IState.step w ⟨.leaf 0, 0, 0⟩ false = _
    rw [Nat.zero_add]
    rfl
  | succ k => rw [irun_ones]; rfl

theorem fixed_inner {w B : Nat} {tl q r : List Bool} {b : Bool} (hl : tl.length = w + B)
    (h : List.replicate B true ++ false :: tl = q ++ b :: r) : (irun w ⟨.leaf 0, 0, 0⟩ q).inner := by
  rcases List.append_eq_append_iff.mp h with ⟨a, h1, h2⟩ | ⟨a, h1, h2⟩
  · cases a with
    | nil =>
      rw [h1, List.append_nil]
      cases B with
      | zero => exact ⟨rfl, Or.inr rfl⟩
      | succ k => rw [irun_ones]; exact ⟨rfl, Or.inl rfl⟩
    | cons x a =>
      rw [List.cons_append, List.cons.injEq] at h2
      obtain ⟨rfl, h2⟩ := h2
      have e : q = (List.replicate B true ++ [false]) ++ a := by rw [h1]; simp
      rw [e, irun_append, irun_zero, irun_tail]
      refine ⟨?_, Or.inl rfl⟩
      have : tl.length = a.length + (r.length + 1) := by rw [h2]; simp
      simp only [IState.goesOn, decide_eq_true_eq]
      right
      omega
  · have e : q = List.replicate q.length true := by
      apply List.eq_replicate_iff.mpr
      refine ⟨rfl, ?_⟩
      intro x hx
      have : x ∈ List.replicate B true := by rw [h1]; exact List.mem_append_left _ hx
      exact (List.mem_replicate.mp this).2
    rw [e]
    cases q.length with
    | zero => exact ⟨rfl, Or.inr rfl⟩
    | succ k => rw [irun_ones]; exact ⟨rfl, Or.inl rfl⟩

/-- The state at the path `q` below a byte. -/
def istate (c : Codes) (q : List Bool) : IState := irun c.w ⟨c.itree, 0, 0⟩ q

/-- The states along the code of a run length. -/
theorem runCode_states {c : Codes} (hg : GoodCodes c) {n : Nat} (hn : 0 < n) {code : List Bool}
    (hc : runCode c n = some code) :
    code ≠ [] ∧ (∀ q b r, code = q ++ b :: r → (istate c q).inner) ∧ (istate c code).final n := by
  rw [runCode] at hc
  cases hf : c.icodes.find? (fun p => decide (p.1 = n)) with
  | some p =>
    rw [hf] at hc
    simp only [Option.some.injEq] at hc
    subst hc
    obtain ⟨⟨l, r, e, hF⟩, hget⟩ := find_icode hg hn hf
    refine ⟨?_, ?_, ?_⟩
    · intro e2
      rw [e2, e] at hget
      simp [Sh.leaf] at hget
    · intro q b r' hq
      rw [hq] at hget
      obtain ⟨l', r', h1, _⟩ := hF.inner (p := q) (b := b) (by rw [hget]; simp [Sh.leaf])
      rw [istate, irun_tree _ _ _ _ _ (by rw [h1]; simp), h1]
      exact ⟨rfl, Or.inl rfl⟩
    · rw [istate, irun_tree _ _ _ _ _ (by rw [hget]; simp [Sh.leaf]), hget]
      exact Or.inl ⟨rfl, rfl⟩
  | none =>
    rw [hf] at hc
    simp only [Option.map_eq_some_iff] at hc
    obtain ⟨fc, hfc, rfl⟩ := hc
    have he := escape_get hg
    rw [fixedCode_eq hn (by have := hg.w; omega), Option.some.injEq] at hfc
    have hst : istate c (codeOf c.icodes 0) = ⟨.leaf 0, 0, 0⟩ := by
      rw [istate, irun_tree _ _ _ _ _ (by rw [he]; simp [Sh.leaf]), he]
    have hlen : (bitsOf (c.w + fixedB n c.w) (n - translation (fixedB n c.w) c.w)).length = c.w + fixedB n c.w :=
      bitsOf_length _ _
    revert hlen hfc
    generalize bitsOf (c.w + fixedB n c.w) (n - translation (fixedB n c.w) c.w) = tl
    generalize fixedB n c.w = B
    intro hfc hlen
    subst hfc
    refine ⟨by simp, ?_, ?_⟩
    · intro q b r hq
      rcases List.append_eq_append_iff.mp hq with ⟨a, h1, h2⟩ | ⟨a, h1, h2⟩
      · rw [h1]
        rw [istate, irun_append]
        rw [istate] at hst
        rw [hst]
        exact fixed_inner hlen h2
      · cases a with
        | nil =>
          rw [List.append_nil] at h1
          rw [← h1, hst]
          exact ⟨rfl, Or.inr rfl⟩
        | cons x a =>
          rcases hg.itree with ⟨h3, h4⟩ | ⟨⟨l, r', e, hF⟩, _⟩
          · exfalso
            have : codeOf c.icodes 0 = [] := by rw [h4]; rfl
            rw [this] at h1
            simp at h1
          · rw [h1] at he
            obtain ⟨l', r', h5, _⟩ := hF.inner (p := q) (b := x) (by rw [he]; simp [Sh.leaf])
            rw [istate, irun_tree _ _ _ _ _ (by rw [h5]; simp), h5]
            exact ⟨rfl, Or.inl rfl⟩
    · right
      rw [istate, irun_append]
      rw [istate] at hst
      have e : List.replicate B true ++ false :: tl = (List.replicate B true ++ [false]) ++ tl := by simp
      rw [hst, e, irun_append, irun_zero, irun_tail, hlen]
      refine ⟨rfl, ?_⟩
      simp [IState.goesOn]
      omega

/-- The codes of run lengths are prefix-free. -/
theorem runCode_prefix {c : Codes} (hg : GoodCodes c) {n m : Nat} (hn : 0 < n) (hm : 0 < m)
    {x y r : List Bool} (hx : runCode c n = some x) (hy : runCode c m = some y) (h : y = x ++ r) : r = [] := by
  cases r with
  | nil => rfl
  | cons b r =>
    exact absurd (runCode_states hg hn hx).2.2
      (IState.not_final hn ((runCode_states hg hm hy).2.1 x b r h))

/-- Different run lengths have different codes. -/
theorem runCode_inj {c : Codes} (hg : GoodCodes c) {n m : Nat} (hn : 0 < n) (hm : 0 < m) (hn32 : n < 2 ^ 32)
    (hm32 : m < 2 ^ 32) {x : List Bool} (hx : runCode c n = some x) (hy : runCode c m = some x) : n = m := by
  have h1 := decodeRun_code hg hn hn32 hx []
  have h2 := decodeRun_code hg hm hm32 hy []
  rw [h1] at h2
  simpa using h2

end Bwtc.Wave
