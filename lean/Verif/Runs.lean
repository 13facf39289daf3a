import Verif.Basic

/-!
# Scanning runs

Model of `utils::calculateRunFrequencies`, `calculateRunsAndCharacters` and
`calculateRunFrequenciesAndStoreRuns` (Utils.cpp:116-170).  The pointers `prev` and `curr` are
represented by the suffix of the block starting at `prev`; `curr` is one past it at the start of
each round.
-/

set_option autoImplicit false

namespace Bwtc.Runs

/-- `++table[k]`. -/
def bump {κ : Type} [DecidableEq κ] (f : κ → Nat) (k : κ) : κ → Nat :=
  fun x => if x = k then f x + 1 else f x

/-- The inner loop `while(curr < end && *prev == *curr) ++curr` (Utils.cpp:121, 135, 158):
how far `curr` moves, and the suffix at which it stops. -/
def extend (c : UInt8) : List UInt8 → Nat × List UInt8
  | [] => (0, [])
  | d :: t => if c = d then let (n, r) := extend c t; (n + 1, r) else (0, d :: t)

theorem extend_length (c : UInt8) (t : List UInt8) : (extend c t).2.length ≤ t.length := by
  induction t with
  | nil => simp [extend]
  | cons d t ih => simp only [extend]; split <;> simp <;> omega

/-- `calculateRunFrequencies` (Utils.cpp:116-126): the table after the call.  `none`: the block
is empty and `*prev` is read outside it. -/
def runFreqs (fr : UInt8 → Nat) : List UInt8 → Option (UInt8 → Nat)
  | [] => none
  | c :: t =>
    match _h : (extend c t).2 with
    | [] => some (bump fr c)
    | [d] => some (bump (bump fr c) d)
    | d :: e :: r => runFreqs (bump fr c) (d :: e :: r)
termination_by l => l.length
decreasing_by have := extend_length c t; rw [_h] at this; simp at this ⊢; omega

/-- `calculateRunsAndCharacters` (Utils.cpp:128-147): total number of runs, table of
characters, table of run lengths (the map key is a `uint32`). -/
def runsAndChars (total : Nat) (fr : UInt8 → Nat) (runs : Nat → Nat) :
    List UInt8 → Option (Nat × (UInt8 → Nat) × (Nat → Nat))
  | [] => none
  | c :: t =>
    let len := (1 + (extend c t).1) % 2 ^ 32
    match _h : (extend c t).2 with
    | [] => some (total + 1, bump fr c, bump runs len)
    | [d] => some (total + 2, bump (bump fr c) d, bump (bump runs len) 1)
    | d :: e :: r => runsAndChars (total + 1) (bump fr c) (bump runs len) (d :: e :: r)
termination_by l => l.length
decreasing_by have := extend_length c t; rw [_h] at this; simp at this ⊢; omega

/-- `calculateRunFrequenciesAndStoreRuns` (Utils.cpp:150-170): number of runs, table of
characters, and the stored sequence of (symbol, run length) pairs (`runseq[k]`, `runlen[k]`;
the lengths are `uint32`). -/
def storeRuns (cnt : Nat) (fr : UInt8 → Nat) (out : List (UInt8 × Nat)) :
    List UInt8 → Option (Nat × (UInt8 → Nat) × List (UInt8 × Nat))
  | [] => none
  | c :: t =>
    let len := (1 + (extend c t).1) % 2 ^ 32
    match _h : (extend c t).2 with
    | [] => some (cnt + 1, bump fr c, out ++ [(c, len)])
    | [d] => some (cnt + 2, bump (bump fr c) d, out ++ [(c, len), (d, 1)])
    | d :: e :: r => storeRuns (cnt + 1) (bump fr c) (out ++ [(c, len)]) (d :: e :: r)
termination_by l => l.length
decreasing_by have := extend_length c t; rw [_h] at this; simp at this ⊢; omega

/-! ## Specification -/

/-- Neighbouring runs have different symbols. -/
def AdjDiff : List (UInt8 × Nat) → Prop
  | [] => True
  | [_] => True
  | a :: b :: l => a.1 ≠ b.1 ∧ AdjDiff (b :: l)

/-- Expansion of a list of runs. -/
def expand (rs : List (UInt8 × Nat)) : List UInt8 := rs.flatMap fun r => List.replicate r.2 r.1

/-- `rs` is the list of maximal runs of `l`. -/
structure IsRuns (rs : List (UInt8 × Nat)) (l : List UInt8) : Prop where
  expands : expand rs = l
  adj : AdjDiff rs
  pos : ∀ r ∈ rs, 1 ≤ r.2

/-! ## Lemmas -/

/-- The runs by structural recursion (helper for the proofs). -/
def runsOf : List UInt8 → List (UInt8 × Nat)
  | [] => []
  | c :: t => (c, 1 + (extend c t).1) :: runsOf (extend c t).2
termination_by l => l.length
decreasing_by have := extend_length c t; simp; omega

theorem extend_spec (c : UInt8) (t : List UInt8) :
    t = List.replicate (extend c t).1 c ++ (extend c t).2 ∧
      ∀ d r, (extend c t).2 = d :: r → c ≠ d := by
  induction t with
  | nil => simp [extend]
  | cons d t ih =>
    simp only [extend]
    split
    · rename_i h
      subst h
      refine ⟨?_, ih.2⟩
      simp only [List.replicate_succ, List.cons_append]
      exact congrArg _ ih.1
    · rename_i h
      refine ⟨by simp, ?_⟩
      intro e r he
      simp at he
      rw [← he.1]; exact h

theorem runsOf_head (d : UInt8) (r : List UInt8) : ∃ n rs, runsOf (d :: r) = (d, n) :: rs := by
  rw [runsOf]; exact ⟨_, _, rfl⟩

theorem runsOf_isRuns (l : List UInt8) : IsRuns (runsOf l) l := by
  fun_induction runsOf l with
  | case1 => exact ⟨rfl, trivial, by simp⟩
  | case2 c t ih =>
    have hs := extend_spec c t
    refine ⟨?_, ?_, ?_⟩
    · rw [expand, List.flatMap_cons]
      have := ih.expands
      rw [expand] at this
      rw [this, Nat.add_comm, List.replicate_succ, List.cons_append, ← hs.1]
    · cases hr : (extend c t).2 with
      | nil => rw [runsOf]; trivial
      | cons d r =>
        have hne := hs.2 d r hr
        have hadj := ih.adj
        rw [hr] at hadj
        obtain ⟨n, rs, e⟩ := runsOf_head d r
        rw [e] at hadj ⊢
        exact ⟨hne, hadj⟩
    · intro x hx
      rcases List.mem_cons.mp hx with rfl | hx
      · simp
      · exact ih.pos x hx

theorem runsOf_bound (l : List UInt8) (x : UInt8 × Nat) (hx : x ∈ runsOf l) : x.2 ≤ l.length := by
  fun_induction runsOf l with
  | case1 => simp at hx
  | case2 c t ih =>
    have hs := congrArg List.length (extend_spec c t).1
    simp at hs
    rcases List.mem_cons.mp hx with rfl | hx
    · simp only [List.length_cons]; omega
    · have := ih hx
      simp only [List.length_cons]; omega

theorem runsOf_length_le (l : List UInt8) : (runsOf l).length ≤ l.length := by
  fun_induction runsOf l with
  | case1 => simp
  | case2 c t ih => have := extend_length c t; simp; omega

/-- Number of runs satisfying a predicate, added to a table by `bump`. -/
theorem bump_foldl {κ : Type} [DecidableEq κ] (f : κ → Nat) (ks : List κ) (x : κ) :
    ks.foldl bump f x = f x + ks.count x := by
  induction ks generalizing f with
  | nil => simp
  | cons k ks ih =>
    rw [List.foldl_cons, ih, bump, List.count_cons]
    by_cases h : x = k
    · subst h; simp; omega
    · have : ¬ k = x := fun h' => h h'.symm
      simp [h, this]

theorem extend_single (d : UInt8) : extend d [] = (0, []) := rfl

theorem runFreqs_eq (fr : UInt8 → Nat) (l : List UInt8) (h : l ≠ []) :
    runFreqs fr l = some (((runsOf l).map (·.1)).foldl bump fr) := by
  fun_induction runFreqs fr l with
  | case1 => exact absurd rfl h
  | case2 fr c t hr => rw [runsOf, hr, runsOf]; rfl
  | case3 fr c t d hr => rw [runsOf, hr, runsOf, extend_single, runsOf]; rfl
  | case4 fr c t d e r hr ih =>
    rw [ih (by simp)]
    conv => rhs; rw [runsOf, hr]
    rfl

theorem runsAndChars_eq (total : Nat) (fr : UInt8 → Nat) (runs : Nat → Nat) (l : List UInt8)
    (h : l ≠ []) (hl : l.length < 2 ^ 32) :
    runsAndChars total fr runs l = some (total + (runsOf l).length,
      ((runsOf l).map (·.1)).foldl bump fr, ((runsOf l).map (·.2)).foldl bump runs) := by
  fun_induction runsAndChars total fr runs l with
  | case1 => exact absurd rfl h
  | case2 total fr runs c t len hr =>
    have hlen : len = 1 + (extend c t).1 := by
      have := congrArg List.length (extend_spec c t).1
      simp at this hl
      exact Nat.mod_eq_of_lt (by omega)
    rw [runsOf, hr, runsOf, ← hlen]
    rfl
  | case3 total fr runs c t len d hr =>
    have hlen : len = 1 + (extend c t).1 := by
      have := congrArg List.length (extend_spec c t).1
      simp at this hl
      exact Nat.mod_eq_of_lt (by omega)
    rw [runsOf, hr, runsOf, extend_single, runsOf, ← hlen]
    rfl
  | case4 total fr runs c t len d e r hr ih =>
    have hlen : len = 1 + (extend c t).1 := by
      have := congrArg List.length (extend_spec c t).1
      simp at this hl
      exact Nat.mod_eq_of_lt (by omega)
    have hl' : (d :: e :: r).length < 2 ^ 32 := by
      have := extend_length c t
      rw [hr] at this
      simp at this hl ⊢
      omega
    rw [ih (by simp) hl']
    conv => rhs; rw [runsOf, hr, ← hlen]
    simp only [List.length_cons, List.map_cons, List.foldl_cons]
    congr 2
    omega

theorem storeRuns_eq (cnt : Nat) (fr : UInt8 → Nat) (out : List (UInt8 × Nat)) (l : List UInt8)
    (h : l ≠ []) (hl : l.length < 2 ^ 32) :
    storeRuns cnt fr out l = some (cnt + (runsOf l).length,
      ((runsOf l).map (·.1)).foldl bump fr, out ++ runsOf l) := by
  fun_induction storeRuns cnt fr out l with
  | case1 => exact absurd rfl h
  | case2 total fr runs c t len hr =>
    have hlen : len = 1 + (extend c t).1 := by
      have := congrArg List.length (extend_spec c t).1
      simp at this hl
      exact Nat.mod_eq_of_lt (by omega)
    rw [runsOf, hr, runsOf, ← hlen]
    rfl
  | case3 total fr runs c t len d hr =>
    have hlen : len = 1 + (extend c t).1 := by
      have := congrArg List.length (extend_spec c t).1
      simp at this hl
      exact Nat.mod_eq_of_lt (by omega)
    rw [runsOf, hr, runsOf, extend_single, runsOf, ← hlen]
    rfl
  | case4 total fr runs c t len d e r hr ih =>
    have hlen : len = 1 + (extend c t).1 := by
      have := congrArg List.length (extend_spec c t).1
      simp at this hl
      exact Nat.mod_eq_of_lt (by omega)
    have hl' : (d :: e :: r).length < 2 ^ 32 := by
      have := extend_length c t
      rw [hr] at this
      simp at this hl ⊢
      omega
    rw [ih (by simp) hl']
    conv => rhs; rw [runsOf, hr, ← hlen]
    simp only [List.length_cons, List.map_cons, List.foldl_cons, List.append_assoc, List.cons_append,
      List.nil_append]
    congr 2
    omega

theorem count_map_fst (rs : List (UInt8 × Nat)) (c : UInt8) :
    (rs.map (·.1)).count c = rs.countP (fun r => r.1 = c) := by
  induction rs with
  | nil => rfl
  | cons r rs ih => simp [List.count_cons, List.countP_cons, ih]

theorem count_map_snd (rs : List (UInt8 × Nat)) (n : Nat) :
    (rs.map (·.2)).count n = rs.countP (fun r => r.2 = n) := by
  induction rs with
  | nil => rfl
  | cons r rs ih => simp [List.count_cons, List.countP_cons, ih]

theorem adjDiff_tail {a : UInt8 × Nat} {l : List (UInt8 × Nat)} (h : AdjDiff (a :: l)) : AdjDiff l := by
  cases l with
  | nil => trivial
  | cons b l => exact h.2

theorem extend_replicate (c : UInt8) (n : Nat) (r : List UInt8) (h : ∀ d t, r = d :: t → c ≠ d) :
    extend c (List.replicate n c ++ r) = (n, r) := by
  induction n with
  | zero =>
    cases r with
    | nil => rfl
    | cons d t => simp [extend, h d t rfl]
  | succ n ih => simp [List.replicate_succ, extend, ih]

/-- Maximal runs are unique. -/
theorem isRuns_unique {rs : List (UInt8 × Nat)} {l : List UInt8} (h : IsRuns rs l) : rs = runsOf l := by
  obtain ⟨h1, h2, h3⟩ := h
  subst h1
  induction rs with
  | nil => simp [expand, runsOf]
  | cons a rs ih =>
    obtain ⟨c, n⟩ := a
    have hn := h3 (c, n) List.mem_cons_self
    obtain ⟨m, rfl⟩ : ∃ m, n = m + 1 := ⟨n - 1, by simp only at hn; omega⟩
    have hx : expand ((c, m + 1) :: rs) = c :: (List.replicate m c ++ expand rs) := by
      simp [expand, List.replicate_succ]
    have hd : ∀ d t, expand rs = d :: t → c ≠ d := by
      intro d t he
      cases rs with
      | nil => simp [expand] at he
      | cons b rs =>
        obtain ⟨e, k⟩ := b
        have hk := h3 (e, k) (by simp)
        obtain ⟨j, rfl⟩ : ∃ j, k = j + 1 := ⟨k - 1, by simp only at hk; omega⟩
        simp only [expand, List.flatMap_cons, List.replicate_succ, List.cons_append,
          List.cons.injEq] at he
        rw [← he.1]
        exact h2.1
    rw [hx, runsOf, extend_replicate c m _ hd]
    rw [← ih (adjDiff_tail h2) (fun r hr => h3 r (List.mem_cons_of_mem _ hr)), Nat.add_comm]

end Bwtc.Runs
