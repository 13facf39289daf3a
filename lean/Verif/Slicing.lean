import Verif.Basic

/-!
# Slicing a precompressed block into BWT blocks

Model of `PrecompressorBlock::sliceIntoBlocks`.
-/

set_option autoImplicit false

namespace Bwtc.Slicing

/-- State of the loop: bytes not yet assigned (`m_data + begin ..`), slices pushed. -/
structure St where
  rest : List UInt8
  slices : List (List UInt8)

/-- One round of the loop (PrecompressorBlock.cpp:129-133); `none` when the loop condition
`begin < m_used` is false.  `bSize` is a `uint32`, so the minimum is truncated.
Simplification: a `BWTBlock` is represented by the bytes it covers. -/
def step (blockSize : Nat) (st : St) : Option St :=
  if st.rest.length = 0 then none
  else
    let bSize := min blockSize st.rest.length % 2 ^ 32
    some ⟨st.rest.drop bSize, st.slices ++ [st.rest.take bSize]⟩

/-- The loop run for at most `n` rounds; `none` when it has not finished by then. -/
def run (blockSize : Nat) : Nat → St → Option (List (List UInt8))
  | 0, _ => none
  | n + 1, st =>
    match step blockSize st with
    | none => some st.slices
    | some st => run blockSize n st

/-- `sliceIntoBlocks(blockSize)` (PrecompressorBlock.cpp:123-134) finishes with these slices. -/
def SlicesTo (blockSize : Nat) (data : List UInt8) (sl : List (List UInt8)) : Prop :=
  ∃ n, run blockSize n ⟨data, []⟩ = some sl

/-! ## Lemmas -/

theorem run_mono (bs n : Nat) (st : St) (r : List (List UInt8)) (h : run bs n st = some r) :
    ∀ m, n ≤ m → run bs m st = some r := by
  induction n generalizing st with
  | zero => simp [run] at h
  | succ n ih =>
    intro m hm
    obtain ⟨m, rfl⟩ : ∃ k, m = k + 1 := ⟨m - 1, by omega⟩
    rw [run] at h ⊢
    cases hs : step bs st with
    | none => rw [hs] at h; simpa using h
    | some st' =>
      rw [hs] at h
      exact ih st' h m (by omega)

theorem run_spec (bs : Nat) (h0 : 0 < bs) (hb : bs < 2 ^ 32) :
    ∀ (k : Nat) (rest : List UInt8) (acc : List (List UInt8)), rest.length ≤ k →
      ∃ sl, run bs (k + 1) ⟨rest, acc⟩ = some (acc ++ sl) ∧ sl.flatten = rest ∧
        (∀ s ∈ sl, 1 ≤ s.length ∧ s.length ≤ bs) ∧ (∀ s ∈ sl.dropLast, s.length = bs) := by
  intro k
  induction k with
  | zero =>
    intro rest acc h
    have : rest = [] := List.length_eq_zero_iff.mp (by omega)
    subst this
    exact ⟨[], by simp [run, step], rfl, by simp, by simp⟩
  | succ k ih =>
    intro rest acc h
    by_cases he : rest.length = 0
    · have : rest = [] := List.length_eq_zero_iff.mp he
      subst this
      exact ⟨[], by simp [run, step], rfl, by simp, by simp⟩
    · have hm : min bs rest.length % 2 ^ 32 = min bs rest.length :=
        Nat.mod_eq_of_lt (by omega)
      obtain ⟨sl, e1, e2, e3, e4⟩ := ih (rest.drop (min bs rest.length))
        (acc ++ [rest.take (min bs rest.length)]) (by simp; omega)
      refine ⟨rest.take (min bs rest.length) :: sl, ?_, ?_, ?_, ?_⟩
      · rw [run, step]
        simp only [he, if_false, hm]
        rw [e1]
        simp
      · simp [e2]
      · intro s hs
        rcases List.mem_cons.mp hs with rfl | hs
        · simp; omega
        · exact e3 s hs
      · intro s hs
        cases sl with
        | nil => simp at hs
        | cons x xs =>
          rw [List.dropLast_cons_of_ne_nil (by simp)] at hs
          rcases List.mem_cons.mp hs with rfl | hs
          · have hx := (e3 x List.mem_cons_self).1
            have hne : (rest.drop (min bs rest.length)).length ≠ 0 := by
              rw [← e2]; simp only [List.flatten_cons, List.length_append]; omega
            simp at hne ⊢
            omega
          · exact e4 s hs

theorem run_zero_diverges (data : List UInt8) (h : data ≠ []) (n : Nat) (acc : List (List UInt8)) :
    run 0 n ⟨data, acc⟩ = none := by
  induction n generalizing acc with
  | zero => rfl
  | succ n ih =>
    have : data.length ≠ 0 := fun hc => h (List.length_eq_zero_iff.mp hc)
    simp [run, step, this, ih]

end Bwtc.Slicing
