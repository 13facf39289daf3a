import Verif.SaisHeap

/-!
# The peak of the heap of SA-IS never goes back
-/

set_option autoImplicit false

namespace Bwtc.Sais

theorem new_grow (ok : Nat → Bool) (k : Nat) (h : Heap) : h.peak ≤ (new ok k h).2.peak := by
  rw [new]
  split
  · exact Nat.le_max_left _ _
  · exact Nat.le_refl _

theorem new_grow' {ok : Nat → Bool} {k : Nat} {h h' : Heap} {x : Option Nat} (e : new ok k h = (x, h')) : h.peak ≤ h'.peak := by
  have := new_grow ok k h
  rw [e] at this
  exact this

theorem delete_peak {c : Option Nat} {h h' : Heap} (e : delete c h = some h') : h'.peak = h.peak := by
  cases c with
  | none => cases e; rfl
  | some p =>
    rw [delete] at e
    split at e
    · cases e; rfl
    · cases e

theorem maybe_delete {p : Bool} {c : Option Nat} {h h' : Heap} (e : (if p then delete c h else some h) = some h') : h'.peak = h.peak := by
  cases p with
  | false => rw [if_neg Bool.false_ne_true, Option.some.injEq] at e; rw [e]
  | true => rw [if_pos rfl] at e; exact delete_peak e

theorem acquire_grow (ok : Nat → Bool) (f : Flags) (k : Nat) (h : Heap) : h.peak ≤ (acquire ok f k h).2.2.2.peak := by
  rw [acquire]
  split
  · split
    · rename_i e; exact new_grow' e
    · rename_i e
      split
      · split
        · rename_i e2; exact Nat.le_trans (new_grow' e) (new_grow' e2)
        · rename_i e2; exact Nat.le_trans (new_grow' e) (new_grow' e2)
      · exact new_grow' e
  · split
    · split
      · rename_i e; exact new_grow' e
      · rename_i e; exact new_grow' e
    · split
      · split
        · rename_i e; exact new_grow' e
        · rename_i e; exact new_grow' e
      · exact Nat.le_refl _

theorem release_peak {f : Flags} {c b : Option Nat} {h h' : Heap} (e : release f c b h = some h') : h'.peak = h.peak := by
  rw [release] at e
  simp only [Option.bind_eq_bind, Option.bind_eq_some_iff] at e
  obtain ⟨h1, e1, e2⟩ := e
  rw [maybe_delete e2, maybe_delete e1]

theorem beforeCall_peak {f : Flags} {c b : Option Nat} {h h' : Heap} (e : beforeCall f c b h = some h') : h'.peak = h.peak := by
  rw [beforeCall] at e
  simp only [Option.bind_eq_bind, Option.bind_eq_some_iff] at e
  obtain ⟨h1, e1, e2⟩ := e
  rw [maybe_delete e2, maybe_delete e1]

theorem finish_peak {f : Flags} {c b : Option Nat} {h h' : Heap} {r : Bool} (e : finish f c b h = some (r, h')) : h'.peak = h.peak := by
  rw [finish] at e
  simp only [Option.bind_eq_bind, Option.bind_eq_some_iff, Option.pure_def, Option.some.injEq, Prod.mk.injEq] at e
  obtain ⟨_, _, _, _, h1, e1, _, rfl⟩ := e
  exact release_peak e1

theorem afterCall_grow {ok : Nat → Bool} {f : Flags} {k : Nat} {c b : Option Nat} {h : Heap} {x : Bool × Option Nat × Option Nat × Heap}
    (e : afterCall ok f k c b h = some x) : h.peak ≤ x.2.2.2.peak := by
  revert e
  rw [afterCall]
  split
  · split
    · rename_i e1; intro e; cases e; exact new_grow' e1
    · rename_i e1; intro e; cases e; exact new_grow' e1
  · split
    · split
      · rename_i e1
        intro e
        simp only [Option.bind_eq_bind, Option.bind_eq_some_iff, Option.pure_def, Option.some.injEq] at e
        obtain ⟨h1, e2, rfl⟩ := e
        have := new_grow' e1
        rw [← maybe_delete e2] at this
        exact this
      · rename_i e1; intro e; cases e; exact new_grow' e1
    · intro e; cases e; exact Nat.le_refl _

theorem stage1Heap_grow {ok : Nat → Bool} {f : Flags} {k m : Nat} {c b : Option Nat} {h h' : Heap} {r : Bool} (e : stage1Heap ok f k m c b h = some (r, h')) :
    h.peak ≤ h'.peak := by
  rw [stage1Heap] at e
  simp only [Option.bind_eq_bind, Option.bind_eq_some_iff] at e
  obtain ⟨_, _, _, _, e⟩ := e
  split at e
  · split at e
    · rename_i e1; cases e; exact new_grow' e1
    · rename_i e1
      simp only [Option.bind_eq_some_iff, Option.pure_def, Option.some.injEq, Prod.mk.injEq] at e
      obtain ⟨_, _, _, _, _, _, h1, e2, _, rfl⟩ := e
      rw [delete_peak e2]
      exact new_grow' e1
  · cases e; exact Nat.le_refl _

/-- What was reached with the arrays of the level is reached by the sort. -/
theorem sortHeap_grow {ok : Nat → Bool} : ∀ (fuel : Nat) {T : List Nat} {mem : List Int} {k : Nat} {h h' : Heap} {r : Bool},
    sortHeap ok fuel T mem k h = some (r, h') → (acquire ok (chooseFlags T.length (mem.length - T.length) k) k h).2.2.2.peak ≤ h'.peak := by
  intro fuel
  induction fuel with
  | zero => intro T mem k h h' r e; rw [sortHeap] at e; cases e
  | succ fuel ih =>
    intro T mem k h h' r e
    rw [sortHeap] at e
    simp only at e
    generalize acquire ok (chooseFlags T.length (mem.length - T.length) k) k h = a at *
    obtain ⟨r1, c, b, h1⟩ := a
    generalize chooseFlags T.length (mem.length - T.length) k = f at *
    cases r1 with
    | false => cases e; exact Nat.le_refl _
    | true =>
      simp only [Option.bind_eq_bind, Option.bind_eq_some_iff] at e
      obtain ⟨⟨m, sub⟩, -, ⟨r2, h2⟩, e2, e⟩ := e
      have g2 := stage1Heap_grow e2
      simp only at e ⊢
      split at e
      · simp only [Option.bind_eq_some_iff, Option.pure_def, Option.some.injEq, Prod.mk.injEq] at e
        obtain ⟨h3, e3, -, rfl⟩ := e
        rw [release_peak e3]; exact g2
      · cases sub with
        | none => rw [finish_peak e]; exact g2
        | some s =>
          obtain ⟨R, mem', name⟩ := s
          simp only [Option.bind_eq_some_iff] at e
          obtain ⟨h3, e3, ⟨r4, h4⟩, e4, e⟩ := e
          have g4 := Nat.le_trans (acquire_grow _ _ _ _) (ih e4)
          rw [beforeCall_peak e3] at g4
          simp only at e
          split at e
          · simp only [Option.bind_eq_some_iff, Option.pure_def, Option.some.injEq, Prod.mk.injEq] at e
            obtain ⟨h5, e5, -, rfl⟩ := e
            rw [maybe_delete e5]; omega
          · simp only [Option.bind_eq_some_iff] at e
            obtain ⟨⟨r5, c5, b5, h5⟩, e5, e⟩ := e
            have g5 := afterCall_grow e5
            simp only at g5
            cases r5 with
            | false => cases e; omega
            | true => rw [finish_peak e]; omega

end Bwtc.Sais
