import Verif.Dmc
import Verif.Props.ProbModels

/-!
# C65: dynamic Markov coding
-/

set_option autoImplicit false

namespace Bwtc.Props
open ProbModels

/-- The compile-time conditions on the parameters (DMC.hpp:140-141), and a buffer for at least one bit. -/
def Admitted (L M D B : Nat) : Prop := 1 < D ∧ B < L * M - L / D * M ∧ 0 < B

/-- After every history every call returns, without undefined behaviour, and the probability is strictly between 0 and 4096. -/
def Works {σ : Type} (P : Model σ) (L M D B : Nat) : Prop :=
  ∀ ops : List Op, ∃ N, ∀ fuel, N ≤ fuel → ∃ s p, (dmc P L M D B fuel).run (dmcInit P) ops = some s ∧
    (dmc P L M D B fuel).prob s = some p ∧ 0 < p ∧ p < 4096

/-- The full claim C65: with a safe predictor the model works for all parameters that are admitted. -/
def C65_claim : Prop := ∀ (σ : Type) (P : Model σ) (I : σ → Prop) (L M D B : Nat), Safe P I → Admitted L M D B → Works P L M D B

/-- C65 (partial: the buffer is smaller than the number of states).  Then replaying it never uses the states up again, and the recursion has depth two. -/
theorem C65_works_partial (σ : Type) (P : Model σ) (I : σ → Prop) (L M D B : Nat) (hP : Safe P I) (hB : 0 < B) (hBM : B < M) :
    Works P L M D B := by
  intro ops
  refine ⟨2, fun fuel hf => ?_⟩
  obtain ⟨fuel, rfl⟩ : ∃ k, fuel = k + 2 := ⟨fuel - 2, by omega⟩
  exact legal_of_safe (dmc_safe (L := L) (D := D) hP hB hBM fuel) ops

theorem run_append {σ : Type} (M : Model σ) : ∀ (a b : List Op) (s : σ), M.run s (a ++ b) = (M.run s a).bind fun s => M.run s b := by
  intro a
  induction a with
  | nil => intro b s; rfl
  | cons op a ih =>
    intro b s
    rw [List.cons_append, Model.run, Model.run]
    cases M.step s op with
    | none => rfl
    | some s => exact ih b s

theorem run_updates {σ : Type} (M : Model σ) : ∀ (bits : List Bool) (s : σ), M.run s (bits.map .update) = bits.foldlM (fun s b => M.update s b) s := by
  intro bits
  induction bits with
  | nil => intro s; rfl
  | cons b bits ih =>
    intro s
    rw [List.map_cons, Model.run, List.foldlM_cons]
    simp only [Model.step, ih]

/-- Thirteen bits that use up seven states: each of the last seven splits a state. -/
def fillingBits : List Bool := [false, false, false, true, true, true, true, false, false, false, false, false]

/-- C65 is false of the code: because the assignment of the next state copies it over the current one instead of moving on to it, counters are
duplicated, and states can be used up by as few bits as are replayed.  The replay then calls itself without end. -/
theorem C65_fails : (∀ fuel, (dmc (evenInterval 4) 2 7 3 13 fuel).run (dmcInit (evenInterval 4))
      ((fillingBits ++ [false]).map .update) = none) ∧ Admitted 2 7 3 13 ∧ ¬ C65_claim := by
  have ha : Admitted 2 7 3 13 := ⟨by decide, by decide, by decide⟩
  have h1 : ∀ fuel, (dmc (evenInterval 4) 2 7 3 13 fuel).run (dmcInit (evenInterval 4)) ((fillingBits ++ [false]).map .update) = none := by
    intro fuel
    obtain ⟨m, hm⟩ : ∃ m, rounds (evenInterval 4) 2 7 3 13 (dmcInit (evenInterval 4)) fillingBits = some m :=
      Option.isSome_iff_exists.mp (by decide +kernel)
    have hf : dmcRound (evenInterval 4) 2 7 3 13 m false = some (.full (fillingBits ++ [false])) := by
      have : (rounds (evenInterval 4) 2 7 3 13 (dmcInit (evenInterval 4)) fillingBits).bind
          (fun m => dmcRound (evenInterval 4) 2 7 3 13 m false) = some (.full (fillingBits ++ [false])) := by decide +kernel
      rw [hm] at this
      exact this
    rw [run_updates, List.foldlM_append]
    have hu : (dmc (evenInterval 4) 2 7 3 13 fuel).update = dmcUpdate (evenInterval 4) 2 7 3 13 fuel := rfl
    rw [hu]
    cases fuel with
    | zero => rfl
    | succ fuel =>
      rw [rounds_fold fuel _ _ _ hm]
      simp [endless hm hf (fuel + 1)]
  refine ⟨h1, ha, fun h => ?_⟩
  obtain ⟨N, hN⟩ := h _ _ _ _ _ _ _ (evenInterval_safe (M := 4) (by decide) (by decide)) ha ((fillingBits ++ [false]).map .update)
  obtain ⟨s, p, e, _⟩ := hN N (Nat.le_refl _)
  rw [h1] at e
  simp at e

/-- What the same mistake does to learning: when the model moves from one state to another, what the first one has learned, including the bit just seen, is overwritten with
what the second one knew. -/
theorem C65_learning_overwritten {σ : Type} (P : Model σ) (L M D B : Nat) (m m' : DmcSt σ) (bit : Bool) (s t : DState σ)
    (hs : m.states[m.cur]? = some s) (ht : m.states[if bit then s.t1 else s.t0]? = some t) (hne : (if bit then s.t1 else s.t0) ≠ m.cur)
    (h : dmcRound P L M D B m bit = some (.next m')) : ∃ s', m'.states[m.cur]? = some s' ∧ s'.pred = t.pred := by
  obtain ⟨hc, _⟩ := List.getElem?_eq_some_iff.mp hs
  rw [dmcRound] at h
  split at h
  · simp at h
  simp only [Option.bind_eq_bind, hs, Option.bind_some] at h
  rw [Option.bind_eq_some_iff] at h
  obtain ⟨p, _, h⟩ := h
  rw [List.getElem?_set_ne (Ne.symm hne), ht] at h
  simp only [Option.bind_some, List.set_set] at h
  have hx : (if bit then ({ t with ones := (t.ones + 1) % 2 ^ 64 } : DState σ) else { t with zeros := (t.zeros + 1) % 2 ^ 64 }).pred = t.pred := by
    cases bit <;> rfl
  generalize (if bit then ({ t with ones := (t.ones + 1) % 2 ^ 64 } : DState σ) else { t with zeros := (t.zeros + 1) % 2 ^ 64 }) = x at h hx
  by_cases h1 : L ≤ x.ones ∧ L ≤ x.zeros
  · rw [if_pos h1] at h
    by_cases h2 : (m.states.set m.cur x).length = M
    · rw [if_pos h2] at h
      simp at h
    · rw [if_neg h2] at h
      by_cases h3 : M < (m.states.set m.cur x).length
      · rw [if_pos h3] at h
        simp at h
      · rw [if_neg h3] at h
        simp only [Option.some.injEq, DRound.next.injEq] at h
        rw [← h]
        refine ⟨⟨x.zeros / D, x.ones / D, if bit then x.t0 else (m.states.set m.cur x).length,
          if bit then (m.states.set m.cur x).length else x.t1, x.pred⟩, ?_, hx⟩
        simp only
        rw [List.getElem?_append_left (by simpa using hc), List.getElem?_set_self (by simpa using hc)]
  · rw [if_neg h1] at h
    simp only [Option.some.injEq, DRound.next.injEq] at h
    rw [← h]
    exact ⟨x, List.getElem?_set_self hc, hx⟩

/-- Non-vacuity: parameters with a buffer below the number of states, a history that splits states, and a move between two states. -/
example : Admitted 2 7 3 6 ∧ (6 < 7) ∧ (∃ I, Safe (evenInterval 4) I) ∧
    ((dmc (evenInterval 4) 2 7 3 6 2).run (dmcInit (evenInterval 4)) ((fillingBits ++ [false]).map .update)).isSome ∧
    ((rounds (evenInterval 4) 2 7 3 13 (dmcInit (evenInterval 4)) [false, false, true, true]).bind fun m => m.states[m.cur]?.map fun s => (m.cur, s.t0)) =
      some (1, 0) :=
  ⟨⟨by decide, by decide, by decide⟩, by decide, ⟨_, evenInterval_safe (M := 4) (by decide) (by decide)⟩, by decide +kernel, by decide +kernel⟩

end Bwtc.Props
