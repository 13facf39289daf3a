import Verif.Predictors
import Verif.Props.ProbModels

/-!
# C60: the predictors that are not selectable
-/

set_option autoImplicit false

namespace Bwtc.Props
open ProbModels

/-- C60: after every history of updates, state updates and resets these predictors are defined and predict strictly between 0 and 4096; so do their
inverses and the automata and history models built from them. -/
theorem C60_predictors_legal_partial :
    Legal evenInterval2 ∧ Legal evenInterval3 ∧ Legal evenInterval5 ∧ Legal aggressiveOne ∧ Legal (inverse aggressiveOne) ∧
      (∀ M, 1 < M → M ≤ 4096 → Legal (biasedOne M) ∧ Legal (inverse (biasedOne M)) ∧ ∀ N, 0 < N → Legal (fsm N (biasedOne M))) ∧
      ∀ H, Legal (limitedHistory evenInterval2 H) ∧ Legal (limitedHistory aggressiveOne H) ∧
        (∀ M, 1 < M → M ≤ 4096 → Legal (limitedHistory (evenInterval M) H) ∧ Legal (limitedHistory (biasedOne M) H)) ∧
        ∀ mn delay initial, 0 < mn → mn ≤ initial → initial ≤ 4096 - mn → Legal (limitedHistory (unbiased mn delay initial) H) :=
  ⟨legal_of_safe evenInterval2_safe, legal_of_safe evenInterval3_safe, legal_of_safe evenInterval5_safe, legal_of_safe aggressiveOne_safe,
    legal_of_safe (inverse_safe aggressiveOne_safe),
    fun _ h1 h2 => ⟨legal_of_safe (biasedOne_safe h1 h2), legal_of_safe (inverse_safe (biasedOne_safe h1 h2)),
      fun _ hN => legal_of_safe (fsm_safe hN (biasedOne_safe h1 h2))⟩,
    fun H => ⟨legal_of_safe (limitedHistory_safe evenInterval2_safe H), legal_of_safe (limitedHistory_safe aggressiveOne_safe H),
      fun _ h1 h2 => ⟨legal_of_safe (limitedHistory_safe (evenInterval_safe h1 h2) H), legal_of_safe (limitedHistory_safe (biasedOne_safe h1 h2) H)⟩,
      fun _ _ _ h0 h1 h2 => legal_of_safe (limitedHistory_safe (unbiased_safe h0 h1 h2) H)⟩⟩

/-- C60 for the counting predictor, exactly: its probability is legal as long as the updates since the last reset and twice the constant are at most
4096; behind that it is zero. -/
theorem C60_counting_exact (A : Nat) (hA : 0 < A) (hA' : A < 2 ^ 16) (ops : List Op) (h : sinceReset ops < 2 ^ 62) :
    ∃ s p, (frequence A).run (frequence A).init ops = some s ∧ (frequence A).prob s = some p ∧
      (sinceReset ops + 2 * A ≤ 4096 → 0 < p ∧ p < 4096) ∧ (4096 < sinceReset ops + 2 * A → p = 0) := by
  obtain ⟨o, z, h1, h2⟩ := frequence_counts A _ ops rfl
  have h2 := h2 (by omega)
  refine ⟨(o, z), 4096 / (o + z + 2 * A) * (o + A) % 2 ^ 64 % 2 ^ 16, h1, ?_, ?_, ?_⟩
  · simp only [frequence]
    rw [Nat.mod_eq_of_lt (by omega : o + z + 2 * A < 2 ^ 64), Nat.mod_eq_of_lt (by omega : o + A < 2 ^ 64), if_neg (by omega)]
  · intro hle
    have hd : 0 < 4096 / (o + z + 2 * A) := Nat.div_pos (by omega) (by omega)
    have hlt : 4096 / (o + z + 2 * A) * (o + A) < 4096 :=
      calc 4096 / (o + z + 2 * A) * (o + A) < 4096 / (o + z + 2 * A) * (o + z + 2 * A) := Nat.mul_lt_mul_of_pos_left (by omega) hd
        _ ≤ 4096 := Nat.div_mul_le_self _ _
    have hpos : 0 < 4096 / (o + z + 2 * A) * (o + A) := Nat.mul_pos hd (by omega)
    rw [Nat.mod_eq_of_lt (by omega : 4096 / (o + z + 2 * A) * (o + A) < 2 ^ 64), Nat.mod_eq_of_lt (by omega)]
    exact ⟨hpos, hlt⟩
  · intro hgt
    rw [Nat.div_eq_of_lt (by omega), Nat.zero_mul]

/-- The full claim C60: every instance that the compile-time checks admit is legal. -/
def C60_claim : Prop :=
  (∀ A, 0 < A → A < 2 ^ 16 → Legal (frequence A)) ∧
    (∀ M, 0 < M → M ≤ 4096 → 4096 / M * M = 4096 → Legal (biasedOne M) ∧ Legal (evenInterval M)) ∧
    Legal evenInterval2 ∧ Legal evenInterval3 ∧ Legal evenInterval5 ∧ Legal aggressiveOne

theorem sinceReset_replicate (b : Bool) (n : Nat) : sinceReset (List.replicate n (.update b)) = n := by
  induction n with
  | zero => rfl
  | succ n ih => rw [List.replicate_succ', sinceReset_concat, ih]

/-- C60 is false of the code: the counting predictor gives probability zero after 4095 updates for every constant, and the predictors with one level start with
probability zero. -/
theorem C60_fails : (∀ A, 0 < A → A < 2 ^ 16 → ¬ Legal (frequence A)) ∧ ¬ Legal (biasedOne 1) ∧ ¬ Legal (evenInterval 1) ∧ ¬ C60_claim := by
  have h1 : ∀ A, 0 < A → A < 2 ^ 16 → ¬ Legal (frequence A) := by
    intro A hA hA' h
    have hs := sinceReset_replicate true 4095
    obtain ⟨s, p, e1, e2, e3, _⟩ := h (List.replicate 4095 (.update true))
    obtain ⟨s', p', e1', e2', _, e4⟩ := C60_counting_exact A hA hA' (List.replicate 4095 (.update true)) (by rw [hs]; omega)
    rw [hs] at e4
    rw [e1, Option.some.injEq] at e1'
    subst e1'
    rw [e2, Option.some.injEq] at e2'
    have := e4 (by omega)
    omega
  have h2 : ¬ Legal (biasedOne 1) := by
    intro h
    obtain ⟨s, p, e1, e2, e3, _⟩ := h []
    simp only [Model.run, biasedOne, Option.some.injEq] at e1 e2
    rw [← e2, ← e1] at e3
    exact absurd e3 (by decide)
  have h3 : ¬ Legal (evenInterval 1) := by
    intro h
    obtain ⟨s, p, e1, e2, e3, _⟩ := h []
    simp only [Model.run, evenInterval, Option.some.injEq] at e1 e2
    rw [← e2, ← e1] at e3
    exact absurd e3 (by decide)
  exact ⟨h1, h2, h3, fun h => h2 (h.2.1 1 (by decide) (by decide) (by decide)).1⟩

/-- Resetting: the interval predictors and the biased one forget everything; the aggressive one keeps its step, and the history model everything. -/
theorem C60_reset : Forgets evenInterval2 ∧ Forgets evenInterval3 ∧ Forgets evenInterval5 ∧ (∀ M, 1 < M → M ≤ 4096 → Forgets (biasedOne M)) ∧
    ¬ Forgets aggressiveOne ∧ ¬ Forgets (limitedHistory evenInterval2 1) := by
  refine ⟨forgets_of_safe evenInterval2_safe fun _ _ => rfl, forgets_of_safe evenInterval3_safe fun _ _ => rfl,
    forgets_of_safe evenInterval5_safe fun _ _ => rfl, fun _ h1 h2 => forgets_of_safe (biasedOne_safe h1 h2) fun _ _ => rfl, ?_, ?_⟩
  · intro h
    have := h [.update true] [.update true]
    revert this
    decide +kernel
  · intro h
    have := h [.update false] []
    revert this
    decide +kernel

/-- A history with its probabilities. -/
example : (aggressiveOne.run aggressiveOne.init [.update true, .update true, .update false, .update true]).bind aggressiveOne.prob = some 3584 ∧
    ((biasedOne 4).run (biasedOne 4).init (List.replicate 20 (.update true))).bind (biasedOne 4).prob = some 4095 ∧
    ((limitedHistory aggressiveOne 2).run (limitedHistory aggressiveOne 2).init [.update true, .update true]).bind
      (limitedHistory aggressiveOne 2).prob = some 2048 := by decide +kernel

end Bwtc.Props
