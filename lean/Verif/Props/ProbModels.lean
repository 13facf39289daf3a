import Verif.ProbModels

/-!
# C05, C06, C07: probability models
-/

set_option autoImplicit false

namespace Bwtc.Props
open ProbModels

/-- A model is legal when after every history of calls (updates, state updates, resets) no
call was undefined and the probability of a one lies strictly between 0 and 4096. -/
def Legal {σ : Type} (M : Model σ) : Prop :=
  ∀ ops : List Op, ∃ s p, M.run M.init ops = some s ∧ M.prob s = some p ∧ 0 < p ∧ p < 4096

theorem legal_of_safe {σ : Type} {M : Model σ} {I : σ → Prop} (h : Safe M I) : Legal M := by
  intro ops
  obtain ⟨s, h1, h2⟩ := h.run ops _ h.init
  obtain ⟨p, h3, h4⟩ := h.prob s h2
  exact ⟨s, p, h1, h3, h4⟩

/-- C05 for whole families: every unbiased predictor whose compile-time checks hold (with
positive minimum), every even-interval predictor with 2 to 4096 levels, and every automaton
over `N ≥ 1` states of such predictors is legal. -/
theorem C05_predictor_families (mn delay initial N M : Nat) (h0 : 0 < mn) (h1 : mn ≤ initial)
    (h2 : initial ≤ 4096 - mn) (hM : 1 < M) (hM' : M ≤ 4096) (hN : 0 < N) :
    Legal (unbiased mn delay initial) ∧ Legal (evenInterval M) ∧
      Legal (fsm N (unbiased mn delay initial)) ∧ Legal (fsm N (evenInterval M)) ∧
      Legal (fsm N (inverse (unbiased mn delay initial))) :=
  ⟨legal_of_safe (unbiased_safe h0 h1 h2), legal_of_safe (evenInterval_safe hM hM'),
    legal_of_safe (fsm_safe hN (unbiased_safe h0 h1 h2)),
    legal_of_safe (fsm_safe hN (evenInterval_safe hM hM')),
    legal_of_safe (fsm_safe hN (inverse_safe (unbiased_safe h0 h1 h2)))⟩

theorem modelB_safe : ∃ I, Safe modelB I := by
  have s1 := unbiased_safe (mn := 2) (delay := 4) (initial := 2400) (by decide) (by decide) (by decide)
  have s2 := unbiased_safe (mn := 2) (delay := 5) (initial := 2300) (by decide) (by decide) (by decide)
  have s3 := unbiased_safe (mn := 2) (delay := 5) (initial := 2200) (by decide) (by decide) (by decide)
  have s4 := unbiased_safe (mn := 2) (delay := 5) (initial := 2100) (by decide) (by decide) (by decide)
  refine ⟨_, switchFsm_safe (I := fun _ m => 2 ≤ m ∧ m ≤ 4096 - 2) (by decide) (by rfl) ?_⟩
  intro i hi
  match i, hi with
  | 0, _ => exact s1
  | 1, _ => exact s2
  | 2, _ => exact s3
  | 3, _ => exact s4
  | 4, _ => exact inverse_safe s4
  | 5, _ => exact inverse_safe s3
  | 6, _ => exact inverse_safe s2
  | 7, _ => exact inverse_safe s1

/-- C05, the part that holds: every selectable model except the Markov ones ('m', 'M'), that
is 'u', 'b', 'B'/default, and the integer and gap models. -/
theorem C05_probabilities_legal_partial :
    Legal modelU ∧ Legal modelb ∧ Legal modelB ∧ Legal integerModel ∧ Legal gapModel := by
  obtain ⟨I, hI⟩ := modelB_safe
  exact ⟨legal_of_safe (evenInterval_safe (by decide) (by decide)),
    legal_of_safe (fsm_safe (by decide) (evenInterval_safe (by decide) (by decide))),
    legal_of_safe hI,
    legal_of_safe (fsm_safe (by decide) (unbiased_safe (by decide) (by decide) (by decide))),
    legal_of_safe (fsm_safe (by decide) (unbiased_safe (by decide) (by decide) (by decide)))⟩

/-- The full claim C05. -/
def C05_claim : Prop :=
  Legal modelm ∧ Legal modelM ∧ Legal modelU ∧ Legal modelb ∧ Legal modelB ∧
    Legal integerModel ∧ Legal gapModel

/-- C05 is false of the Markov models: after a single zero the probability is computed with a
shift by a negative amount. -/
theorem C05_fails_for_markov : ¬ Legal modelm ∧ ¬ Legal modelM ∧ ¬ C05_claim := by
  have gen : ∀ w, 0 < w → ¬ Legal (simpleMarkov w) := by
    intro w hw h
    obtain ⟨s, p, h1, h2, _⟩ := h [.update false]
    have hpow : 2 ≤ 2 ^ w := by
      calc 2 = 2 ^ 1 := rfl
        _ ≤ 2 ^ w := Nat.pow_le_pow_right (by omega) hw
    obtain ⟨k, hk⟩ : ∃ k, 2 ^ w - 1 = k + 1 := ⟨2 ^ w - 2, by omega⟩
    simp [Model.run, Model.step, simpleMarkov, hk, List.replicate_succ] at h1
    subst h1
    simp [simpleMarkov] at h2
  exact ⟨gen 8 (by decide), gen 16 (by decide), fun h => gen 8 (by decide) h.1⟩

/-- Non-vacuity: a concrete history of the default model with its probability. -/
example : (modelB.run modelB.init [.update true, .updateState false, .reset, .update false]).bind
    modelB.prob = some 2200 := by decide

/-- C06, the part that holds: for a `w`-bit history (`w = 8` for 'm', `w = 16` for 'M'), as
long as the history fed to the model never contained `w` consecutive ones, every call stays
inside the table of `2^w - 1` entries, the entries stay in `[-2, 2]`, and the probability
is well defined exactly when the current entry is not negative; it is then 64, 256 or 1024. -/
theorem C06_markov_table_partial (w : Nat) (hw : 0 < w) (ops : List Op)
    (h : ¬ List.replicate w true <:+: histBits ops) :
    ∃ m e, (simpleMarkov w).run (simpleMarkov w).init ops = some m ∧
      m.hist.length = 2 ^ w - 1 ∧ m.hist[m.prev]? = some e ∧
      (∀ x ∈ m.hist, -2 ≤ x ∧ x ≤ 2) ∧
      (e < 0 → (simpleMarkov w).prob m = none) ∧
      (0 ≤ e → ∃ p, (simpleMarkov w).prob m = some p ∧ p ∈ [64, 256, 1024]) := by
  obtain ⟨m, h1, h2, h3, h4, h5⟩ := markov_inv hw ops h
  have hget : m.hist[m.prev]? = some m.hist[m.prev] := List.getElem?_eq_getElem (by omega)
  have hr := h5 _ (List.getElem_mem (by omega : m.prev < m.hist.length))
  refine ⟨m, m.hist[m.prev], h1, h4, hget, h5, ?_, ?_⟩
  · intro hneg
    simp only [simpleMarkov, hget, Option.bind_eq_bind, Option.bind_some]
    rw [if_neg (by omega), if_pos hneg]
  · intro hpos
    simp only [simpleMarkov, hget, Option.bind_eq_bind, Option.bind_some]
    generalize m.hist[m.prev] = e at *
    have : e = 0 ∨ e = 1 ∨ e = 2 := by omega
    rcases this with rfl | rfl | rfl
    · exact ⟨64, by decide, by decide⟩
    · exact ⟨256, by decide, by decide⟩
    · exact ⟨1024, by decide, by decide⟩

/-- The full claim C06. -/
def C06_claim : Prop :=
  ∀ bits : List Bool,
    (∃ m p, modelm.run modelm.init (bits.map .update) = some m ∧ modelm.prob m = some p) ∧
    (∃ m p, modelM.run modelM.init (bits.map .update) = some m ∧ modelM.prob m = some p)

/-- C06 is false of the code in two ways: a single zero bit makes the probability undefined, and
eight ones followed by any bit index the table one past its end. -/
theorem C06_fails :
    ¬ C06_claim ∧ ((modelm.run modelm.init [.update false]).bind modelm.prob) = none ∧
      modelm.run modelm.init (List.replicate 9 (.update true)) = none := by
  have h1 : ((modelm.run modelm.init [.update false]).bind modelm.prob) = none := by
    decide +kernel
  refine ⟨?_, h1, by decide +kernel⟩
  intro h
  obtain ⟨⟨m, p, e1, e2⟩, _⟩ := h [false]
  simp only [List.map_cons, List.map_nil] at e1
  rw [e1] at h1
  simp [e2] at h1

/-- Non-vacuity: a history with seven consecutive ones satisfies the hypothesis for `w = 8`. -/
example : ¬ List.replicate 8 true <:+:
    histBits ((List.replicate 7 (Op.update true)) ++ [.reset, .update false, .update true]) := by
  decide

/-- Prediction equivalence: after any history ended by a reset, every continuation is predicted
as by a new object. -/
def Forgets {σ : Type} (M : Model σ) : Prop :=
  ∀ pre post : List Op,
    ((M.run M.init (pre ++ [.reset])).bind fun s => (M.run s post).bind M.prob)
      = (M.run M.init post).bind M.prob

theorem forgets_of_safe {σ : Type} {M : Model σ} {I : σ → Prop} (h : Safe M I)
    (hr : ∀ s, I s → M.reset s = some M.init) : Forgets M := by
  intro pre post
  obtain ⟨s, h1, h2⟩ := h.run pre _ h.init
  rw [run_append, h1]
  simp [Model.run, Model.step, hr s h2]

/-- C07, the part that holds: models 'u', 'b' and the integer and gap models forget the past;
the default model 'B' resets all its predictors but keeps the automaton state, so it behaves
like a new object started in that state. -/
theorem C07_reset_partial :
    Forgets modelU ∧ Forgets modelb ∧ Forgets integerModel ∧ Forgets gapModel ∧
      ∀ pre : List Op, ∃ c, c < 8 ∧
        modelB.run modelB.init (pre ++ [.reset]) = some ⟨c, modelB.init.preds⟩ := by
  refine ⟨forgets_of_safe (evenInterval_safe (by decide) (by decide)) (fun s _ => rfl),
    forgets_of_safe (fsm_safe (N := 6) (by decide) (evenInterval_safe (M := 4) (by decide) (by decide)))
      (fun s hs => fsm_reset (fun _ => rfl) hs.2.1),
    forgets_of_safe (fsm_safe (N := 3) (by decide)
      (unbiased_safe (mn := 100) (delay := 5) (initial := 2048) (by decide) (by decide) (by decide)))
      (fun s hs => fsm_reset (fun _ => rfl) hs.2.1),
    forgets_of_safe (fsm_safe (N := 4) (by decide)
      (unbiased_safe (mn := 2) (delay := 5) (initial := 2048) (by decide) (by decide) (by decide)))
      (fun s hs => fsm_reset (fun _ => rfl) hs.2.1), ?_⟩
  intro pre
  have s1 := unbiased_safe (mn := 2) (delay := 4) (initial := 2400) (by decide) (by decide) (by decide)
  have s2 := unbiased_safe (mn := 2) (delay := 5) (initial := 2300) (by decide) (by decide) (by decide)
  have s3 := unbiased_safe (mn := 2) (delay := 5) (initial := 2200) (by decide) (by decide) (by decide)
  have s4 := unbiased_safe (mn := 2) (delay := 5) (initial := 2100) (by decide) (by decide) (by decide)
  have hsafe : Safe modelB _ :=
    switchFsm_safe (I := fun _ m => 2 ≤ m ∧ m ≤ 4096 - 2) (N := 8) (start := 4) (by decide) (by rfl) (by
      intro i hi
      match i, hi with
      | 0, _ => exact s1
      | 1, _ => exact s2
      | 2, _ => exact s3
      | 3, _ => exact s4
      | 4, _ => exact inverse_safe s4
      | 5, _ => exact inverse_safe s3
      | 6, _ => exact inverse_safe s2
      | 7, _ => exact inverse_safe s1)
  obtain ⟨s, h1, h2, h3, _⟩ := hsafe.run pre _ hsafe.init
  refine ⟨s.cur, h2, ?_⟩
  rw [run_append, h1]
  simp only [Option.bind_some, Model.run, Model.step, Option.bind_eq_bind, Option.bind_some]
  have : modelB.reset s = some ⟨s.cur, modelB.init.preds⟩ := by
    refine switchFsm_reset ?_ (by rw [h3]; rfl)
    intro P hP t
    simp only [List.mem_cons, List.not_mem_nil, or_false] at hP
    rcases hP with rfl | rfl | rfl | rfl | rfl | rfl | rfl | rfl <;> rfl
  rw [this]
  rfl

/-- The full claim C07. -/
def C07_claim : Prop :=
  Forgets modelm ∧ Forgets modelM ∧ Forgets modelU ∧ Forgets modelb ∧ Forgets modelB ∧
    Forgets integerModel ∧ Forgets gapModel

/-- C07 is false of the default model: `FSM8::resetModel` keeps the automaton state. -/
theorem C07_fails_for_default_model : ¬ Forgets modelB ∧ ¬ C07_claim := by
  have h : ¬ Forgets modelB := by
    intro h
    have := h [.update true] []
    revert this
    decide
  exact ⟨h, fun hc => h hc.2.2.2.2.1⟩

/-- Non-vacuity: the predictions of the default model before and after the reset differ. -/
example : modelB.prob modelB.init = some 1996 ∧
    ((modelB.run modelB.init [.update true, .reset]).bind modelB.prob) = some 1896 := by decide

end Bwtc.Props
