import Verif.ProbModels

/-!
# The other predictors

Model of the predictors that no option of the program selects: the rest of `probmodels/BitPredictors.hpp` and
`LimitedHistoryModel` of `probmodels/FSM.hpp`.
-/

set_option autoImplicit false

namespace Bwtc.ProbModels

/-- `FrequencePredictor<A>` (BitPredictors.hpp:67-91): numbers of ones and zeros (`size_t`).  The quotient is taken before the product, in
64 bits; the result is converted to 16 bits; a division by zero is `none`. -/
def frequence (A : Nat) : Model (Nat × Nat) where
  init := (0, 0)
  update m bit := if bit then some ((m.1 + 1) % 2 ^ 64, m.2) else some (m.1, (m.2 + 1) % 2 ^ 64)
  updateState m _ := some m
  prob m :=
    let n := (m.1 + m.2 + 2 * A) % 2 ^ 64
    if n = 0 then none else some (4096 / n * ((m.1 + A) % 2 ^ 64) % 2 ^ 64 % 2 ^ 16)
  reset _ := some (0, 0)

/-- `EvenIntervalPredictor<2>` (BitPredictors.hpp:126-148). -/
def evenInterval2 : Model Nat where
  init := (2048 >>> 1) + 2048
  update _ bit := if bit then some ((2048 >>> 1) + 2048) else some (2048 >>> 1)
  updateState m _ := some m
  prob m := some m
  reset _ := some ((2048 >>> 1) + 2048)

/-- `EvenIntervalPredictor<3>` (BitPredictors.hpp:150-172). -/
def evenInterval3 : Model Nat where
  init := (4096 / 3) <<< 1
  update _ bit := if bit then some ((4096 / 3) <<< 1) else some (4096 / 3)
  updateState m _ := some m
  prob m := some m
  reset _ := some ((4096 / 3) <<< 1)

/-- The loop of `BiasedOnePredictor::update` (BitPredictors.hpp:224-228) with at most the given number of rounds; `none`: it takes more, or a number
leaves the 16 bits. -/
def shrink : Nat → Nat → Nat → Option Nat
  | 0, _, _ => none
  | f + 1, probability, increase =>
    if 4096 ≤ probability then
      if probability < increase ∨ 2 ^ 16 ≤ probability - increase + (increase >>> 1) then none
      else shrink f (probability - increase + (increase >>> 1)) (increase >>> 1)
    else some probability

/-- `BiasedOnePredictor<M>` (BitPredictors.hpp:213-250); seventeen rounds are enough to shift a 16-bit number to zero and look at the result. -/
def biasedOne (M : Nat) : Model Nat where
  init := 4096 / M * (M >>> 1)
  update m bit :=
    if bit then
      if 2 ^ 16 ≤ m + 4096 / M then none else shrink 17 (m + 4096 / M) (4096 / M)
    else
      if (M - 1) * (4096 / M) < m then some ((M - 1) * (4096 / M))
      else if 4096 / M < m then some (m - 4096 / M) else some m
  updateState m _ := some m
  prob m := some m
  reset _ := some (4096 / M * (M >>> 1))

/-- `AggressiveOnePredictor` (BitPredictors.hpp:252-296): probability and step; a number that leaves the 16 bits is `none`.  `resetModel` leaves the step alone. -/
def aggressiveOne : Model (Nat × Nat) where
  init := (2048, 2048)
  update m bit :=
    let (p, step) := m
    if bit then
      if p < 2048 then some (2048, 2048)
      else if 1 < step then
        if 2 ^ 16 ≤ p + (step >>> 1) then none else some (p + (step >>> 1), step >>> 1)
      else some (p, step)
    else
      if 2048 < p then
        if 2048 + (2048 >>> 1) + (2048 >>> 2) + (2048 >>> 3) < p then
          some (2048 + (2048 >>> 1) + (2048 >>> 2) + (2048 >>> 3), 2048 >>> 3)
        else if p < step ∨ 2 ^ 16 ≤ step <<< 1 then none
        else some (p - step, step <<< 1)
      else some (2048 >>> 1, step)
  updateState m _ := some m
  prob m := some m.1
  reset m := some (2048, m.2)

/-- State of `LimitedHistoryModel`: the last bits and one predictor for each of their values. -/
structure History (σ : Type) where
  hist : Nat
  preds : List σ

/-- `LimitedHistoryModel<P, H>` (FSM.hpp:292-323), `H ≤ 30`; an index outside the vector is `none`.  It inherits the empty `resetModel`
(ProbabilityModel.hpp:47). -/
def limitedHistory {σ : Type} (P : Model σ) (H : Nat) : Model (History σ) where
  init := ⟨0xAAAAAAAA &&& (2 ^ H - 1), List.replicate (2 ^ H) P.init⟩
  update m bit := do
    let s ← m.preds[m.hist]?
    let s' ← P.update s bit
    return ⟨(m.hist * 2 + bit.toNat) &&& (2 ^ H - 1), m.preds.set m.hist s'⟩
  updateState m bit := some ⟨(m.hist * 2 + bit.toNat) &&& (2 ^ H - 1), m.preds⟩
  prob m := do
    let s ← m.preds[m.hist]?
    P.prob s
  reset m := some m

/-! ## Lemmas -/

theorem evenInterval2_safe : Safe evenInterval2 (fun m => m = 1024 ∨ m = 3072) where
  init := .inr rfl
  step s op hs := by
    cases op with
    | update b =>
      cases b
      · exact ⟨_, rfl, .inl rfl⟩
      · exact ⟨_, rfl, .inr rfl⟩
    | updateState b => exact ⟨s, rfl, hs⟩
    | reset => exact ⟨_, rfl, .inr rfl⟩
  prob s hs := ⟨s, rfl, by omega, by omega⟩

theorem evenInterval3_safe : Safe evenInterval3 (fun m => m = 1365 ∨ m = 2730) where
  init := .inr rfl
  step s op hs := by
    cases op with
    | update b =>
      cases b
      · exact ⟨_, rfl, .inl rfl⟩
      · exact ⟨_, rfl, .inr rfl⟩
    | updateState b => exact ⟨s, rfl, hs⟩
    | reset => exact ⟨_, rfl, .inr rfl⟩
  prob s hs := ⟨s, rfl, by omega, by omega⟩

theorem evenInterval5_safe : Safe evenInterval5 (fun m => m = 683 ∨ m = 1365 ∨ m = 2730 ∨ m = 3412) where
  init := .inr (.inr (.inl rfl))
  step s op hs := by
    cases op with
    | update b => rcases hs with rfl | rfl | rfl | rfl <;> cases b <;> exact ⟨_, rfl, by decide⟩
    | updateState b => exact ⟨s, rfl, hs⟩
    | reset => exact ⟨_, rfl, .inr (.inr (.inl rfl))⟩
  prob s hs := ⟨s, rfl, by omega, by omega⟩

/-- The loop ends with a probability that is not smaller than what it started from without the increase. -/
theorem shrink_spec : ∀ (f m x : Nat), m < 4096 → x < 2 ^ f → x ≤ 4096 → ∃ p, shrink (f + 1) (m + x) x = some p ∧ m ≤ p ∧ p < 4096 := by
  intro f
  induction f with
  | zero =>
    intro m x hm hx _
    rw [shrink, if_neg (by omega)]
    exact ⟨_, rfl, by omega, by omega⟩
  | succ f ih =>
    intro m x hm hx hx'
    rw [shrink]
    by_cases h : 4096 ≤ m + x
    · have hs : x >>> 1 = x / 2 := by rw [Nat.shiftRight_eq_div_pow]
      rw [if_pos h, if_neg (by omega), Nat.add_sub_cancel]
      refine ih m (x >>> 1) hm ?_ (by omega)
      rw [hs]
      have := Nat.pow_succ 2 f
      omega
    · rw [if_neg h]
      exact ⟨_, rfl, by omega, by omega⟩

theorem biasedOne_safe {M : Nat} (h1 : 1 < M) (h2 : M ≤ 4096) : Safe (biasedOne M) (fun m => 0 < m ∧ m < 4096) := by
  have hd : 0 < 4096 / M := Nat.div_pos h2 (by omega)
  have hd' : 4096 / M ≤ 4096 := Nat.div_le_self _ _
  have hh : 0 < M >>> 1 ∧ M >>> 1 < M := by
    rw [Nat.shiftRight_eq_div_pow]; omega
  have hi : 0 < 4096 / M * (M >>> 1) ∧ 4096 / M * (M >>> 1) < 4096 := by
    refine ⟨Nat.mul_pos hd hh.1, ?_⟩
    calc 4096 / M * (M >>> 1) < 4096 / M * M := Nat.mul_lt_mul_of_pos_left hh.2 hd
      _ ≤ 4096 := Nat.div_mul_le_self 4096 M
  have hp : 0 < (M - 1) * (4096 / M) := Nat.mul_pos (by omega) hd
  refine ⟨hi, ?_, fun s hs => ⟨s, rfl, hs⟩⟩
  intro s op hs
  cases op with
  | update b =>
    simp only [Model.step, biasedOne]
    cases b
    · simp only [Bool.false_eq_true, if_false]
      split
      · exact ⟨_, rfl, by omega⟩
      · split
        · exact ⟨_, rfl, by omega⟩
        · exact ⟨_, rfl, hs⟩
    · simp only [if_true]
      rw [if_neg (by omega)]
      obtain ⟨p, q1, q2, q3⟩ := shrink_spec 16 s (4096 / M) hs.2 (by omega) hd'
      exact ⟨p, q1, by omega, q3⟩
  | updateState b => exact ⟨s, rfl, hs⟩
  | reset => exact ⟨_, rfl, hi⟩

/-- The step is a power of two; above the half, probability and step together are the half and another power of two. -/
def AggInv (m : Nat × Nat) : Prop :=
  ∃ a, a ≤ 11 ∧ m.2 = 2 ^ a ∧ (m.1 = 1024 ∨ ∃ j, a + j ≤ 11 ∧ m.1 + 2 ^ a = 2048 + 2 ^ (a + j))

theorem aggressiveOne_safe : Safe aggressiveOne AggInv := by
  have hpow : ∀ k, k ≤ 11 → 1 ≤ 2 ^ k ∧ 2 ^ k ≤ 2048 := by
    intro k hk
    exact ⟨Nat.one_le_two_pow, Nat.pow_le_pow_right (by omega) hk⟩
  refine ⟨⟨11, by omega, rfl, .inr ⟨0, by omega, rfl⟩⟩, ?_, ?_⟩
  · rintro ⟨p, s⟩ op ⟨a, ha, hs, hp⟩
    simp only [] at hs hp
    have hb := hpow a ha
    cases op with
    | updateState b => exact ⟨_, rfl, a, ha, hs, hp⟩
    | reset => exact ⟨_, rfl, a, ha, hs, .inr ⟨0, by omega, by simp⟩⟩
    | update b =>
      simp only [Model.step, aggressiveOne]
      cases b
      · simp only [Bool.false_eq_true, if_false]
        rcases hp with hp | ⟨j, hj, hp⟩
        · rw [if_neg (by omega)]
          exact ⟨_, rfl, a, ha, hs, .inl rfl⟩
        · have hj' := hpow (a + j) hj
          split
          · split
            · exact ⟨_, rfl, 8, by omega, rfl, .inr ⟨3, by omega, rfl⟩⟩
            · obtain ⟨j, rfl⟩ : ∃ i, j = i + 1 := by
                cases j with
                | zero => simp at hp; omega
                | succ i => exact ⟨i, rfl⟩
              have hle : 2 ^ a ≤ 2 ^ (a + (j + 1)) := Nat.pow_le_pow_right (by omega) (by omega)
              have hs1 : s <<< 1 = 2 ^ (a + 1) := by rw [Nat.shiftLeft_eq, hs, Nat.pow_succ 2 a]
              have hs2 := Nat.pow_succ 2 a
              have hs3 : 2 ^ (a + 1) ≤ 2 ^ (a + (j + 1)) := Nat.pow_le_pow_right (by omega) (by omega)
              rw [hs1, if_neg (by omega)]
              refine ⟨_, rfl, a + 1, by omega, rfl, .inr ⟨j, by omega, ?_⟩⟩
              rw [show a + 1 + j = a + (j + 1) by omega]
              simp only []
              omega
          · exact ⟨_, rfl, a, ha, hs, .inl rfl⟩
      · simp only [if_true]
        rcases hp with hp | ⟨j, hj, hp⟩
        · rw [if_pos (by omega)]
          exact ⟨_, rfl, 11, by omega, rfl, .inr ⟨0, by omega, rfl⟩⟩
        · have hj' := hpow (a + j) hj
          have hle : 2 ^ a ≤ 2 ^ (a + j) := Nat.pow_le_pow_right (by omega) (by omega)
          rw [if_neg (by omega)]
          split
          · obtain ⟨a, rfl⟩ : ∃ i, a = i + 1 := by
              cases a with
              | zero => simp at hs; omega
              | succ i => exact ⟨i, rfl⟩
            have hs2 := Nat.pow_succ 2 a
            have hs1 : s >>> 1 = 2 ^ a := by rw [Nat.shiftRight_eq_div_pow, hs]; omega
            rw [hs1, if_neg (by omega)]
            refine ⟨_, rfl, a, by omega, rfl, .inr ⟨j + 1, by omega, ?_⟩⟩
            rw [show a + (j + 1) = a + 1 + j by omega]
            simp only []
            omega
          · exact ⟨_, rfl, a, ha, hs, .inr ⟨j, hj, hp⟩⟩
  · rintro ⟨p, s⟩ ⟨a, ha, hs, hp⟩
    refine ⟨p, rfl, ?_⟩
    have hb := hpow a ha
    rcases hp with hp | ⟨j, hj, hp⟩
    · simp only [] at hp
      omega
    · have hj' := hpow (a + j) hj
      have hle : 2 ^ a ≤ 2 ^ (a + j) := Nat.pow_le_pow_right (by omega) (by omega)
      simp only [] at hp
      omega

theorem mask_lt (x H : Nat) : x &&& (2 ^ H - 1) < 2 ^ H := by
  have := Nat.and_le_right (n := x) (m := 2 ^ H - 1)
  have := Nat.one_le_two_pow (n := H)
  omega

theorem limitedHistory_safe {σ : Type} {P : Model σ} {I : σ → Prop} (h : Safe P I) (H : Nat) :
    Safe (limitedHistory P H) (fun m => m.hist < 2 ^ H ∧ m.preds.length = 2 ^ H ∧ ∀ s ∈ m.preds, I s) := by
  refine ⟨⟨mask_lt _ _, List.length_replicate, fun s hs => ?_⟩, ?_, ?_⟩
  · rw [(List.mem_replicate.mp hs).2]
    exact h.init
  · rintro ⟨c, ps⟩ op ⟨h1, h2, h3⟩
    simp only [] at h1 h2 h3
    cases op with
    | reset => exact ⟨_, rfl, h1, h2, h3⟩
    | updateState b => exact ⟨_, rfl, mask_lt _ _, h2, h3⟩
    | update b =>
      have hget : ps[c]? = some (ps[c]'(by omega)) := List.getElem?_eq_getElem (by omega)
      obtain ⟨s', e1, e2⟩ := h.step _ (.update b) (h3 _ (List.getElem_mem (by omega : c < ps.length)))
      have e1 : P.update (ps[c]'(by omega)) b = some s' := e1
      refine ⟨⟨(c * 2 + b.toNat) &&& (2 ^ H - 1), ps.set c s'⟩, ?_, mask_lt _ _, by rw [List.length_set]; exact h2, ?_⟩
      · simp only [Model.step, limitedHistory, hget, Option.bind_eq_bind, Option.bind_some, e1, Option.pure_def]
      · intro s hs
        rcases List.mem_or_eq_of_mem_set hs with hs | rfl
        · exact h3 s hs
        · exact e2
  · rintro ⟨c, ps⟩ ⟨h1, h2, h3⟩
    simp only [] at h1 h2 h3
    have hget : ps[c]? = some (ps[c]'(by omega)) := List.getElem?_eq_getElem (by omega)
    obtain ⟨p, e1, e2⟩ := h.prob _ (h3 _ (List.getElem_mem (by omega : c < ps.length)))
    exact ⟨p, by simp only [limitedHistory, hget, Option.bind_eq_bind, Option.bind_some, e1], e2⟩

/-- Number of updates since the last reset. -/
def sinceReset (ops : List Op) : Nat :=
  ops.foldl (fun n op => match op with | .update _ => n + 1 | .updateState _ => n | .reset => 0) 0

theorem sinceReset_concat (ops : List Op) (op : Op) : sinceReset (ops ++ [op]) =
    match op with | .update _ => sinceReset ops + 1 | .updateState _ => sinceReset ops | .reset => 0 := by
  rw [sinceReset, List.foldl_append]
  rfl

theorem run_concat {σ : Type} (M : Model σ) (s : σ) (a : List Op) (op : Op) : M.run s (a ++ [op]) = (M.run s a).bind fun s => M.step s op := by
  rw [run_append]
  cases M.run s a with
  | none => rfl
  | some s' =>
    simp only [Option.bind_some, Model.run]
    cases M.step s' op <;> rfl

/-- Ones and zeros together are the updates since the last reset. -/
theorem frequence_counts (A : Nat) : ∀ (n : Nat) (ops : List Op), ops.length = n → ∃ o z, (frequence A).run (frequence A).init ops = some (o, z) ∧
    (sinceReset ops < 2 ^ 64 → o + z = sinceReset ops) := by
  intro n
  induction n with
  | zero =>
    intro ops h
    rw [List.length_eq_zero_iff.mp h]
    exact ⟨0, 0, rfl, fun _ => rfl⟩
  | succ n ih =>
    intro ops h
    have hne : ops ≠ [] := by
      intro hc
      rw [hc] at h
      simp at h
    obtain ⟨l, op, rfl⟩ : ∃ l op, ops = l ++ [op] := ⟨ops.dropLast, ops.getLast hne, (List.dropLast_concat_getLast hne).symm⟩
    obtain ⟨o, z, h1, h2⟩ := ih l (by simp at h; exact h)
    rw [run_concat, h1, sinceReset_concat]
    simp only [Option.bind_some]
    cases op with
    | reset => exact ⟨0, 0, rfl, fun _ => rfl⟩
    | updateState b => exact ⟨o, z, rfl, h2⟩
    | update b =>
      simp only []
      cases b
      · refine ⟨o, (z + 1) % 2 ^ 64, rfl, fun hlt => ?_⟩
        have := h2 (by omega)
        omega
      · refine ⟨(o + 1) % 2 ^ 64, z, rfl, fun hlt => ?_⟩
        have := h2 (by omega)
        omega

end Bwtc.ProbModels
