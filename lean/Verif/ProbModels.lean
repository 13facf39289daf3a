import Verif.BitCodes

/-!
# Probability models

Model of `probmodels/BitPredictors.hpp`, `probmodels/FSM.hpp` and
`probmodels/ProbabilityModel.cpp`.  A model is a record of its four virtual functions;
`none` stands for undefined behaviour (an index outside an array, a shift by a negative
amount).
-/

set_option autoImplicit false

namespace Bwtc.ProbModels

/-- The interface `ProbabilityModel` (ProbabilityModel.hpp:35-51) over the object state `σ`. -/
structure Model (σ : Type) where
  /-- state after construction -/
  init : σ
  /-- `update(bit)` -/
  update : σ → Bool → Option σ
  /-- `updateState(bit)` -/
  updateState : σ → Bool → Option σ
  /-- `probabilityOfOne()` -/
  prob : σ → Option Nat
  /-- `resetModel()` -/
  reset : σ → Option σ

/-- `UnbiasedPredictor<Min, Delay, Initial>` (BitPredictors.hpp:37-65).  The subtractions are
done in `int`; a negative difference (shifted right) is not modelled and gives `none`. -/
def unbiased (mn delay initial : Nat) : Model Nat where
  init := initial
  update m bit :=
    if bit then
      if m ≤ 4096 - mn then some (m + ((4096 - mn - m) >>> delay)) else none
    else
      if mn ≤ m then some (m - ((m - mn) >>> delay)) else none
  updateState m _ := some m
  prob m := some m
  reset _ := some initial

/-- `EvenIntervalPredictor<M>`, the general template (BitPredictors.hpp:95-124). -/
def evenInterval (M : Nat) : Model Nat where
  init := 4096 / M * (M >>> 1)
  update m bit :=
    if bit then
      if m + 4096 / M < 4096 then some (m + 4096 / M) else some m
    else
      if 4096 / M < m then some (m - 4096 / M) else some m
  updateState m _ := some m
  prob m := some m
  reset _ := some (4096 / M * (M >>> 1))

/-- `EvenIntervalPredictor<5>` (BitPredictors.hpp:174-210). -/
def evenInterval5 : Model Nat where
  init := (4096 / 3) <<< 1
  update m bit :=
    let i := 4096 / 3
    let h := i >>> 1
    if bit then
      if m < i then some i else if m < i <<< 1 then some (i <<< 1) else some ((i <<< 1) + h)
    else
      if m > i <<< 1 then some (i <<< 1) else if m > i then some i else some (i - h)
  updateState m _ := some m
  prob m := some m
  reset _ := some ((4096 / 3) <<< 1)

/-- `InversePredictor<P>` (BitPredictors.hpp:298-319).  It does not forward `updateState`. -/
def inverse {σ : Type} (P : Model σ) : Model σ where
  init := P.init
  update m bit := P.update m (!bit)
  updateState m _ := some m
  prob m := do
    let p ← P.prob m
    if p ≤ 4096 then some (4096 - p) else none
  reset m := P.reset m

/-- `nextState<N>` with its specialisations (FSM.hpp:41-72). -/
def nextState (N cur : Nat) (bit : Bool) : Option Nat :=
  if N = 2 then some (if bit then 1 else 0)
  else if N = 3 then
    some (if cur = 1 then (if bit then 2 else 0)
      else if cur = 2 ∧ bit = true then 2
      else if cur = 0 ∧ bit = false then 0
      else 1)
  else if N = 9 then
    if bit then ([5, 5, 5, 4, 5, 6, 7, 8, 8] : List Nat)[cur]?
    else if cur ≤ 8 then do
      let x ← ([5, 5, 5, 4, 5, 6, 7, 8, 8] : List Nat)[8 - cur]?
      return 8 - x
    else none
  else if bit then
    if cur ≥ N / 2 then some (min (cur + 1) (N - 1)) else some (N / 2)
  else
    if cur < N / 2 then some (cur - 1) else some ((N - 1) / 2)

/-- State of the automaton models: current state and the predictors' states. -/
structure Fsm (σ : Type) where
  cur : Nat
  preds : List σ
deriving DecidableEq, Repr

/-- `FSM<N, P>` (FSM.hpp:79-106); `m_states[m_currentState]` outside the vector is `none`. -/
def fsm {σ : Type} (N : Nat) (P : Model σ) : Model (Fsm σ) where
  init := ⟨N / 2, List.replicate N P.init⟩
  update m bit := do
    let s ← m.preds[m.cur]?
    let s' ← P.update s bit
    let c ← nextState N m.cur bit
    return ⟨c, m.preds.set m.cur s'⟩
  updateState m bit := do
    let c ← nextState N m.cur bit
    return ⟨c, m.preds⟩
  prob m := do
    let s ← m.preds[m.cur]?
    P.prob s
  reset m := do
    let ps ← m.preds.mapM P.reset
    return ⟨N / 2, ps⟩

/-- Common form of `FSM6`, `FSM8` and `FSM9` (FSM.hpp:113-291): one predictor member per
state, given by the list `Ps`; `switch` on an unknown state does nothing in `update`
and selects the last member in `probabilityOfOne`; `resetModel` resets the members but
leaves `m_currentState` alone (FSM.hpp:205-214). -/
def switchFsm {σ : Type} (N start : Nat) (Ps : List (Model σ)) : Model (Fsm σ) where
  init := ⟨start, Ps.map (·.init)⟩
  update m bit := do
    let preds ← match Ps[m.cur]?, m.preds[m.cur]? with
      | some P, some s => (do let s' ← P.update s bit; return m.preds.set m.cur s')
      | _, _ => some m.preds
    let c ← nextState N m.cur bit
    return ⟨c, preds⟩
  updateState m bit := do
    let c ← nextState N m.cur bit
    return ⟨c, m.preds⟩
  prob m := match Ps[m.cur]?, m.preds[m.cur]? with
    | some P, some s => P.prob s
    | _, _ => do
      let P ← Ps.getLast?
      let s ← m.preds.getLast?
      P.prob s
  reset m := do
    let ps ← (Ps.zip m.preds).mapM (fun x => x.1.reset x.2)
    return ⟨m.cur, ps⟩

/-- `FSM8<Z4,Z3,Z2,Z1>` (FSM.hpp:168-227). -/
def fsm8 {σ : Type} (z4 z3 z2 z1 : Model σ) : Model (Fsm σ) :=
  switchFsm 8 4 [z4, z3, z2, z1, inverse z1, inverse z2, inverse z3, inverse z4]

/-- `FSM6<Z3,Z2,Z1>` (FSM.hpp:113-164). -/
def fsm6 {σ : Type} (z3 z2 z1 : Model σ) : Model (Fsm σ) :=
  switchFsm 6 3 [z3, z2, z1, inverse z1, inverse z2, inverse z3]

/-- `FSM9<Z4,Z3,Z2,Z1,D>` (FSM.hpp:229-291). -/
def fsm9 {σ : Type} (z4 z3 z2 z1 d : Model σ) : Model (Fsm σ) :=
  switchFsm 9 4 [z4, z3, z2, z1, d, inverse z1, inverse z2, inverse z3, inverse z4]

/-- `SimpleMarkov<UnsignedInt>` state: `m_prev` and the table of signed chars
(ProbabilityModel.hpp:64-65). -/
structure Markov where
  prev : Nat
  hist : List Int
deriving DecidableEq, Repr

/-- `SimpleMarkov` with a `w`-bit integer (ProbabilityModel.cpp:87-128; `char` signed).  The
table has `2^w - 1` entries; access outside it and shifts by negative amounts give `none`. -/
def simpleMarkov (w : Nat) : Model Markov where
  init := ⟨0, List.replicate (2 ^ w - 1) 0⟩
  update m bit := do
    let h ← m.hist[m.prev]?
    let h' := if bit then (if h < 2 then h + 1 else h) else (if h > -2 then h - 1 else h)
    return ⟨(m.prev * 2 + bit.toNat) % 2 ^ w, m.hist.set m.prev h'⟩
  updateState m _ := some m
  prob m := do
    let h ← m.hist[m.prev]?
    if h > 0 then some ((4096 >>> 6) <<< (2 * h.toNat))
    else if h < 0 then none
    else some (4096 >>> 6)
  reset m := some ⟨m.prev, List.replicate (2 ^ w - 1) 0⟩

/-- `giveModelForIntegerCodes` (ProbabilityModel.cpp:39-42). -/
def integerModel : Model (Fsm Nat) := fsm 3 (unbiased 100 5 2048)

/-- `giveModelForGaps` (ProbabilityModel.cpp:44-46). -/
def gapModel : Model (Fsm Nat) := fsm 4 (unbiased 2 5 2048)

/-- `giveProbabilityModel('u')` (ProbabilityModel.cpp:58-61). -/
def modelU : Model Nat := evenInterval 4

/-- `giveProbabilityModel('b')` (ProbabilityModel.cpp:62-65). -/
def modelb : Model (Fsm Nat) := fsm 6 (evenInterval 4)

/-- `giveProbabilityModel('B')` and the default (ProbabilityModel.cpp:66-73). -/
def modelB : Model (Fsm Nat) :=
  fsm8 (unbiased 2 4 2400) (unbiased 2 5 2300) (unbiased 2 5 2200) (unbiased 2 5 2100)

/-- `giveProbabilityModel('m')`, `('M')` (ProbabilityModel.cpp:50-57). -/
def modelm : Model Markov := simpleMarkov 8
def modelM : Model Markov := simpleMarkov 16

/-- The calls a coder makes on a model. -/
inductive Op where
  | update (bit : Bool)
  | updateState (bit : Bool)
  | reset

/-- Effect of one call. -/
def Model.step {σ : Type} (M : Model σ) (s : σ) : Op → Option σ
  | .update b => M.update s b
  | .updateState b => M.updateState s b
  | .reset => M.reset s

/-- Effect of a history of calls. -/
def Model.run {σ : Type} (M : Model σ) : σ → List Op → Option σ
  | s, [] => some s
  | s, op :: ops => do
    let s ← M.step s op
    M.run s ops

/-! ## Lemmas -/

/-- Safety invariant of a model: holds initially, is preserved by every call (none of which
is undefined), and gives a probability strictly between 0 and 4096. -/
structure Safe {σ : Type} (M : Model σ) (I : σ → Prop) : Prop where
  init : I M.init
  step : ∀ s op, I s → ∃ s', M.step s op = some s' ∧ I s'
  prob : ∀ s, I s → ∃ p, M.prob s = some p ∧ 0 < p ∧ p < 4096

theorem Safe.run {σ : Type} {M : Model σ} {I : σ → Prop} (h : Safe M I) (ops : List Op) (s : σ)
    (hs : I s) : ∃ s', M.run s ops = some s' ∧ I s' := by
  induction ops generalizing s with
  | nil => exact ⟨s, rfl, hs⟩
  | cons op ops ih =>
    obtain ⟨s1, h1, h2⟩ := h.step s op hs
    obtain ⟨s2, h3, h4⟩ := ih s1 h2
    exact ⟨s2, by simp [Model.run, h1, h3], h4⟩

theorem unbiased_safe {mn delay initial : Nat} (h0 : 0 < mn) (h1 : mn ≤ initial)
    (h2 : initial ≤ 4096 - mn) : Safe (unbiased mn delay initial) (fun m => mn ≤ m ∧ m ≤ 4096 - mn) where
  init := ⟨h1, h2⟩
  step s op hs := by
    obtain ⟨ha, hb⟩ := hs
    cases op with
    | update b =>
      simp only [Model.step, unbiased]
      cases b
      · have := Nat.div_le_self (s - mn) (2 ^ delay)
        exact ⟨s - ((s - mn) >>> delay), by simp [ha], by
          rw [Nat.shiftRight_eq_div_pow]
          generalize (s - mn) / 2 ^ delay = q at *
          omega⟩
      · have := Nat.div_le_self (4096 - mn - s) (2 ^ delay)
        exact ⟨s + ((4096 - mn - s) >>> delay), by simp [hb],
          by
            rw [Nat.shiftRight_eq_div_pow]
            generalize (4096 - mn - s) / 2 ^ delay = q at *
            omega⟩
    | updateState b => exact ⟨s, rfl, ha, hb⟩
    | reset => exact ⟨initial, rfl, h1, h2⟩
  prob s hs := ⟨s, rfl, by omega, by omega⟩

theorem evenInterval_safe {M : Nat} (h1 : 1 < M) (h2 : M ≤ 4096) :
    Safe (evenInterval M) (fun m => 0 < m ∧ m < 4096) := by
  have hd : 0 < 4096 / M := Nat.div_pos h2 (by omega)
  have hh : 0 < M >>> 1 ∧ M >>> 1 < M := by
    rw [Nat.shiftRight_eq_div_pow]; omega
  have hi : 0 < 4096 / M * (M >>> 1) ∧ 4096 / M * (M >>> 1) < 4096 := by
    refine ⟨Nat.mul_pos hd hh.1, ?_⟩
    calc 4096 / M * (M >>> 1) < 4096 / M * M := Nat.mul_lt_mul_of_pos_left hh.2 hd
      _ ≤ 4096 := Nat.div_mul_le_self 4096 M
  refine ⟨hi, ?_, fun s hs => ⟨s, rfl, hs⟩⟩
  intro s op hs
  cases op with
  | update b =>
    simp only [Model.step, evenInterval]
    cases b
    · simp only [Bool.false_eq_true, if_false]
      split
      · exact ⟨_, rfl, by omega⟩
      · exact ⟨_, rfl, hs⟩
    · simp only [if_true]
      split
      · exact ⟨_, rfl, by omega⟩
      · exact ⟨_, rfl, hs⟩
  | updateState b => exact ⟨s, rfl, hs⟩
  | reset => exact ⟨_, rfl, hi⟩

theorem inverse_safe {σ : Type} {P : Model σ} {I : σ → Prop} (h : Safe P I) : Safe (inverse P) I where
  init := h.init
  step s op hs := by
    cases op with
    | update b => exact h.step s (.update !b) hs
    | updateState b => exact ⟨s, rfl, hs⟩
    | reset => exact h.step s .reset hs
  prob s hs := by
    obtain ⟨p, h1, h2, h3⟩ := h.prob s hs
    exact ⟨4096 - p, by simp [inverse, h1]; omega, by omega, by omega⟩

theorem nextState_lt {N cur : Nat} (hN : 0 < N) (hc : cur < N) (bit : Bool) :
    ∃ c, nextState N cur bit = some c ∧ c < N := by
  unfold nextState
  split
  · exact ⟨_, rfl, by cases bit <;> simp <;> omega⟩
  · split
    · exact ⟨_, rfl, by split <;> (try split) <;> (try split) <;> omega⟩
    · split
      · subst N
        match cur, hc with
        | 0, _ | 1, _ | 2, _ | 3, _ | 4, _ | 5, _ | 6, _ | 7, _ | 8, _ =>
          cases bit <;> exact ⟨_, rfl, by decide⟩
      · cases bit
        · simp only [Bool.false_eq_true, if_false]
          split
          · exact ⟨_, rfl, by omega⟩
          · exact ⟨_, rfl, by omega⟩
        · simp only [if_true]
          split
          · exact ⟨_, rfl, by omega⟩
          · exact ⟨_, rfl, by omega⟩

theorem mapM_some {α β : Type} {f : α → Option β} {I : α → Prop} {J : β → Prop}
    (h : ∀ a, I a → ∃ b, f a = some b ∧ J b) (l : List α) (hl : ∀ a ∈ l, I a) :
    ∃ l', l.mapM f = some l' ∧ l'.length = l.length ∧ ∀ b ∈ l', J b := by
  induction l with
  | nil => exact ⟨[], rfl, rfl, by simp⟩
  | cons a l ih =>
    obtain ⟨b, hb, hJ⟩ := h a (hl a (by simp))
    obtain ⟨l', h1, h2, h3⟩ := ih (fun x hx => hl x (by simp [hx]))
    exact ⟨b :: l', by simp [List.mapM_cons, hb, h1], by simp [h2],
      by intro x hx; simp at hx; rcases hx with rfl | hx; exact hJ; exact h3 x hx⟩

theorem fsm_safe {σ : Type} {N : Nat} {P : Model σ} {I : σ → Prop} (hN : 0 < N) (h : Safe P I) :
    Safe (fsm N P) (fun m => m.cur < N ∧ m.preds.length = N ∧ ∀ s ∈ m.preds, I s) where
  init := ⟨by simp only [fsm]; omega, by simp [fsm], by simp [fsm]; intro _; exact h.init⟩
  step m op hm := by
    obtain ⟨hc, hl, hI⟩ := hm
    have hget : m.preds[m.cur]? = some m.preds[m.cur] := List.getElem?_eq_getElem (by omega)
    have hIc : I m.preds[m.cur] := hI _ (List.getElem_mem _)
    cases op with
    | update b =>
      obtain ⟨c, h1, h2⟩ := nextState_lt hN hc b
      obtain ⟨s', h3, h4⟩ := h.step _ (.update b) hIc
      simp only [Model.step] at h3
      refine ⟨⟨c, m.preds.set m.cur s'⟩, by simp [Model.step, fsm, h1, hget, h3], h2, by simpa using hl, ?_⟩
      intro s hs
      rcases List.mem_or_eq_of_mem_set hs with hs | rfl
      · exact hI s hs
      · exact h4
    | updateState b =>
      obtain ⟨c, h1, h2⟩ := nextState_lt hN hc b
      exact ⟨⟨c, m.preds⟩, by simp [Model.step, fsm, h1], h2, hl, hI⟩
    | reset =>
      obtain ⟨l', h1, h2, h3⟩ := mapM_some (fun s hs => h.step s .reset hs) m.preds hI
      have h1' : List.mapM P.reset m.preds = some l' := h1
      exact ⟨⟨N / 2, l'⟩, by simp [Model.step, fsm, h1'], by simp only; omega, by simp only; omega, h3⟩
  prob m hm := by
    obtain ⟨hc, hl, hI⟩ := hm
    have hget : m.preds[m.cur]? = some m.preds[m.cur] := List.getElem?_eq_getElem (by omega)
    obtain ⟨p, h1, h2⟩ := h.prob _ (hI _ (List.getElem_mem (by omega : m.cur < m.preds.length)))
    exact ⟨p, by simp [fsm, hget, h1], h2⟩

theorem switchFsm_safe {σ : Type} {N start : Nat} {Ps : List (Model σ)} {I : Nat → σ → Prop}
    (hs : start < N) (hl : Ps.length = N)
    (h : ∀ i (hi : i < Ps.length), Safe Ps[i] (I i)) :
    Safe (switchFsm N start Ps)
      (fun m => m.cur < N ∧ m.preds.length = N ∧ ∀ i (hi : i < m.preds.length), I i m.preds[i]) where
  init := ⟨hs, by simp [switchFsm, hl], fun i hi => by
    simp only [switchFsm, List.getElem_map]
    exact (h i (by simpa [switchFsm] using hi)).init⟩
  step m op hm := by
    obtain ⟨hc, hlen, hI⟩ := hm
    have hget : m.preds[m.cur]? = some m.preds[m.cur] := List.getElem?_eq_getElem (by omega)
    have hgetP : Ps[m.cur]? = some Ps[m.cur] := List.getElem?_eq_getElem (by omega)
    have hcl : m.cur < m.preds.length := by omega
    have hIc : I m.cur m.preds[m.cur] := hI _ hcl
    cases op with
    | update b =>
      obtain ⟨c, h1, h2⟩ := nextState_lt (by omega) hc b
      obtain ⟨s', h3, h4⟩ := (h m.cur (by omega)).step _ (.update b) hIc
      simp only [Model.step] at h3
      refine ⟨⟨c, m.preds.set m.cur s'⟩, by simp [Model.step, switchFsm, h1, hget, hgetP, h3], h2,
        by simpa using hlen, ?_⟩
      intro i hi
      simp only [List.getElem_set]
      split
      · rename_i he
        subst he
        exact h4
      · exact hI i (by simpa using hi)
    | updateState b =>
      obtain ⟨c, h1, h2⟩ := nextState_lt (by omega) hc b
      exact ⟨⟨c, m.preds⟩, by simp [Model.step, switchFsm, h1], h2, hlen, hI⟩
    | reset =>
      obtain ⟨l', h1, h2, h3⟩ : ∃ l', (Ps.zip m.preds).mapM (fun x => x.1.reset x.2) = some l' ∧
          l'.length = N ∧ ∀ i (hi : i < l'.length), I i l'[i] := by
        have gen : ∀ (k : Nat) (A : List (Model σ)) (B : List σ), A.length = B.length →
            (∀ i (hi : i < A.length), Safe A[i] (I (k + i))) →
            (∀ i (hi : i < B.length), I (k + i) B[i]) →
            ∃ l', (A.zip B).mapM (fun x => x.1.reset x.2) = some l' ∧ l'.length = A.length ∧
              ∀ i (hi : i < l'.length), I (k + i) l'[i] := by
          intro k A
          induction A generalizing k with
          | nil => intro B _ _ _; exact ⟨[], by simp, rfl, fun i hi => by simp at hi⟩
          | cons P A ih =>
            intro B hAB hA hB
            cases B with
            | nil => simp at hAB
            | cons s B =>
              obtain ⟨s', e1, e2⟩ := (hA 0 (by simp)).step s .reset (hB 0 (by simp))
              obtain ⟨l', e3, e4, e5⟩ := ih (k + 1) B (by simpa using hAB)
                (fun i hi => by
                  have := hA (i + 1) (by simpa using hi)
                  rw [show k + (i + 1) = k + 1 + i by omega] at this
                  simpa using this)
                (fun i hi => by
                  have := hB (i + 1) (by simpa using hi)
                  rw [show k + (i + 1) = k + 1 + i by omega] at this
                  simpa using this)
              have e1' : P.reset s = some s' := e1
              refine ⟨s' :: l', by simp [List.mapM_cons, e1', e3], by simp [e4], ?_⟩
              intro i hi
              cases i with
              | zero => exact e2
              | succ i =>
                have := e5 i (by simpa using hi)
                rw [show k + 1 + i = k + (i + 1) by omega] at this
                simpa using this
        obtain ⟨l', e1, e2, e3⟩ := gen 0 Ps m.preds (by omega)
          (fun i hi => by rw [Nat.zero_add]; exact h i hi)
          (fun i hi => by rw [Nat.zero_add]; exact hI i hi)
        exact ⟨l', e1, by omega, fun i hi => by have := e3 i hi; rwa [Nat.zero_add] at this⟩
      exact ⟨⟨m.cur, l'⟩, by simp [Model.step, switchFsm, h1], hc, h2, h3⟩
  prob m hm := by
    obtain ⟨hc, hlen, hI⟩ := hm
    have hget : m.preds[m.cur]? = some m.preds[m.cur] := List.getElem?_eq_getElem (by omega)
    have hgetP : Ps[m.cur]? = some Ps[m.cur] := List.getElem?_eq_getElem (by omega)
    obtain ⟨p, h1, h2⟩ := (h m.cur (by omega)).prob _ (hI m.cur (by omega))
    exact ⟨p, by simp [switchFsm, hget, hgetP, h1], h2⟩

theorem run_append {σ : Type} (M : Model σ) (s : σ) (a b : List Op) :
    M.run s (a ++ b) = (M.run s a).bind (fun s' => M.run s' b) := by
  induction a generalizing s with
  | nil => rfl
  | cons op a ih =>
    simp only [List.cons_append, Model.run, Option.bind_eq_bind, Option.bind_assoc]
    congr 1
    funext s'
    exact ih s'

theorem mapM_const {α β : Type} {f : α → Option β} {b : β} (h : ∀ a, f a = some b) (l : List α) :
    l.mapM f = some (List.replicate l.length b) := by
  induction l with
  | nil => rfl
  | cons a l ih => simp [List.mapM_cons, h, ih, List.replicate_succ]

/-- An `FSM<N,P>` over a resettable predictor is resettable. -/
theorem fsm_reset {σ : Type} {N : Nat} {P : Model σ} (hP : ∀ s, P.reset s = some P.init)
    {m : Fsm σ} (hl : m.preds.length = N) : (fsm N P).reset m = some (fsm N P).init := by
  simp [fsm, mapM_const hP, hl]

theorem switchFsm_reset {σ : Type} {N start : Nat} {Ps : List (Model σ)}
    (hP : ∀ P ∈ Ps, ∀ s, P.reset s = some P.init) {m : Fsm σ} (hl : m.preds.length = Ps.length) :
    (switchFsm N start Ps).reset m = some ⟨m.cur, Ps.map (·.init)⟩ := by
  have : (Ps.zip m.preds).mapM (fun x => x.1.reset x.2) = some (Ps.map (·.init)) := by
    generalize m.preds = B at hl
    induction Ps generalizing B with
    | nil => simp
    | cons P A ih =>
      cases B with
      | nil => simp at hl
      | cons s B =>
        simp only [List.zip_cons_cons, List.mapM_cons, hP P (by simp) s]
        rw [ih (fun Q hQ => hP Q (by simp [hQ])) B (by simpa using hl)]
        rfl
  simp only [switchFsm, this, Option.bind_eq_bind, Option.bind_some, Option.pure_def]

/-! ### SimpleMarkov -/

/-- The bits a history of calls feeds to `update`. -/
def histBits : List Op → List Bool
  | [] => []
  | .update b :: ops => b :: histBits ops
  | .updateState _ :: ops => histBits ops
  | .reset :: ops => histBits ops

theorem histBits_append (a b : List Op) : histBits (a ++ b) = histBits a ++ histBits b := by
  induction a with
  | nil => rfl
  | cons op a ih => cases op <;> simp [histBits, ih]

theorem natOf_replicate_true (w : Nat) : natOf (List.replicate w true) = 2 ^ w - 1 := by
  induction w with
  | zero => rfl
  | succ w ih =>
    rw [List.replicate_succ', BitCodes.natOf_snoc, ih, Nat.pow_succ]
    have := Nat.two_pow_pos w
    simp; omega

/-- A bit string whose value modulo `2^w` is all ones ends in `w` ones. -/
theorem all_ones {w : Nat} (hw : 0 < w) {bs : List Bool} (h : natOf bs % 2 ^ w = 2 ^ w - 1) :
    List.replicate w true <:+ bs := by
  have hpow : 0 < 2 ^ w := Nat.two_pow_pos w
  by_cases hlen : bs.length < w
  · have h1 := natOf_lt bs
    have h2 : 2 ^ (bs.length + 1) ≤ 2 ^ w := Nat.pow_le_pow_right (by omega) (by omega)
    have h3 : 0 < 2 ^ bs.length := Nat.two_pow_pos _
    rw [Nat.pow_succ] at h2
    rw [Nat.mod_eq_of_lt (by omega)] at h
    omega
  · have hsplit := List.take_append_drop (bs.length - w) bs
    refine ⟨bs.take (bs.length - w), ?_⟩
    have hl : (bs.drop (bs.length - w)).length = w := by simp; omega
    have hv : natOf (bs.drop (bs.length - w)) = 2 ^ w - 1 := by
      rw [← hsplit, natOf_append, hl] at h
      rw [Nat.mul_comm, Nat.mul_add_mod] at h
      have := natOf_lt (bs.drop (bs.length - w))
      rw [hl] at this
      rw [Nat.mod_eq_of_lt this] at h
      exact h
    have : bs.drop (bs.length - w) = List.replicate w true := by
      have e1 := bitsOf_natOf (bs.drop (bs.length - w))
      have e2 := bitsOf_natOf (List.replicate w true)
      rw [hl, hv] at e1
      rw [List.length_replicate] at e2
      have := natOf_replicate_true w
      rw [this] at e2
      rw [← e1, e2]
    rw [← this]
    exact hsplit

/-- Invariant of the Markov model as long as `w` consecutive ones have not been seen. -/
theorem markov_inv {w : Nat} (hw : 0 < w) (ops : List Op)
    (h : ¬ List.replicate w true <:+: histBits ops) :
    ∃ m, (simpleMarkov w).run (simpleMarkov w).init ops = some m ∧
      m.prev = natOf (histBits ops) % 2 ^ w ∧ m.prev < 2 ^ w - 1 ∧
      m.hist.length = 2 ^ w - 1 ∧ ∀ x ∈ m.hist, -2 ≤ x ∧ x ≤ 2 := by
  have hpow : 0 < 2 ^ w := Nat.two_pow_pos w
  have h2pow : 2 ≤ 2 ^ w := by
    calc 2 = 2 ^ 1 := rfl
      _ ≤ 2 ^ w := Nat.pow_le_pow_right (by omega) hw
  have hprev : ∀ l, ¬ List.replicate w true <:+: l → natOf l % 2 ^ w < 2 ^ w - 1 := by
    intro l hl
    have := Nat.mod_lt (natOf l) hpow
    by_cases hc : natOf l % 2 ^ w = 2 ^ w - 1
    · exact absurd (all_ones hw hc).isInfix hl
    · omega
  -- induction from the end of the history
  have gen : ∀ n (ops : List Op), ops.length = n → ¬ List.replicate w true <:+: histBits ops →
      ∃ m, (simpleMarkov w).run (simpleMarkov w).init ops = some m ∧
      m.prev = natOf (histBits ops) % 2 ^ w ∧ m.prev < 2 ^ w - 1 ∧
      m.hist.length = 2 ^ w - 1 ∧ ∀ x ∈ m.hist, -2 ≤ x ∧ x ≤ 2 := by
    intro n
    induction n with
    | zero =>
      intro ops hlen hno
      have : ops = [] := List.length_eq_zero_iff.mp hlen
      subst this
      refine ⟨(simpleMarkov w).init, rfl, by simp [simpleMarkov, histBits, natOf, natOfAux],
        by simp [simpleMarkov]; omega, by simp [simpleMarkov], ?_⟩
      intro x hx
      simp [simpleMarkov] at hx
      omega
    | succ n ih =>
      intro ops hlen hno
      obtain ⟨init, op, rfl⟩ : ∃ init op, ops = init ++ [op] := by
        rcases List.eq_nil_or_concat ops with rfl | ⟨i, o, h⟩
        · simp at hlen
        · exact ⟨i, o, by simpa using h⟩
      have hbits := histBits_append init [op]
      have hno' : ¬ List.replicate w true <:+: histBits init := by
        intro hc
        apply hno
        rw [hbits]
        exact hc.trans (List.prefix_append _ _).isInfix
      obtain ⟨m, h1, h2, h3, h4, h5⟩ := ih init (by simpa using hlen) hno'
      rw [run_append, h1]
      have hget : m.hist[m.prev]? = some m.hist[m.prev] := List.getElem?_eq_getElem (by omega)
      have hr := h5 _ (List.getElem_mem (by omega : m.prev < m.hist.length))
      cases op with
      | update b =>
        have hp : (m.prev * 2 + b.toNat) % 2 ^ w = natOf (histBits (init ++ [.update b])) % 2 ^ w := by
          rw [hbits]
          simp only [histBits]
          rw [BitCodes.natOf_snoc, h2, Nat.mul_comm 2, Nat.add_mod, Nat.mul_mod, Nat.mod_mod,
            ← Nat.mul_mod, ← Nat.add_mod]
        refine ⟨_, by simp [Model.run, Model.step, simpleMarkov, hget]; rfl, hp, ?_, by simpa using h4, ?_⟩
        · simp only
          rw [hp]
          exact hprev _ hno
        · intro x hx
          rcases List.mem_or_eq_of_mem_set hx with hx | rfl
          · exact h5 x hx
          · cases b
            · simp only [Bool.false_eq_true, if_false]
              split <;> omega
            · simp only [if_true]
              split <;> omega
      | updateState b =>
        exact ⟨m, rfl, by rw [hbits]; simpa [histBits] using h2, h3, h4, h5⟩
      | reset =>
        refine ⟨⟨m.prev, List.replicate (2 ^ w - 1) 0⟩, rfl, by rw [hbits]; simpa [histBits] using h2,
          h3, by simp, ?_⟩
        intro x hx
        simp at hx
        omega
  exact gen _ ops rfl h

end Bwtc.ProbModels
