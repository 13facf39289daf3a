import Verif.ProbModels

/-!
# Dynamic Markov coding

Model of `probmodels/DMC.hpp`, which is compiled, but never constructed by the program.
-/

set_option autoImplicit false

namespace Bwtc.ProbModels

/-- `DMCState` (DMC.hpp:43-66): counters (`size_t`), transitions, predictor. -/
structure DState (σ : Type) where
  zeros : Nat
  ones : Nat
  t0 : Nat
  t1 : Nat
  pred : σ
deriving DecidableEq

/-- The object (DMC.hpp:136-138): current state, the last bits (first one first), states. -/
structure DmcSt (σ : Type) where
  cur : Nat
  buffer : List Bool
  states : List (DState σ)
deriving DecidableEq

/-- The constructor and `resetModel` (DMC.hpp:69-72, 118-124). -/
def dmcInit {σ : Type} (P : Model σ) : DmcSt σ := ⟨0, [], [⟨0, 0, 0, 0, P.init⟩]⟩

/-- What `update` comes to before it replays anything: a new state, or the states are used up and the buffer is to be replayed. -/
inductive DRound (σ : Type) where
  | next (m : DmcSt σ)
  | full (buffer : List Bool)
deriving DecidableEq

/-- `update` (DMC.hpp:76-112) without the replay, for `DMC<L, M, D, B, ...>`.  `none`: an index outside the vector, `pop_front` of an empty buffer, or growth beyond the
reserved capacity, which would leave the reference `state` dangling.  The reference is not rebound by `state = m_states[...]` (DMC.hpp:86, 89): the current state is
overwritten by a copy of the next one, predictor included (the assignment operator is the implicit one).  The copy constructor used for the clone (DMC.hpp:46-50,
104) leaves the predictor in its initial state. -/
def dmcRound {σ : Type} (P : Model σ) (L M D B : Nat) (m : DmcSt σ) (bit : Bool) : Option (DRound σ) := do
  if m.buffer.length = B ∧ m.buffer = [] then none
  else
    let buffer := (if m.buffer.length = B then m.buffer.drop 1 else m.buffer) ++ [bit]
    let s ← m.states[m.cur]?
    let p ← P.update s.pred bit
    let states := m.states.set m.cur { s with pred := p }
    let curr := if bit then s.t1 else s.t0
    let target ← states[curr]?
    let t := if bit then { target with ones := (target.ones + 1) % 2 ^ 64 } else { target with zeros := (target.zeros + 1) % 2 ^ 64 }
    let states := states.set m.cur t
    if L ≤ t.ones ∧ L ≤ t.zeros then
      let n := states.length
      if n = M then some (.full buffer)
      else if M < n then none
      else
        let clone : DState σ := ⟨t.zeros / D, t.ones / D, t.t0, t.t1, P.init⟩
        let left : DState σ := ⟨t.zeros / D, t.ones / D, if bit then t.t0 else n, if bit then n else t.t1, t.pred⟩
        some (.next ⟨n, buffer, states.set m.cur left ++ [clone]⟩)
    else some (.next ⟨curr, buffer, states⟩)

/-- `update` (DMC.hpp:76-112).  The first argument bounds the depth of the recursion (replaying the buffer calls `update`); `none`: undefined, or the recursion is
deeper. -/
def dmcUpdate {σ : Type} (P : Model σ) (L M D B : Nat) : Nat → DmcSt σ → Bool → Option (DmcSt σ)
  | 0, _, _ => none
  | fuel + 1, m, bit =>
    match dmcRound P L M D B m bit with
    | none => none
    | some (.next m) => some m
    | some (.full buffer) => buffer.foldlM (fun m b => dmcUpdate P L M D B fuel m b) (dmcInit P)

/-- `DMC<L, M, D, B, BitVector, P>` (DMC.hpp:39-141). -/
def dmc {σ : Type} (P : Model σ) (L M D B fuel : Nat) : Model (DmcSt σ) where
  init := dmcInit P
  update := dmcUpdate P L M D B fuel
  updateState m bit := (m.states[m.cur]?).map fun s => { m with cur := if bit then s.t1 else s.t0 }
  prob m := (m.states[m.cur]?).bind fun s => P.prob s.pred
  reset _ := some (dmcInit P)

/-! ## Lemmas -/

/-- The indices are inside the vector and the predictors fine. -/
structure DInv {σ : Type} (I : σ → Prop) (M B : Nat) (m : DmcSt σ) : Prop where
  cur : m.cur < m.states.length
  size : m.states.length ≤ M
  buf : m.buffer.length ≤ B
  st : ∀ s ∈ m.states, s.t0 < m.states.length ∧ s.t1 < m.states.length ∧ I s.pred

theorem dmcInit_inv {σ : Type} {P : Model σ} {I : σ → Prop} (hP : Safe P I) {M B : Nat} (hM : 0 < M) : DInv I M B (dmcInit P) := by
  refine ⟨by simp [dmcInit], by simp [dmcInit]; omega, by simp [dmcInit], ?_⟩
  intro s hs
  simp only [dmcInit, List.mem_singleton] at hs
  subst hs
  exact ⟨by simp [dmcInit], by simp [dmcInit], hP.init⟩

theorem dmcRound_spec {σ : Type} {P : Model σ} {I : σ → Prop} (hP : Safe P I) {L M D B : Nat} (hB : 0 < B) {m : DmcSt σ} (hm : DInv I M B m)
    (bit : Bool) : ∃ r, dmcRound P L M D B m bit = some r ∧ match r with
      | .next m' => DInv I M B m' ∧ m'.states.length ≤ m.states.length + 1 ∧
          m'.buffer = (if m.buffer.length = B then m.buffer.drop 1 else m.buffer) ++ [bit]
      | .full buffer => m.states.length = M ∧ buffer = (if m.buffer.length = B then m.buffer.drop 1 else m.buffer) ++ [bit] := by
  have h0 : ¬ (m.buffer.length = B ∧ m.buffer = []) := by
    rintro ⟨h1, h2⟩
    rw [h2, List.length_nil] at h1
    omega
  obtain ⟨c1, c2, c3, c4⟩ := hm
  have hs : m.states[m.cur]? = some m.states[m.cur] := List.getElem?_eq_getElem c1
  obtain ⟨s1, s2, s3⟩ := c4 _ (List.getElem_mem c1)
  generalize hse : m.states[m.cur] = s at hs s1 s2 s3
  obtain ⟨p, p1, p2⟩ := hP.step s.pred (.update bit) s3
  replace p1 : P.update s.pred bit = some p := p1
  have hbuf : ((if m.buffer.length = B then m.buffer.drop 1 else m.buffer) ++ [bit]).length ≤ B := by
    rw [List.length_append, List.length_singleton]
    split
    · rw [List.length_drop]; omega
    · omega
  generalize hbu : (if m.buffer.length = B then m.buffer.drop 1 else m.buffer) ++ [bit] = buffer at *
  have hst : ∀ x ∈ m.states.set m.cur { s with pred := p }, x.t0 < m.states.length ∧ x.t1 < m.states.length ∧ I x.pred := by
    intro x hx
    rcases List.mem_or_eq_of_mem_set hx with hx | rfl
    · exact c4 x hx
    · exact ⟨s1, s2, p2⟩
  have hlen : (m.states.set m.cur { s with pred := p }).length = m.states.length := List.length_set
  have hcurr : (if bit then s.t1 else s.t0) < (m.states.set m.cur { s with pred := p }).length := by
    rw [hlen]; split <;> assumption
  rw [dmcRound, if_neg h0]
  simp only [Option.bind_eq_bind, hs, Option.bind_some, p1]
  generalize m.states.set m.cur { s with pred := p } = states at *
  rw [List.getElem?_eq_getElem hcurr]
  simp only [Option.bind_some]
  obtain ⟨t1, t2, t3⟩ := hst _ (List.getElem_mem hcurr)
  generalize states[if bit then s.t1 else s.t0] = target at t1 t2 t3 ⊢
  have ht : ∀ t : DState σ, t = (if bit then { target with ones := (target.ones + 1) % 2 ^ 64 } else { target with zeros := (target.zeros + 1) % 2 ^ 64 }) →
      t.t0 < m.states.length ∧ t.t1 < m.states.length ∧ I t.pred := by
    rintro t rfl
    split <;> exact ⟨t1, t2, t3⟩
  generalize hte : (if bit then ({ target with ones := (target.ones + 1) % 2 ^ 64 } : DState σ)
    else { target with zeros := (target.zeros + 1) % 2 ^ 64 }) = t at ht ⊢
  obtain ⟨u1, u2, u3⟩ := ht t rfl
  rw [hbu]
  simp only [List.length_set]
  by_cases hsp : L ≤ t.ones ∧ L ≤ t.zeros
  · rw [if_pos hsp]
    by_cases hn : states.length = M
    · rw [if_pos hn]
      exact ⟨_, rfl, by omega, rfl⟩
    · rw [if_neg hn, if_neg (by omega)]
      refine ⟨_, rfl, ⟨by simp, ?_, hbuf, ?_⟩, ?_, rfl⟩
      · simp only [List.length_append, List.length_set, List.length_singleton]; omega
      · intro x hx
        simp only [List.length_append, List.length_set, List.length_singleton, hlen] at hx ⊢
        rw [List.mem_append, List.mem_singleton] at hx
        rcases hx with hx | rfl
        · rcases List.mem_or_eq_of_mem_set hx with hx | rfl
          · rcases List.mem_or_eq_of_mem_set hx with hx | rfl
            · obtain ⟨a, b, c⟩ := hst x hx
              exact ⟨by omega, by omega, c⟩
            · exact ⟨by omega, by omega, u3⟩
          · exact ⟨by simp only; split <;> omega, by simp only; split <;> omega, u3⟩
        · exact ⟨by simp only; omega, by simp only; omega, hP.init⟩
      · simp only [List.length_append, List.length_set, List.length_singleton]; omega
  · rw [if_neg hsp]
    refine ⟨_, rfl, ⟨by simpa using hcurr, by simp only [List.length_set]; omega, hbuf, ?_⟩, by simp only [List.length_set]; omega, rfl⟩
    intro x hx
    simp only [List.length_set, hlen] at hx ⊢
    rcases List.mem_or_eq_of_mem_set hx with hx | rfl
    · exact hst x hx
    · exact ⟨u1, u2, u3⟩

/-- Replaying fewer bits than there are states does not use the states up. -/
theorem replay_short {σ : Type} {P : Model σ} {I : σ → Prop} (hP : Safe P I) {L M D B : Nat} (hB : 0 < B) (fuel : Nat) :
    ∀ (bits : List Bool) (m : DmcSt σ), DInv I M B m → m.states.length + bits.length ≤ M →
      ∃ m', bits.foldlM (fun m b => dmcUpdate P L M D B (fuel + 1) m b) m = some m' ∧ DInv I M B m' := by
  intro bits
  induction bits with
  | nil => intro m hm _; exact ⟨m, rfl, hm⟩
  | cons b bits ih =>
    intro m hm hl
    rw [List.length_cons] at hl
    obtain ⟨r, h1, h2⟩ := dmcRound_spec hP (L := L) (D := D) hB hm b
    cases r with
    | full buffer => simp only at h2; omega
    | next m' =>
      obtain ⟨i1, i2, _⟩ := h2
      obtain ⟨m'', j1, j2⟩ := ih m' i1 (by omega)
      refine ⟨m'', ?_, j2⟩
      rw [List.foldlM_cons, dmcUpdate, h1]
      simpa using j1

theorem dmc_safe {σ : Type} {P : Model σ} {I : σ → Prop} (hP : Safe P I) {L M D B : Nat} (hB : 0 < B) (hBM : B < M) (fuel : Nat) :
    Safe (dmc P L M D B (fuel + 2)) (DInv I M B) where
  init := dmcInit_inv hP (by omega)
  step m op hm := by
    cases op with
    | update bit =>
      obtain ⟨r, h1, h2⟩ := dmcRound_spec hP (L := L) (D := D) hB hm bit
      show ∃ s', dmcUpdate P L M D B (fuel + 2) m bit = some s' ∧ _
      rw [dmcUpdate, h1]
      cases r with
      | next m' => exact ⟨m', rfl, h2.1⟩
      | full buffer =>
        obtain ⟨_, hb⟩ := h2
        have hlen : buffer.length ≤ B := by
          have := hm.buf
          rw [hb, List.length_append, List.length_singleton]
          split
          · rw [List.length_drop]; omega
          · omega
        exact replay_short hP hB fuel buffer _ (dmcInit_inv hP (by omega)) (by simp only [dmcInit, List.length_singleton]; omega)
    | updateState bit =>
      have hc := hm.cur
      have hs : m.states[m.cur]? = some m.states[m.cur] := List.getElem?_eq_getElem hm.cur
      obtain ⟨s1, s2, s3⟩ := hm.st _ (List.getElem_mem hm.cur)
      refine ⟨{ m with cur := if bit then m.states[m.cur].t1 else m.states[m.cur].t0 }, ?_, ?_, hm.size, hm.buf, hm.st⟩
      · show (m.states[m.cur]?).map _ = _
        rw [hs]
        rfl
      · simp only
        split <;> assumption
    | reset => exact ⟨_, rfl, dmcInit_inv hP (by omega)⟩
  prob m hm := by
    have hc := hm.cur
    have hs : m.states[m.cur]? = some m.states[m.cur] := List.getElem?_eq_getElem hm.cur
    obtain ⟨_, _, s3⟩ := hm.st _ (List.getElem_mem hm.cur)
    obtain ⟨p, h1, h2⟩ := hP.prob _ s3
    refine ⟨p, ?_, h2⟩
    show (m.states[m.cur]?).bind _ = _
    rw [hs]
    exact h1

/-- Rounds without a replay. -/
def rounds {σ : Type} (P : Model σ) (L M D B : Nat) : DmcSt σ → List Bool → Option (DmcSt σ)
  | m, [] => some m
  | m, b :: bits =>
    match dmcRound P L M D B m b with
    | some (.next m) => rounds P L M D B m bits
    | _ => none

theorem rounds_fold {σ : Type} {P : Model σ} {L M D B : Nat} (fuel : Nat) : ∀ (bits : List Bool) (m m' : DmcSt σ),
    rounds P L M D B m bits = some m' → bits.foldlM (fun m b => dmcUpdate P L M D B (fuel + 1) m b) m = some m' := by
  intro bits
  induction bits with
  | nil => intro m m' h; exact h
  | cons b bits ih =>
    intro m m' h
    rw [rounds] at h
    rw [List.foldlM_cons, dmcUpdate]
    cases hr : dmcRound P L M D B m b with
    | none => rw [hr] at h; simp at h
    | some r =>
      rw [hr] at h
      cases r with
      | full _ => simp at h
      | next m1 =>
        simp only at h
        simpa using ih m1 m' h

/-- If the bits that are replayed use the states up themselves, the recursion does not end. -/
theorem endless {σ : Type} {P : Model σ} {L M D B : Nat} {bits : List Bool} {b : Bool} {m : DmcSt σ}
    (h1 : rounds P L M D B (dmcInit P) bits = some m) (h2 : dmcRound P L M D B m b = some (.full (bits ++ [b]))) :
    ∀ fuel, dmcUpdate P L M D B fuel m b = none := by
  intro fuel
  induction fuel with
  | zero => rfl
  | succ fuel ih =>
    rw [dmcUpdate, h2]
    simp only [List.foldlM_append, List.foldlM_cons, List.foldlM_nil]
    cases fuel with
    | zero =>
      cases hb : bits.foldlM (fun m b => dmcUpdate P L M D B 0 m b) (dmcInit P) with
      | none => rfl
      | some x => simp [dmcUpdate]
    | succ fuel =>
      rw [rounds_fold fuel bits _ _ h1]
      simp [ih]

end Bwtc.ProbModels
