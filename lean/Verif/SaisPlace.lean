import Verif.SaisSort
import Verif.SaisKey
import Verif.SaisSpread

/-!
# Stage 1 of `sais.hxx`: finding and placing the LMS positions
-/

set_option autoImplicit false

namespace Bwtc.Induce
open Classical

/-- The invariant at the beginning of a pass over the array `A'`, when the last position is induced first. -/
theorem Order.init_last {n : Nat} (O : Order n) (hl : O.tgt (n - 1)) {st fin nst nfin : Nat → Int}
    {A A' : Nat → Option Int} (hsrc : ∀ p, O.src p → A (O.time p - 1) = some (st p))
    (hoth : ∀ r, r < n → (∀ p, O.src p → O.time p ≠ r + 1) → A r = some (nst r))
    (hput : A' (O.start (O.ch (n - 1))) = some (st (n - 1)))
    (hkeep : ∀ r, r ≠ O.start (O.ch (n - 1)) → A' r = A r) :
    O.sched.Inv st fin nst nfin 0 A'
      (fun c => if c = O.ch (n - 1) then O.start (O.ch (n - 1)) + 1 else O.start c) := by
  have hn : 0 < n := by have := O.bound _ (Or.inr hl); omega
  have htl : O.time (n - 1) = O.start (O.ch (n - 1)) + 1 := by
    rw [O.time_tgt hl]
    have : cnt n (fun q => O.tgt q ∧ O.ch q = O.ch (n - 1) ∧ O.lt q (n - 1)) = 0 := by
      apply cnt_false
      intro q hq a
      by_cases e : q = n - 1
      · subst e; exact O.irrefl _ a.2.2
      · have := O.last (n - 1) q hl a.1 a.2.1.symm (by omega) (fun e' => e e'.symm)
        exact O.irrefl _ (O.trans _ _ _ a.2.2 this)
    rw [this]
  have hst : ∀ q, O.tgt q → O.time (q + 1) ≤ 0 → q = n - 1 := by
    intro q hq h
    rcases O.next q hq with a | a
    · omega
    · have := O.act_range a.1; omega
  constructor
  · intro p hp
    show (if O.ch p = O.ch (n - 1) then _ else _) = O.start (O.ch p) + cnt n (fun q => O.tgt q ∧ O.ch q = O.ch p ∧ O.time (q + 1) ≤ 0)
    by_cases e : O.ch p = O.ch (n - 1)
    · have : cnt n (fun q => O.tgt q ∧ O.ch q = O.ch p ∧ O.time (q + 1) ≤ 0) = 1 := by
        apply cnt_one (a := n - 1) (by omega)
        intro q _
        constructor
        · rintro ⟨a, _, c⟩; exact hst q a c
        · rintro rfl
          refine ⟨hl, e.symm, ?_⟩
          rw [show n - 1 + 1 = n by omega, O.time_n]
          exact Nat.le_refl 0
      rw [if_pos e, this, e]
    · have : cnt n (fun q => O.tgt q ∧ O.ch q = O.ch p ∧ O.time (q + 1) ≤ 0) = 0 := by
        apply cnt_false
        rintro q _ ⟨a, b, c⟩
        have := hst q a c
        subst this
        exact e b.symm
      rw [if_neg e, this]; rfl
  · intro p hp
    have hp' : O.src p ∨ O.tgt p := by
      rcases hp with hp | hp
      · exact Or.inl hp
      · exact Or.inr hp.1
    have hr := O.sched.range p hp'
    rw [if_neg (by omega)]
    show A' (O.time p - 1) = _
    rcases hp with hp | hp
    · have hne : O.time p ≠ O.time (n - 1) := by
        intro a
        have := O.time_inj (Or.inl hp) (Or.inr hl) a
        subst this
        exact O.disj _ hp hl
      have := O.act_range (Or.inl hp)
      rw [hkeep _ (by omega), hsrc p hp]
    · have : p = n - 1 := hst p hp.1 hp.2
      subst this
      rw [htl, show O.start (O.ch (n - 1)) + 1 - 1 = O.start (O.ch (n - 1)) by omega, hput]
  · intro r hr hne
    have h1 := hne (n - 1) (Or.inr hl)
    have h2 : O.sched.time (n - 1) = O.time (n - 1) := rfl
    rw [if_neg (by omega), hkeep r (by omega)]
    exact hoth r hr (fun p hp => hne p (Or.inl hp))
  · intro r hr
    by_cases e : r = O.start (O.ch (n - 1))
    · rw [e, hput]; exact Option.some_ne_none _
    · rw [hkeep r e]
      by_cases hex : ∃ p, O.src p ∧ O.time p = r + 1
      · obtain ⟨p, hp, ht⟩ := hex
        have := hsrc p hp
        rw [ht, show r + 1 - 1 = r by omega] at this
        rw [this]; exact Option.some_ne_none _
      · rw [hoth r hr (fun p hp a => hex ⟨p, hp, a⟩)]; exact Option.some_ne_none _

/-- The invariant at the beginning of a pass when the last position is not induced. -/
theorem Order.init_none {n : Nat} (O : Order n) (hl : ∀ p, O.tgt p → p + 1 ≠ n) {st fin nst nfin : Nat → Int}
    {A : Nat → Option Int} {ptr : Nat → Nat} (hsrc : ∀ p, O.src p → A (O.time p - 1) = some (st p))
    (hoth : ∀ r, r < n → (∀ p, O.src p → O.time p ≠ r + 1) → A r = some (nst r))
    (hptr : ∀ p, O.tgt p → ptr (O.ch p) = O.start (O.ch p)) : O.sched.Inv st fin nst nfin 0 A ptr := by
  have hst : ∀ q, O.tgt q → ¬ O.time (q + 1) ≤ 0 := by
    intro q hq h
    rcases O.next q hq with a | a
    · exact hl q hq a
    · have := O.act_range a.1; omega
  constructor
  · intro p hp
    show ptr (O.ch p) = O.start (O.ch p) + cnt n (fun q => O.tgt q ∧ O.ch q = O.ch p ∧ O.time (q + 1) ≤ 0)
    rw [cnt_false (n := n) (P := fun q => O.tgt q ∧ O.ch q = O.ch p ∧ O.time (q + 1) ≤ 0)
      (fun q _ a => hst q a.1 a.2.2), hptr p hp]
    rfl
  · intro p hp
    have hs : O.src p := by
      rcases hp with hp | hp
      · exact hp
      · exact absurd hp.2 (hst p hp.1)
    have hr := O.sched.range p (Or.inl hs)
    rw [if_neg (by omega)]
    exact hsrc p hs
  · intro r hr hne
    rw [if_neg (by omega)]
    exact hoth r hr (fun p hp => hne p (Or.inl hp))
  · intro r hr
    by_cases hex : ∃ p, O.src p ∧ O.time p = r + 1
    · obtain ⟨p, hp, ht⟩ := hex
      have := hsrc p hp
      rw [ht, show r + 1 - 1 = r by omega] at this
      rw [this]; exact Option.some_ne_none _
    · rw [hoth r hr (fun p hp a => hex ⟨p, hp, a⟩)]; exact Option.some_ne_none _

end Bwtc.Induce

namespace Bwtc.Sais
open Induce Suffix Classical

variable {T : List Nat}

/-! ## The scan for LMS positions -/

theorem lmsLoop_spec {σ : Type} {act : σ → Nat → Nat → Option σ} (Q : Nat → σ → Prop)
    (hact : ∀ i s, isLMS T (i + 1) → Q (i + 1) s → ∃ s', act s i (ch T (i + 1)) = some s' ∧ Q i s')
    (hskip : ∀ i s, i + 1 < T.length → ¬ isLMS T (i + 1) → Q (i + 1) s → Q i s) (up : Bool) (i : Nat) (s : σ)
    (hi : i < T.length) (hup : if up then isS T i else isL T i) (h : Q i s) :
    ∃ s', lmsLoop T act up i (ch T i) s = some s' ∧ Q 0 s' := by
  induction i generalizing up s with
  | zero => exact ⟨s, by unfold lmsLoop; rfl, h⟩
  | succ i ih =>
    unfold lmsLoop
    rw [get_ch (show i < T.length by omega)]
    simp only
    cases up with
    | true =>
      simp only [if_true] at hup ⊢
      by_cases hc : ch T i ≤ ch T (i + 1)
      · have hs : isS T i := (S_pred hup).mpr hc
        rw [if_pos hc]
        apply ih true s (by omega)
        · rw [if_pos rfl]; exact hs
        · exact hskip i s hi (not_lms_afterS hs) h
      · have hl : isL T i := (not_isS (by omega)).mp (fun a => hc ((S_pred hup).mp a))
        obtain ⟨s1, h1, h2⟩ := hact i s ⟨hup, i, rfl, hl⟩ h
        rw [if_neg hc, h1]
        apply ih false s1 (by omega)
        · rw [if_neg (by simp)]; exact hl
        · exact h2
    | false =>
      simp only [Bool.false_eq_true, if_false] at hup ⊢
      have hnl : ¬ isLMS T (i + 1) := not_lms_L hup
      have hq := hskip i s hi hnl h
      by_cases hc : ch T (i + 1) ≤ ch T i
      · rw [if_pos hc]
        apply ih false s (by omega)
        · rw [if_neg (by simp)]; exact (L_pred hup).mpr hc
        · exact hq
      · have hs : isS T i := (not_isL (by omega)).mp (fun a => hc ((L_pred hup).mp a))
        rw [if_neg hc]
        apply ih true s (by omega)
        · rw [if_pos rfl]; exact hs
        · exact hq

/-- The loops over the LMS positions from right to left: `Q i` holds when the LMS positions behind `i` have been treated. -/
theorem lmsScan_spec {σ : Type} {act : σ → Nat → Nat → Option σ} (hn : 0 < T.length) (Q : Nat → σ → Prop) (s : σ)
    (hact : ∀ i s, isLMS T (i + 1) → Q (i + 1) s → ∃ s', act s i (ch T (i + 1)) = some s' ∧ Q i s')
    (hskip : ∀ i s, i + 1 < T.length → ¬ isLMS T (i + 1) → Q (i + 1) s → Q i s) (h : Q (T.length - 1) s) :
    ∃ s', lmsScan T act s = some s' ∧ Q 0 s' := by
  unfold lmsScan
  rw [bind_some' (get_ch (show T.length - 1 < T.length by omega))]
  apply lmsLoop_spec Q hact hskip false _ s (by omega) _ h
  rw [if_neg (by simp)]
  exact isL_last (by omega)

/-! ## Slots at the ends of the buckets -/

/-- One more than the slot of an LMS position, when larger positions of a bucket stand further back. -/
noncomputable def lslot (T : List Nat) (p : Nat) : Nat :=
  cnt T.length (fun q => ch T q ≤ ch T p) - cnt T.length (fun q => isLMS T q ∧ ch T q = ch T p ∧ p < q)

theorem walk_lms_lt {p q : Nat} (hp : isLMS T p) (hq : isLMS T q) (h : ch T q = ch T p) :
    walk T p < walk T q ↔ p < q := by
  rw [walk_lms hp, walk_lms hq, List.cons_lt_cons_iff, List.cons_lt_cons_iff, tc_S hp.1, tc_S hq.1]
  constructor
  · rintro (a | ⟨_, a | a⟩)
    · omega
    · exact a
    · exact absurd a.2 (List.not_lt_nil _)
  · intro a; exact Or.inr ⟨by omega, Or.inl a⟩

theorem time_lslot {p0 p : Nat} (hp : isLMS T p) (h : p0 < p) : (ordL1 T p0).time p = lslot T p := by
  rw [(ordL1 T p0).time_src ⟨hp, h⟩]
  unfold lslot
  have h1 : (ordL1 T p0).stop ((ordL1 T p0).ch p) = cnt T.length (fun q => ch T q ≤ ch T p) := rfl
  rw [h1]
  congr 1
  apply cnt_congr
  intro q _
  constructor
  · rintro ⟨a, b, c⟩
    exact ⟨a.1, b, (walk_lms_lt hp a.1 b).mp c⟩
  · rintro ⟨a, b, c⟩
    exact ⟨⟨a, by omega⟩, b, (walk_lms_lt hp a b).mpr c⟩

theorem lslot_pos {p : Nat} (hp : isLMS T p) : 0 < lslot T p := by
  have h0 := isLMS_pos hp
  have := ((ordL1 T 0).sched.range p (Or.inl ⟨hp, h0⟩)).1
  have h1 : (ordL1 T 0).sched.time p = (ordL1 T 0).time p := rfl
  rw [h1, time_lslot hp h0] at this
  exact this

theorem lslot_inj {p q : Nat} (hp : isLMS T p) (hq : isLMS T q) (h : lslot T p = lslot T q) : p = q := by
  have h0 := isLMS_pos hp
  have h1 := isLMS_pos hq
  apply (ordL1 T 0).time_inj (Or.inl ⟨hp, h0⟩) (Or.inl ⟨hq, h1⟩)
  rw [time_lslot hp h0, time_lslot hq h1, h]

theorem lslot_lt {p : Nat} (hp : isLMS T p) : lslot T p < T.length := by
  have h0 := lms_pred_isL hp
  have h1 : cnt T.length (fun q => ch T q ≤ ch T p) < T.length := by
    have := cnt_lt (n := T.length) (P := fun q => ch T q ≤ ch T p) (Q := fun _ => True) (a := p - 1) h0.2.1
      (by
        have hp' : isLMS T (p - 1 + 1) := by rw [show p - 1 + 1 = p by omega]; exact hp
        have := isLMS_ch hp'
        rw [show p - 1 + 1 = p by omega] at this
        omega) trivial (fun _ _ _ => trivial)
    rw [cnt_true (fun _ _ => trivial)] at this
    exact this
  unfold lslot
  omega

/-- The leftmost LMS position behind `i`. -/
def FirstLMS (T : List Nat) (i p : Nat) : Prop := isLMS T p ∧ i < p ∧ ∀ q, isLMS T q → i < q → p ≤ q

/-- After the LMS positions behind `i`. -/
structure Placed (T : List Nat) (k : Nat) (i : Nat) (s : Place) : Prop where
  size : s.sa.length = T.length
  num : s.m = cnt T.length (fun q => isLMS T q ∧ i < q)
  blen : s.B.length = k
  bval : ∀ c, c < k → s.B[c]? = some (cnt T.length (fun q => ch T q ≤ c) -
    cnt T.length (fun q => isLMS T q ∧ ch T q = c ∧ i < q))
  none : (∀ q, isLMS T q → ¬ i < q) → s.b = T.length - 1 ∧ s.j = T.length ∧ ∀ r, r < T.length → s.sa[r]? = some 0
  some : ∀ p0, FirstLMS T i p0 → s.j + 1 = p0 ∧ s.b + 1 = lslot T p0 ∧
    (∀ q, isLMS T q → p0 < q → s.sa[lslot T q - 1]? = some ((q - 1 : Nat) : Int)) ∧
    ∀ r, r + 1 < T.length → (∀ q, isLMS T q → p0 < q → lslot T q ≠ r + 1) → s.sa[r]? = some 0

theorem firstLMS_ex {i q : Nat} (hq : isLMS T q) (h : i < q) : ∃ p, FirstLMS T i p := by
  suffices H : ∀ d q, q ≤ d → isLMS T q → i < q → ∃ p, FirstLMS T i p from H q q (Nat.le_refl _) hq h
  intro d
  induction d with
  | zero => intro q hd hq h; omega
  | succ d ih =>
    intro q hd hq h
    by_cases hex : ∃ r, isLMS T r ∧ i < r ∧ r < q
    · obtain ⟨r, a, b, c⟩ := hex
      exact ih r (by omega) a b
    · refine ⟨q, hq, h, ?_⟩
      intro r hr hir
      by_cases e : q ≤ r
      · exact e
      · exact absurd ⟨r, hr, hir, by omega⟩ hex

theorem placeAct_spec {k : Nat} (hk : ∀ p, p < T.length → ch T p < k) {i : Nat} {s : Place} (hl : isLMS T (i + 1))
    (h : Placed T k (i + 1) s) : ∃ s', placeAct s i (ch T (i + 1)) = some s' ∧ Placed T k i s' := by
  have hn := hl.1.1
  have hsz := h.size
  have hB := h.bval _ (hk _ hn)
  have hbl := h.blen
  have hval : cnt T.length (fun q => ch T q ≤ ch T (i + 1)) -
    cnt T.length (fun q => isLMS T q ∧ ch T q = ch T (i + 1) ∧ i + 1 < q) = lslot T (i + 1) := rfl
  rw [hval] at hB
  have hpos := lslot_pos hl
  have hblt : s.b < T.length := by
    by_cases hex : ∃ q, isLMS T q ∧ i + 1 < q
    · obtain ⟨q, a, b⟩ := hex
      obtain ⟨p0, hp0⟩ := firstLMS_ex a b
      have h1 := (h.some p0 hp0).2.1
      have h2 := lslot_lt hp0.1
      omega
    · have := (h.none (fun q a b => hex ⟨q, a, b⟩)).1; omega
  have hfirst : ∀ p0, FirstLMS T i p0 → p0 = i + 1 := by
    intro p0 h0
    have h1 := h0.2.2 (i + 1) hl (by omega)
    have h2 := h0.2.1
    omega
  refine ⟨⟨s.sa.set s.b s.j, s.B.set (ch T (i + 1)) (lslot T (i + 1) - 1), lslot T (i + 1) - 1, i, s.m + 1⟩, ?_, ?_⟩
  · unfold placeAct
    rw [bind_some' (put_spec (by omega) _), bind_some' hB, if_neg (by omega)]
    rfl
  · constructor
    · simp only [List.length_set]; exact hsz
    · simp only
      rw [h.num]
      symm
      apply cnt_insert (P := fun q => isLMS T q ∧ i + 1 < q) hn (fun a => by omega)
      intro q _
      constructor
      · rintro ⟨a, b⟩
        by_cases e : q = i + 1
        · exact Or.inr e
        · exact Or.inl ⟨a, by omega⟩
      · rintro (⟨a, b⟩ | rfl)
        · exact ⟨a, by omega⟩
        · exact ⟨hl, by omega⟩
    · simp only [List.length_set]; exact hbl
    · intro c hc
      simp only
      by_cases e : c = ch T (i + 1)
      · subst e
        rw [List.getElem?_set, if_pos rfl, if_pos (by omega)]
        have : cnt T.length (fun q => isLMS T q ∧ ch T q = ch T (i + 1) ∧ i < q) =
            cnt T.length (fun q => isLMS T q ∧ ch T q = ch T (i + 1) ∧ i + 1 < q) + 1 := by
          apply cnt_insert (P := fun q => isLMS T q ∧ ch T q = ch T (i + 1) ∧ i + 1 < q) hn (fun a => by omega)
          intro q _
          constructor
          · rintro ⟨a, b, c⟩
            by_cases e : q = i + 1
            · exact Or.inr e
            · exact Or.inl ⟨a, b, by omega⟩
          · rintro (⟨a, b, c⟩ | rfl)
            · exact ⟨a, b, by omega⟩
            · exact ⟨hl, rfl, by omega⟩
        rw [this, ← hval]
        congr 1
      · rw [List.getElem?_set_ne (fun a => e a.symm), h.bval c hc]
        congr 2
        apply cnt_congr
        intro q _
        constructor
        · rintro ⟨a, b, c⟩; exact ⟨a, b, by omega⟩
        · rintro ⟨a, b, c⟩
          refine ⟨a, b, ?_⟩
          by_cases e2 : q = i + 1
          · subst e2; exact absurd b.symm e
          · omega
    · intro hno
      exact absurd (show i < i + 1 by omega) (hno (i + 1) hl)
    · intro p0 hp0
      have := hfirst p0 hp0
      subst this
      refine ⟨rfl, by simp only; omega, ?_, ?_⟩
      · intro q hq hlt
        obtain ⟨p1, hp1⟩ := firstLMS_ex hq hlt
        obtain ⟨a1, a2, a3, a4⟩ := h.some p1 hp1
        have hq1 := hp1.2.2 q hq hlt
        have hqp := lslot_pos hq
        simp only
        by_cases e : q = p1
        · subst e
          rw [show lslot T q - 1 = s.b by omega, List.getElem?_set, if_pos rfl, if_pos (by omega)]
          congr 2; omega
        · have hne : lslot T q ≠ lslot T p1 := fun a => e (lslot_inj hq hp1.1 a)
          rw [List.getElem?_set_ne (by omega)]
          exact a3 q hq (by omega)
      · intro r hr hne
        simp only
        by_cases hex : ∃ q, isLMS T q ∧ i + 1 < q
        · obtain ⟨q, a, b⟩ := hex
          obtain ⟨p1, hp1⟩ := firstLMS_ex a b
          obtain ⟨a1, a2, a3, a4⟩ := h.some p1 hp1
          have h1 := hne p1 hp1.1 hp1.2.1
          rw [List.getElem?_set_ne (by omega)]
          apply a4 r hr
          intro q' hq' hlt
          exact hne q' hq' (by have := hp1.2.1; omega)
        · obtain ⟨a1, a2, a3⟩ := h.none (fun q a b => hex ⟨q, a, b⟩)
          rw [List.getElem?_set_ne (by omega)]
          exact a3 r (by omega)

theorem Placed.skip {k i : Nat} {s : Place} (hl : ¬ isLMS T (i + 1)) (h : Placed T k (i + 1) s) : Placed T k i s := by
  have hiff : ∀ q, isLMS T q → (i < q ↔ i + 1 < q) := by
    intro q hq
    constructor
    · intro a
      by_cases e : q = i + 1
      · subst e; exact absurd hq hl
      · omega
    · intro a; omega
  refine ⟨h.size, ?_, h.blen, ?_, ?_, ?_⟩
  · rw [h.num]
    apply cnt_congr
    intro q _
    constructor
    · rintro ⟨a, b⟩; exact ⟨a, (hiff q a).mpr b⟩
    · rintro ⟨a, b⟩; exact ⟨a, (hiff q a).mp b⟩
  · intro c hc
    rw [h.bval c hc]
    congr 2
    apply cnt_congr
    intro q _
    constructor
    · rintro ⟨a, b, c⟩; exact ⟨a, b, (hiff q a).mpr c⟩
    · rintro ⟨a, b, c⟩; exact ⟨a, b, (hiff q a).mp c⟩
  · intro hno
    exact h.none (fun q a b => hno q a (by omega))
  · intro p0 hp0
    apply h.some p0
    exact ⟨hp0.1, (hiff _ hp0.1).mp hp0.2.1, fun q hq hlt => hp0.2.2 q hq (by omega)⟩

/-- The result of the first loop of `stage1sort`. -/
structure PlaceOut (T : List Nat) (k : Nat) (s : Place) : Prop where
  size : s.sa.length = T.length
  num : s.m = lmsCount T
  blen : s.B.length = k
  bval : ∀ c, c < k → s.B[c]? = some (cnt T.length (fun q => ch T q ≤ c) -
    cnt T.length (fun q => isLMS T q ∧ ch T q = c))
  none : (∀ q, ¬ isLMS T q) → ∀ r, r < T.length → s.sa[r]? = some 0
  some : ∀ p0, FirstLMS T 0 p0 → s.j + 1 = p0 ∧ s.b + 1 = lslot T p0 ∧
    (∀ q, isLMS T q → p0 < q → s.sa[lslot T q - 1]? = some ((q - 1 : Nat) : Int)) ∧
    ∀ r, r < T.length → (∀ q, isLMS T q → p0 < q → lslot T q ≠ r + 1) → s.sa[r]? = some 0

theorem place_spec {k : Nat} (hk : ∀ c ∈ T, c < k) (hn : 0 < T.length) {C : List Nat} (hC : Counts T k C) :
    ∃ s, place T C = some s ∧ PlaceOut T k s := by
  have hk' : ∀ p, p < T.length → ch T p < k := fun p hp => ch_lt hk hp
  have hno : ∀ q, isLMS T q → ¬ T.length - 1 < q := by
    intro q hq a
    have := hq.1.1; omega
  obtain ⟨s, h1, h2⟩ := lmsScan_spec (T := T) (act := placeAct) hn (Placed T k)
    ⟨List.replicate T.length 0, getBuckets C true, T.length - 1, T.length, 0⟩
    (fun i s hl h => placeAct_spec hk' hl h) (fun i s _ hl h => h.skip hl) (by
      constructor
      · exact List.length_replicate
      · symm
        exact cnt_false (fun q _ a => hno q a.1 a.2)
      · rw [getBuckets_length, hC.1]
      · intro c hc
        simp only
        rw [getBuckets_stop hC c hc, cnt_false (n := T.length) (P := fun q => isLMS T q ∧ ch T q = c ∧ T.length - 1 < q)
          (fun q _ a => hno q a.1 a.2.2)]
        rfl
      · intro _
        refine ⟨rfl, rfl, ?_⟩
        intro r hr
        rw [List.getElem?_replicate, if_pos hr]
      · intro p0 hp0
        exact absurd hp0.2.1 (hno p0 hp0.1))
  refine ⟨{ s with sa := s.sa.set (T.length - 1) 0 }, ?_, ?_⟩
  · unfold place
    simp only
    rw [bind_some' h1, bind_some' (put_spec (by rw [h2.size]; omega) 0)]
    rfl
  · have hset := get_set1 (A := s.sa) (i := T.length - 1) (v := 0) (by rw [h2.size]; omega)
    have hpos : ∀ q, isLMS T q → 0 < q := fun q hq => isLMS_pos hq
    constructor
    · simp only [List.length_set]; exact h2.size
    · simp only
      rw [h2.num]
      apply cnt_congr
      intro q _
      exact ⟨fun a => a.1, fun a => ⟨a, hpos q a⟩⟩
    · exact h2.blen
    · intro c hc
      simp only
      rw [h2.bval c hc]
      congr 2
      apply cnt_congr
      intro q _
      exact ⟨fun a => ⟨a.1, a.2.1⟩, fun a => ⟨a.1, a.2, hpos q a.1⟩⟩
    · intro hnone r hr
      simp only
      by_cases e : r = T.length - 1
      · rw [e]; exact hset.1
      · rw [hset.2 r e]
        exact (h2.none (fun q hq => absurd hq (hnone q))).2.2 r hr
    · intro p0 hp0
      obtain ⟨a1, a2, a3, a4⟩ := h2.some p0 hp0
      refine ⟨a1, a2, ?_, ?_⟩
      · intro q hq hlt
        have := lslot_lt hq
        have := lslot_pos hq
        simp only
        rw [hset.2 _ (by omega)]
        exact a3 q hq hlt
      · intro r hr hne
        simp only
        by_cases e : r = T.length - 1
        · rw [e]; exact hset.1
        · rw [hset.2 r e]
          exact a4 r (by omega) hne

end Bwtc.Sais
