import Verif.SaisSort2

/-!
# `LMSpostproc2` and `stage1sort`
-/

set_option autoImplicit false

namespace Bwtc.Sais
open Induce Suffix Classical

variable {T : List Nat}

/-! ## Last of each class -/

/-- The number of marked positions. -/
noncomputable def lasts (T : List Nat) : Nat := cnt T.length (isLast T)

/-- The number of marked positions from row `t` on. -/
noncomputable def clsR (T : List Nat) (t : Nat) : Nat := cnt T.length (fun q => isLast T q ∧ t ≤ krank T q)

theorem last_ex {p : Nat} (hp : isLMS T p) : ∃ q, isLast T q ∧ keyX T q = keyX T p ∧ krank T p ≤ krank T q := by
  suffices H : ∀ d p, lmsCount T - krank T p ≤ d → isLMS T p → ∃ q, isLast T q ∧ keyX T q = keyX T p ∧ krank T p ≤ krank T q from
    H _ p (Nat.le_refl _) hp
  intro d
  induction d with
  | zero => intro p hd hp; have := krank_lt hp; omega
  | succ d ih =>
    intro p hd hp
    by_cases hex : ∃ q, isLMS T q ∧ keyX T q = keyX T p ∧ keyS T p < keyS T q
    · obtain ⟨q, a, b, c⟩ := hex
      have := krank_mono hp c
      have := krank_lt a
      obtain ⟨r, x, y, z⟩ := ih q (by omega) a
      exact ⟨r, x, by rw [y, b], by omega⟩
    · exact ⟨p, ⟨hp, fun q hq a b => hex ⟨q, hq, a, b⟩⟩, rfl, Nat.le_refl _⟩

theorem last_between {p q r : Nat} (hp : isLMS T p) (hq : isLMS T q) (h : keyX T p = keyX T q) (hr : isLast T r)
    (h1 : krank T p ≤ krank T r) : ¬ krank T r < krank T q := by
  intro h2
  have := keyX_mid hp hq hr.1 h1 (by omega) h
  exact hr.2 q hq (by rw [this, h]) ((krank_iff hr.1 hq).mp h2)

theorem clsR_same {p q : Nat} (hp : isLMS T p) (hq : isLMS T q) (h : keyX T p = keyX T q) :
    clsR T (krank T p) = clsR T (krank T q) := by
  apply cnt_congr
  intro r _
  constructor
  · rintro ⟨a, b⟩
    exact ⟨a, Nat.le_of_not_lt (last_between hp hq h a b)⟩
  · rintro ⟨a, b⟩
    exact ⟨a, Nat.le_of_not_lt (last_between hq hp h.symm a b)⟩

theorem clsR_less {p q : Nat} (hp : isLMS T p) (hq : isLMS T q) (h : keyX T p < keyX T q) :
    clsR T (krank T q) < clsR T (krank T p) := by
  obtain ⟨r, h1, h2, h3⟩ := last_ex hp
  rw [← h2] at h
  have := krank_mono h1.1 (keyS_of_keyX h1.1 hq h)
  refine cnt_lt h1.1.1.1 (fun a => ?_) ⟨h1, by omega⟩ ?_
  · have := a.2; omega
  · rintro x _ ⟨a, b⟩; exact ⟨a, by omega⟩

theorem clsR_pos {p : Nat} (hp : isLMS T p) : 1 ≤ clsR T (krank T p) := by
  obtain ⟨r, h1, h2, h3⟩ := last_ex hp
  exact cnt_pos h1.1.1.1 ⟨h1, by omega⟩

theorem clsR_le (t : Nat) : clsR T t ≤ lasts T := cnt_le (fun _ _ a => a.1)

theorem lasts_le : lasts T ≤ lmsCount T := cnt_le (fun _ _ a => a.1)

theorem clsR_named : Named T (fun p => lasts T + 1 - clsR T (krank T p)) (lasts T) := by
  apply Named.of
  · intro p hp
    have h1 := clsR_pos hp
    have h2 := clsR_le (T := T) (krank T p)
    omega
  · intro p q hp hq h
    have h1 := clsR_less hp hq h
    have h2 := clsR_le (T := T) (krank T p)
    omega
  · intro p q hp hq h
    simp only [clsR_same hp hq h]

theorem clsR_end : clsR T (lmsCount T) = 0 := cnt_false (fun q _ a => by
  have := krank_lt a.1.1
  have := a.2
  omega)

theorem clsR_last {p : Nat} (hp : isLast T p) : clsR T (krank T p) = clsR T (krank T p + 1) + 1 := by
  refine cnt_insert (P := fun q => isLast T q ∧ krank T p + 1 ≤ krank T q)
    (Q := fun q => isLast T q ∧ krank T p ≤ krank T q) hp.1.1.1 (fun a => by have := a.2; omega) ?_
  intro q _
  constructor
  · rintro ⟨a, b⟩
    by_cases e : krank T q = krank T p
    · exact Or.inr (krank_inj a.1 hp.1 e)
    · exact Or.inl ⟨a, by omega⟩
  · rintro (⟨a, b⟩ | a)
    · exact ⟨a, by omega⟩
    · rw [a]; exact ⟨hp, Nat.le_refl _⟩

theorem clsR_other {p : Nat} (h : isLMS T p) (hp : ¬ isLast T p) : clsR T (krank T p) = clsR T (krank T p + 1) := by
  apply cnt_congr
  intro q _
  constructor
  · rintro ⟨a, b⟩
    refine ⟨a, ?_⟩
    by_cases e : krank T q = krank T p
    · rw [krank_inj a.1 h e] at a; exact absurd a hp
    · omega
  · rintro ⟨a, b⟩; exact ⟨a, by omega⟩

/-- All positions are the last of their class: all are the first, too. -/
theorem classes_of_lasts (h : lasts T = lmsCount T) : classes T = lmsCount T := by
  have hall : ∀ q, isLMS T q → isLast T q := by
    intro q hq
    apply Classical.byContradiction
    intro a
    have : lasts T < lmsCount T := cnt_lt hq.1.1 a hq (fun _ _ b => b.1)
    omega
  apply cnt_congr
  intro q _
  exact ⟨fun a => a.1, fun a => ⟨a, fun r hr hx hlt => (hall r hr).2 q a hx.symm hlt⟩⟩

/-! ## `LMSpostproc2` -/

theorem countP_take {p : Int → Bool} (A : List Int) (m : Nat) (hm : m ≤ A.length) :
    (A.take m).countP p = cnt m (fun r => ∃ v, A[r]? = some v ∧ p v = true) := by
  induction m with
  | zero => rfl
  | succ m ih =>
    rw [List.take_add_one, List.countP_append, ih (by omega), cnt_succ, List.getElem?_eq_getElem (show m < A.length by omega)]
    congr 1
    by_cases h : p A[m] = true
    · rw [if_pos ⟨A[m], rfl, h⟩]; simp [h]
    · rw [if_neg (by
        rintro ⟨v, a, b⟩
        injection a with a
        rw [← a] at b
        exact h b)]
      simp [h]

/-- After `t` rows from below. -/
structure Nm2 (T : List Nat) (t : Nat) (s : List Int × Nat) : Prop where
  size : s.1.length = T.length
  front : ∀ p, isLMS T p → s.1[krank T p]? = some ((p + if isLast T p then T.length else 0 : Nat) : Int)
  done : ∀ p, isLMS T p → lmsCount T - t ≤ krank T p →
    s.1[lmsCount T + p / 2]? = some ((lasts T + 1 - clsR T (krank T p) : Nat) : Int)
  other : ∀ r, lmsCount T ≤ r → r < T.length → (∀ p, isLMS T p → r ≠ lmsCount T + p / 2) → s.1[r]? = some 0
  name : s.2 = lasts T + 1 - clsR T (lmsCount T - t)

theorem name2Step_spec {t : Nat} {s : List Int × Nat} (ht : t < lmsCount T) (h : Nm2 T t s) :
    ∃ s', name2Step T.length (lmsCount T) s (lmsCount T - 1 - t) = some s' ∧ Nm2 T (t + 1) s' := by
  obtain ⟨p, hp, hk⟩ := krank_surj (T := T) (r := lmsCount T - 1 - t) (by omega)
  have hk1 : lmsCount T - t = krank T p + 1 := by omega
  have hhalf := lmsCount_le (T := T)
  have hph := lms_half_lt hp
  have hpn := hp.1.1
  have hsz := h.size
  have hname := h.name
  rw [hk1] at hname
  have hset := fun v : Int => get_set1 (A := s.1) (i := lmsCount T + p / 2) (v := v) (by omega)
  have hle := clsR_le (T := T) (krank T p)
  have hinv : ∀ d, d = lasts T + 1 - clsR T (krank T p) → Nm2 T (t + 1) (s.1.set (lmsCount T + p / 2) (d : Nat), d) := by
    intro d hd
    refine ⟨by simp only [List.length_set]; exact hsz, ?_, ?_, ?_, ?_⟩
    · intro q hq
      have := krank_lt hq
      simp only
      rw [(hset _).2 _ (by omega)]; exact h.front q hq
    · intro q hq hqk
      simp only
      by_cases e : q = p
      · rw [e, (hset _).1, hd]
      · rw [(hset _).2 _ (fun a => e (lms_half hq hp (by omega)))]
        have : krank T q ≠ krank T p := fun a => e (krank_inj hq hp a)
        exact h.done q hq (by omega)
    · intro r h1 h2 h3
      simp only
      rw [(hset _).2 r (h3 p hp)]; exact h.other r h1 h2 h3
    · simp only
      rw [hd, show lmsCount T - (t + 1) = krank T p by omega]
  rw [← hk]
  unfold name2Step
  rw [bind_some' (h.front p hp)]
  rw [if_neg (by omega)]
  simp only [Int.toNat_natCast]
  by_cases e : isLast T p
  · have hc := clsR_last e
    rw [if_pos e, if_pos (by omega), if_neg (by omega), show p + T.length - T.length = p by omega, bind_some' (put_spec (by omega) _)]
    exact ⟨_, rfl, hinv _ (by omega)⟩
  · have hc := clsR_other hp e
    rw [if_neg e, Nat.add_zero, if_neg (by omega), bind_some' (put_spec (by omega) _)]
    exact ⟨_, rfl, hinv _ (by omega)⟩

theorem unflag_rows {A : List Int} (hlen : A.length = T.length)
    (h : ∀ p, isLMS T p → A[krank T p]? = some ((p + if isLast T p then T.length else 0 : Nat) : Int)) :
    ∃ A', loopUp (unflagStep T.length) (lmsCount T) 0 A = some A' ∧ A'.length = T.length ∧
      ∀ p, isLMS T p → A'[krank T p]? = some (p : Int) := by
  have hhalf := lmsCount_le (T := T)
  obtain ⟨A', h1, h2, h3⟩ := loopUp_spec (f := unflagStep T.length) (fun i A => A.length = T.length ∧
      ∀ p, isLMS T p → A[krank T p]? = some ((p + if isLast T p ∧ i ≤ krank T p then T.length else 0 : Nat) : Int))
    (lmsCount T) 0 A (by
      rintro i s _ hi ⟨hl, hs⟩
      obtain ⟨p, hp, rfl⟩ := krank_surj (T := T) (r := i) (by omega)
      have hpn := hp.1.1
      have hset := fun v : Int => get_set1 (A := s) (i := krank T p) (v := v) (by omega)
      have hsp := hs p hp
      unfold unflagStep
      have hoth : ∀ q, isLMS T q → q ≠ p → ((isLast T q ∧ krank T p + 1 ≤ krank T q) ↔ (isLast T q ∧ krank T p ≤ krank T q)) := by
        intro q hq hne
        have : krank T q ≠ krank T p := fun a => hne (krank_inj hq hp a)
        constructor
        · rintro ⟨a, b⟩; exact ⟨a, by omega⟩
        · rintro ⟨a, b⟩; exact ⟨a, by omega⟩
      by_cases e : isLast T p
      · rw [if_pos ⟨e, Nat.le_refl _⟩] at hsp
        rw [bind_some' hsp, if_pos (by omega)]
        refine ⟨_, rfl, by rw [List.length_set]; exact hl, ?_⟩
        intro q hq
        by_cases e2 : q = p
        · subst e2
          rw [(hset _).1, if_neg (fun a => by have := a.2; omega)]
          congr 1; omega
        · rw [(hset _).2 _ (fun a => e2 (krank_inj hq hp a)), hs q hq]
          simp only [hoth q hq e2]
      · rw [if_neg (fun a => e a.1)] at hsp
        rw [bind_some' hsp, if_neg (by omega)]
        refine ⟨_, rfl, hl, ?_⟩
        intro q hq
        by_cases e2 : q = p
        · subst e2
          rw [hs q hq, if_neg (fun a => e a.1), if_neg (fun a => e a.1)]
        · rw [hs q hq]
          simp only [hoth q hq e2]) ⟨hlen, by
      intro p hp
      rw [h p hp]
      simp only [Nat.zero_le, and_true]⟩
  rw [Nat.zero_add] at h3
  refine ⟨A', h1, h2, ?_⟩
  intro p hp
  rw [h3 p hp, if_neg (fun a => by have := krank_lt hp; have := a.2; omega)]
  rfl

theorem lmsPost2_spec {sa : List Int} (h : KeySorted T (isLast T) sa) (hm : 0 < lmsCount T) :
    ∃ sa' name, lmsPost2 T.length (lmsCount T) sa = some (sa', name) ∧ NamesOut T sa' name := by
  have hhalf := lmsCount_le (T := T)
  obtain ⟨A, h1, h2, h3, h4⟩ := compact_spec h hm
  have hname : (A.take (lmsCount T)).countP (fun j => decide ((T.length : Int) ≤ j)) = lasts T := by
    rw [countP_take A _ (by omega)]
    symm
    apply cnt_bij (krank T)
    · intro p _ hp
      refine ⟨krank_lt hp.1, _, h3 p hp.1, ?_⟩
      rw [if_pos hp]
      exact decide_eq_true (by omega)
    · intro p q _ _ hp hq e
      exact krank_inj hp.1 hq.1 e
    · rintro r hr ⟨v, a, b⟩
      obtain ⟨p, hp, rfl⟩ := krank_surj hr
      refine ⟨p, hp.1.1, ?_, rfl⟩
      apply Classical.byContradiction
      intro e
      rw [h3 p hp, if_neg e] at a
      injection a with a
      have := of_decide_eq_true b
      have := hp.1.1
      omega
  unfold lmsPost2
  rw [bind_some' h1]
  simp only
  rw [hname]
  by_cases hlt : lasts T < lmsCount T
  · rw [if_pos hlt]
    obtain ⟨s, h5, h6⟩ := loopDown_spec (f := name2Step T.length (lmsCount T)) (lmsCount T) (Nm2 T) (lmsCount T) (Nat.le_refl _)
      (A, lasts T + 1) (fun t s ht hs => name2Step_spec ht hs) (by
        rw [Nat.sub_self]
        refine ⟨h2, h3, ?_, fun r a b _ => h4 r a b, ?_⟩
        · intro p hp a
          have := krank_lt hp
          omega
        · rw [Nat.sub_zero, clsR_end]; rfl)
    rw [bind_some' h5]
    refine ⟨s.1, lasts T, rfl, h6.size, lasts_le, fun e => by omega, fun _ => ⟨_, clsR_named, ?_, ?_⟩⟩
    · intro p hp
      exact h6.done p hp (by omega)
    · intro r a b c
      exact h6.other r a (by omega) c
  · rw [if_neg hlt]
    obtain ⟨A', h5, h6, h7⟩ := unflag_rows h2 h3
    rw [bind_some' h5]
    have hle := lasts_le (T := T)
    refine ⟨A', lasts T, rfl, h6, hle, ?_, fun e => by omega⟩
    intro e
    refine ⟨h6, ?_⟩
    intro p hp
    rw [← krank_lrow (classes_of_lasts e) hp]
    exact h7 p hp

end Bwtc.Sais
