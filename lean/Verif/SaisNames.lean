import Verif.SaisName

/-!
# `LMSpostproc1`: lengths and names
-/

set_option autoImplicit false

namespace Bwtc.Sais
open Induce Suffix Classical

variable {T : List Nat}

/-- What the names of the LMS positions tell. -/
structure Named (T : List Nat) (nm : Nat → Nat) (name : Nat) : Prop where
  range : ∀ p, isLMS T p → 1 ≤ nm p ∧ nm p ≤ name
  less : ∀ p q, isLMS T p → isLMS T q → nm p < nm q → sless T p q
  same : ∀ p q, isLMS T p → isLMS T q → nm p = nm q → p = q ∨
    ∃ a b, NextLMS T p a ∧ NextLMS T q b ∧ (sless T p q ↔ sless T a b)

theorem Named.of {nm : Nat → Nat} {name : Nat} (h1 : ∀ p, isLMS T p → 1 ≤ nm p ∧ nm p ≤ name)
    (h2 : ∀ p q, isLMS T p → isLMS T q → keyX T p < keyX T q → nm p < nm q)
    (h3 : ∀ p q, isLMS T p → isLMS T q → keyX T p = keyX T q → nm p = nm q) : Named T nm name := by
  refine ⟨h1, ?_, ?_⟩
  · intro p q hp hq h
    rcases list_total (keyX T p) (keyX T q) with a | a | a
    · exact sless_of_keyX hp.1.1 hq.1.1 a
    · have := h3 p q hp hq a; omega
    · have := h2 q p hq hp a; omega
  · intro p q hp hq h
    rcases list_total (keyX T p) (keyX T q) with a | a | a
    · have := h2 p q hp hq a; omega
    · rcases keyX_eq hp.1.1 hq.1.1 a with b | ⟨x, y, b1, b2, _, _, b3⟩
      · exact Or.inl b
      · exact Or.inr ⟨x, y, b1, b2, b3⟩
    · have := h2 q p hq hp a; omega

/-! ## First of each class -/

/-- The first position of its class in the order found. -/
def isFirst (T : List Nat) (p : Nat) : Prop := isLMS T p ∧ ∀ q, isLMS T q → keyX T q = keyX T p → ¬ keyS T q < keyS T p

/-- The number of classes. -/
noncomputable def classes (T : List Nat) : Nat := cnt T.length (isFirst T)

/-- The number of classes that begin before row `t`. -/
noncomputable def cls (T : List Nat) (t : Nat) : Nat := cnt T.length (fun q => isFirst T q ∧ krank T q < t)

theorem first_ex {p : Nat} (hp : isLMS T p) : ∃ q, isFirst T q ∧ keyX T q = keyX T p ∧ krank T q ≤ krank T p := by
  suffices H : ∀ d p, krank T p ≤ d → isLMS T p → ∃ q, isFirst T q ∧ keyX T q = keyX T p ∧ krank T q ≤ krank T p from
    H _ p (Nat.le_refl _) hp
  intro d
  induction d with
  | zero =>
    intro p hd hp
    refine ⟨p, ⟨hp, ?_⟩, rfl, Nat.le_refl _⟩
    intro q hq _ a
    have := krank_mono hq a; omega
  | succ d ih =>
    intro p hd hp
    by_cases hex : ∃ q, isLMS T q ∧ keyX T q = keyX T p ∧ keyS T q < keyS T p
    · obtain ⟨q, a, b, c⟩ := hex
      have := krank_mono a c
      obtain ⟨r, x, y, z⟩ := ih q (by omega) a
      exact ⟨r, x, by rw [y, b], by omega⟩
    · exact ⟨p, ⟨hp, fun q hq a b => hex ⟨q, hq, a, b⟩⟩, rfl, Nat.le_refl _⟩

theorem keyX_le {p q : Nat} (hp : isLMS T p) (hq : isLMS T q) (h : krank T p ≤ krank T q) : ¬ keyX T q < keyX T p := by
  intro a
  have := krank_mono hq (keyS_of_keyX hq hp a)
  omega

/-- Between two members of a class there are only members. -/
theorem keyX_mid {p q r : Nat} (hp : isLMS T p) (hq : isLMS T q) (hr : isLMS T r) (h1 : krank T p ≤ krank T r)
    (h2 : krank T r ≤ krank T q) (h : keyX T p = keyX T q) : keyX T r = keyX T p := by
  have a := keyX_le hp hr h1
  have b := keyX_le hr hq h2
  rw [← h] at b
  rcases list_total (keyX T r) (keyX T p) with c | c | c
  · exact absurd c a
  · exact c
  · exact absurd c b

theorem first_between {p q r : Nat} (hp : isLMS T p) (hq : isLMS T q) (h : keyX T p = keyX T q) (hr : isFirst T r)
    (h1 : krank T p < krank T r) : ¬ krank T r ≤ krank T q := by
  intro h2
  have := keyX_mid hp hq hr.1 (by omega) h2 h
  exact hr.2 p hp this.symm ((krank_iff hp hr.1).mp h1)

theorem cls_same {p q : Nat} (hp : isLMS T p) (hq : isLMS T q) (h : keyX T p = keyX T q) :
    cls T (krank T p + 1) = cls T (krank T q + 1) := by
  apply cnt_congr
  intro r _
  constructor
  · rintro ⟨a, b⟩
    refine ⟨a, Nat.lt_succ_of_le (Nat.le_of_not_lt (fun c => ?_))⟩
    exact first_between hq hp h.symm a c (by omega)
  · rintro ⟨a, b⟩
    refine ⟨a, Nat.lt_succ_of_le (Nat.le_of_not_lt (fun c => ?_))⟩
    exact first_between hp hq h a c (by omega)

theorem cls_less {p q : Nat} (hp : isLMS T p) (hq : isLMS T q) (h : keyX T p < keyX T q) :
    cls T (krank T p + 1) < cls T (krank T q + 1) := by
  obtain ⟨r, h1, h2, h3⟩ := first_ex hq
  rw [← h2] at h
  have := krank_mono hp (keyS_of_keyX hp h1.1 h)
  refine cnt_lt h1.1.1.1 (fun a => ?_) ⟨h1, by omega⟩ ?_
  · have := a.2; omega
  · rintro x _ ⟨a, b⟩; exact ⟨a, by omega⟩

theorem cls_pos {p : Nat} (hp : isLMS T p) : 1 ≤ cls T (krank T p + 1) := by
  obtain ⟨r, h1, h2, h3⟩ := first_ex hp
  exact cnt_pos h1.1.1.1 ⟨h1, by omega⟩

theorem cls_le (t : Nat) : cls T t ≤ classes T := cnt_le (fun _ _ a => a.1)

theorem cls_all : cls T (lmsCount T) = classes T := cnt_congr (fun _ _ => ⟨fun a => a.1, fun a => ⟨a, krank_lt a.1⟩⟩)

theorem classes_le : classes T ≤ lmsCount T := cnt_le (fun _ _ a => a.1)

theorem cls_named : Named T (fun p => cls T (krank T p + 1)) (classes T) :=
  Named.of (fun _ hp => ⟨cls_pos hp, cls_le _⟩) (fun _ _ hp hq => cls_less hp hq) (fun _ _ hp hq => cls_same hp hq)

theorem cls_zero : cls T 0 = 0 := cnt_false (fun _ _ a => by have := a.2; omega)

theorem cls_first {p : Nat} (hp : isFirst T p) : cls T (krank T p + 1) = cls T (krank T p) + 1 := by
  refine cnt_insert (P := fun q => isFirst T q ∧ krank T q < krank T p)
    (Q := fun q => isFirst T q ∧ krank T q < krank T p + 1) hp.1.1.1 (fun a => by have := a.2; omega) ?_
  intro q _
  constructor
  · rintro ⟨a, b⟩
    by_cases e : krank T q = krank T p
    · exact Or.inr (krank_inj a.1 hp.1 e)
    · exact Or.inl ⟨a, by omega⟩
  · rintro (⟨a, b⟩ | a)
    · exact ⟨a, by omega⟩
    · rw [a]; exact ⟨hp, by omega⟩

theorem cls_other {p : Nat} (h : isLMS T p) (hp : ¬ isFirst T p) : cls T (krank T p + 1) = cls T (krank T p) := by
  apply cnt_congr
  intro q _
  constructor
  · rintro ⟨a, b⟩
    refine ⟨a, ?_⟩
    by_cases e : krank T q = krank T p
    · rw [krank_inj a.1 h e] at a; exact absurd a hp
    · omega
  · rintro ⟨a, b⟩; exact ⟨a, by omega⟩

/-- As many names as LMS positions: the order found is the one of the suffixes. -/
theorem krank_lrow (h : classes T = lmsCount T) {p : Nat} (hp : isLMS T p) : krank T p = lrow T p := by
  have hall : ∀ q, isLMS T q → isFirst T q := by
    intro q hq
    apply Classical.byContradiction
    intro a
    have : classes T < lmsCount T := cnt_lt hq.1.1 a hq (fun _ _ b => b.1)
    omega
  have hX : ∀ q r, isLMS T q → isLMS T r → keyS T q < keyS T r → sless T q r := by
    intro q r hq hr a
    rcases keyX_of_keyS hq.1.1 hr.1.1 a with b | b
    · exact sless_of_keyX hq.1.1 hr.1.1 b
    · exact absurd a ((hall r hr).2 q hq b)
  apply cnt_congr
  intro q _
  constructor
  · rintro ⟨a, b⟩; exact ⟨a, hX q p a hp b⟩
  · rintro ⟨a, b⟩
    refine ⟨a, ?_⟩
    rcases keyS_total a hp with c | c | c
    · exact c
    · rw [c] at b; exact absurd b (sless_irrefl p)
    · exact absurd (sless_trans b (hX p q hp a c)) (sless_irrefl q)

/-! ## The lengths of the LMS substrings -/

/-- The length of the LMS substring at `p`, with both ends; the last one reaches to the end of the text. -/
noncomputable def plen (T : List Nat) (p : Nat) : Nat :=
  if h : ∃ a, NextLMS T p a then Classical.choose h - p + 1 else T.length - p

theorem plen_next {p a : Nat} (h : NextLMS T p a) : plen T p = a - p + 1 := by
  have hex : ∃ a, NextLMS T p a := ⟨a, h⟩
  unfold plen
  rw [dif_pos hex, NextLMS.unique (Classical.choose_spec hex) h]

theorem plen_end {p : Nat} (h : ¬ ∃ a, NextLMS T p a) : plen T p = T.length - p := by
  unfold plen
  rw [dif_neg h]

theorem nextLMS_iff {p a : Nat} : NextLMS T p a ↔ FirstLMS T p a := by
  constructor
  · rintro ⟨h1, h2, h3⟩
    refine ⟨h1, h2, fun q hq hpq => Nat.le_of_not_lt (fun b => h3 q hpq b hq)⟩
  · rintro ⟨h1, h2, h3⟩
    refine ⟨h1, h2, fun q hpq hqa hq => ?_⟩
    have := h3 q hq hpq; omega

theorem no_next {p : Nat} : (¬ ∃ a, NextLMS T p a) ↔ ∀ r, p < r → ¬ isLMS T r := by
  constructor
  · intro h r hr hl
    obtain ⟨a, ha⟩ := firstLMS_ex hl hr
    exact h ⟨a, nextLMS_iff.mpr ha⟩
  · rintro h ⟨a, h1, h2, _⟩
    exact h a h2 h1

theorem plen_le {p : Nat} (hp : isLMS T p) : p + plen T p ≤ T.length := by
  have := hp.1.1
  by_cases h : ∃ a, NextLMS T p a
  · obtain ⟨a, ha⟩ := h
    have h1 := ha.2.1
    have h2 := ha.1.1.1
    rw [plen_next ha]; omega
  · rw [plen_end h]; omega

theorem plen_pos {p : Nat} (hp : isLMS T p) : 0 < plen T p := by
  have := hp.1.1
  by_cases h : ∃ a, NextLMS T p a
  · obtain ⟨a, ha⟩ := h
    rw [plen_next ha]; omega
  · rw [plen_end h]; omega

/-- After the LMS positions behind `i`. -/
structure Lens (T : List Nat) (A : List Int) (i : Nat) (s : List Int × Nat) : Prop where
  size : s.1.length = T.length
  front : ∀ r, r < lmsCount T → s.1[r]? = A[r]?
  val : ∀ p, isLMS T p → i < p → s.1[lmsCount T + p / 2]? = some (plen T p : Int)
  other : ∀ r, lmsCount T ≤ r → r < T.length → (∀ p, isLMS T p → i < p → r ≠ lmsCount T + p / 2) → s.1[r]? = some 0
  none : (∀ q, isLMS T q → ¬ i < q) → s.2 + 1 = T.length
  some : ∀ p, FirstLMS T i p → s.2 = p

theorem lengthAct_spec {A : List Int} {i c : Nat} {s : List Int × Nat} (hl : isLMS T (i + 1)) (h : Lens T A (i + 1) s) :
    ∃ s', lengthAct (lmsCount T) s i c = some s' ∧ Lens T A i s' := by
  have hhalf := lmsCount_le (T := T)
  have hp := lms_half_lt hl
  have hsz := h.size
  have hin := hl.1.1
  have hlen : (s.2 : Int) - i = (plen T (i + 1) : Int) := by
    by_cases e : ∃ a, NextLMS T (i + 1) a
    · obtain ⟨a, ha⟩ := e
      rw [plen_next ha, h.some a (nextLMS_iff.mp ha)]
      have := ha.2.1
      omega
    · rw [plen_end e]
      have := h.none (fun q hq a => no_next.mp e q a hq)
      omega
  have hset := get_set1 (A := s.1) (i := lmsCount T + (i + 1) / 2) (v := (plen T (i + 1) : Int)) (by omega)
  refine ⟨(s.1.set (lmsCount T + (i + 1) / 2) (plen T (i + 1) : Int), i + 1), ?_, ?_⟩
  · unfold lengthAct
    rw [hlen, bind_some' (put_spec (by omega) _)]
    rfl
  · constructor
    · simp only [List.length_set]; exact hsz
    · intro r hr
      simp only
      rw [hset.2 r (by omega)]; exact h.front r hr
    · intro p hp hip
      simp only
      by_cases e : p = i + 1
      · rw [e]; exact hset.1
      · rw [hset.2 _ (fun a => e (lms_half hp hl (by omega)))]
        exact h.val p hp (by omega)
    · intro r hr1 hr2 hr
      simp only
      rw [hset.2 r (hr (i + 1) hl (by omega))]
      exact h.other r hr1 hr2 (fun p hp a => hr p hp (by omega))
    · intro hno
      exact absurd (show i < i + 1 by omega) (hno (i + 1) hl)
    · intro p hp
      have h1 := hp.2.2 (i + 1) hl (by omega)
      have h2 := hp.2.1
      simp only
      omega

theorem Lens.skip {A : List Int} {i : Nat} {s : List Int × Nat} (hl : ¬ isLMS T (i + 1)) (h : Lens T A (i + 1) s) : Lens T A i s := by
  have hgt : ∀ p, isLMS T p → i < p → i + 1 < p := by
    intro p hp a
    by_cases e : p = i + 1
    · rw [e] at hp; exact absurd hp hl
    · omega
  refine ⟨h.size, h.front, fun p hp a => h.val p hp (hgt p hp a), ?_, ?_, ?_⟩
  · intro r h1 h2 h3
    exact h.other r h1 h2 (fun p hp a => h3 p hp (by omega))
  · intro hno
    exact h.none (fun q hq a => hno q hq (by omega))
  · intro p hp
    exact h.some p ⟨hp.1, hgt p hp.1 hp.2.1, fun q hq a => hp.2.2 q hq (by omega)⟩

theorem lengths_spec {A : List Int} (hlen : A.length = T.length) (hn : 0 < T.length)
    (h0 : ∀ r, lmsCount T ≤ r → r < T.length → A[r]? = some 0) :
    ∃ s, lmsScan T (lengthAct (lmsCount T)) (A, T.length - 1) = some s ∧ Lens T A 0 s := by
  apply lmsScan_spec hn (Lens T A) _ (fun i s hl h => lengthAct_spec hl h) (fun i s _ hl h => h.skip hl)
  have hno : ∀ q, isLMS T q → ¬ T.length - 1 < q := by
    intro q hq a
    have := hq.1.1; omega
  refine ⟨hlen, fun _ _ => rfl, fun p hp a => absurd a (hno p hp), fun r h1 h2 _ => h0 r h1 h2, fun _ => ?_,
    fun p hp => absurd hp.2.1 (hno p hp.1)⟩
  simp only; omega

/-! ## Naming -/

theorem sameRun_spec (l p q : Nat) (hp : p + l ≤ T.length) (hq : q + l ≤ T.length) :
    ∃ e, sameRun T l p q = some e ∧ (e = true ↔ ∀ j, j < l → ch T (p + j) = ch T (q + j)) := by
  induction l generalizing p q with
  | zero => exact ⟨true, rfl, by simp⟩
  | succ l ih =>
    unfold sameRun
    rw [bind_some' (get_ch (show p < T.length by omega)), bind_some' (get_ch (show q < T.length by omega))]
    by_cases e : ch T p = ch T q
    · rw [if_pos e]
      obtain ⟨b, h1, h2⟩ := ih (p + 1) (q + 1) (by omega) (by omega)
      refine ⟨b, h1, h2.trans ⟨fun h j hj => ?_, fun h j hj => ?_⟩⟩
      · cases j with
        | zero => exact e
        | succ j =>
          have := h j (by omega)
          rw [show p + (j + 1) = p + 1 + j by omega, show q + (j + 1) = q + 1 + j by omega]; exact this
      · have := h (j + 1) (by omega)
        rw [show p + 1 + j = p + (j + 1) by omega, show q + 1 + j = q + (j + 1) by omega]; exact this
    · rw [if_neg e]
      refine ⟨false, rfl, by simp, fun h => ?_⟩
      exact absurd (h 0 (by omega)) e

/-- The comparison of the naming loop. -/
theorem same_iff {p q : Nat} (hp : isLMS T p) (hq : isLMS T q) (hlt : keyS T q < keyS T p) :
    (plen T p = plen T q ∧ q + plen T p < T.length ∧ ∀ j, j < plen T p → ch T (p + j) = ch T (q + j)) ↔
      keyX T p = keyX T q := by
  constructor
  · rintro ⟨h1, h2, h3⟩
    by_cases hb : ∃ b, NextLMS T q b
    · obtain ⟨b, hb⟩ := hb
      have hb' := plen_next hb
      by_cases ha : ∃ a, NextLMS T p a
      · obtain ⟨a, ha⟩ := ha
        have ha' := plen_next ha
        exact keyX_of_ch ha hb (by omega) (fun j hj => h3 j (by omega))
      · have ha' := plen_end ha
        have := hp.1.1
        have := (keyS_of_end (no_next.mp ha) hb (by omega) (fun j hj => h3 j (by omega))).2
        exact absurd (List.lt_trans this hlt) (List.lt_irrefl _)
    · have := plen_end hb
      have := hq.1.1
      omega
  · intro h
    rcases keyX_eq hp.1.1 hq.1.1 h with a | ⟨a, b, ha, hb, hl, hc, _⟩
    · rw [a] at hlt; exact absurd hlt (List.lt_irrefl _)
    · rw [plen_next ha, plen_next hb]
      have := isS_next hb.1.1
      have := hb.2.1
      exact ⟨by omega, by omega, fun j hj => hc j (by omega)⟩

/-- Before row `t`. -/
structure NmInv (T : List Nat) (t : Nat) (s : Naming) : Prop where
  size : s.sa.length = T.length
  front : ∀ p, isLMS T p → s.sa[krank T p]? = some (p : Int)
  done : ∀ p, isLMS T p → krank T p < t → s.sa[lmsCount T + p / 2]? = some (cls T (krank T p + 1) : Int)
  todo : ∀ p, isLMS T p → t ≤ krank T p → s.sa[lmsCount T + p / 2]? = some (plen T p : Int)
  other : ∀ r, lmsCount T ≤ r → r < T.length → (∀ p, isLMS T p → r ≠ lmsCount T + p / 2) → s.sa[r]? = some 0
  name : s.name = cls T t
  none : t = 0 → s.q = T.length
  rep : ∀ p, isLMS T p → krank T p + 1 = t → isFirst T s.q ∧ keyX T s.q = keyX T p ∧ s.qlen = plen T s.q ∧ krank T s.q < t

theorem nameStep_spec {t : Nat} {s : Naming} (ht : t < lmsCount T) (h : NmInv T t s) :
    ∃ s', nameStep T (lmsCount T) s t = some s' ∧ NmInv T (t + 1) s' := by
  obtain ⟨p, hp, rfl⟩ := krank_surj ht
  have hhalf := lmsCount_le (T := T)
  have hph := lms_half_lt hp
  have hsz := h.size
  have hset := fun v : Int => get_set1 (A := s.sa) (i := lmsCount T + p / 2) (v := v) (by omega)
  unfold nameStep
  rw [bind_some' (h.front p hp), if_neg (by omega)]
  simp only [Int.toNat_natCast]
  rw [bind_some' (h.todo p hp (Nat.le_refl _)), if_neg (by omega)]
  simp only [Int.toNat_natCast]
  obtain ⟨e, he1, he2⟩ : ∃ e, nameEq T (plen T p) s.qlen p s.q = some e ∧ (e = true ↔ ¬ isFirst T p) := by
    unfold nameEq
    by_cases h0 : krank T p = 0
    · rw [if_neg (by rw [h.none h0]; omega)]
      refine ⟨false, rfl, by simp, fun a => absurd ⟨hp, fun q hq _ b => ?_⟩ a⟩
      have := krank_mono hq b; omega
    · obtain ⟨p', hp', hk⟩ := krank_surj (T := T) (r := krank T p - 1) (by omega)
      obtain ⟨r1, r2, r3, r4⟩ := h.rep p' hp' (by omega)
      have hlt := (krank_iff r1.1 hp).mp r4
      have hiff : keyX T p = keyX T s.q ↔ ¬ isFirst T p := by
        constructor
        · intro a b
          exact b.2 s.q r1.1 a.symm hlt
        · intro a
          apply Classical.byContradiction
          intro b
          apply a
          refine ⟨hp, ?_⟩
          intro q hq c d
          have hk1 := krank_mono hq d
          have := keyX_mid hq hp hp' (by omega) (by omega) c
          apply b
          rw [r2, this, c]
      rw [r3, ← hiff, ← same_iff hp r1.1 hlt]
      by_cases hc : plen T p = plen T s.q ∧ s.q + plen T p < T.length
      · rw [if_pos hc]
        obtain ⟨e, a, b⟩ := sameRun_spec (T := T) (plen T p) p s.q (plen_le hp) (by omega)
        exact ⟨e, a, b.trans ⟨fun x => ⟨hc.1, hc.2, x⟩, fun x => x.2.2⟩⟩
      · rw [if_neg hc]
        exact ⟨false, rfl, by simp, fun x => absurd ⟨x.1, x.2.1⟩ hc⟩
  rw [bind_some' he1]
  have hfront : ∀ v : Int, ∀ q, isLMS T q → (s.sa.set (lmsCount T + p / 2) v)[krank T q]? = some (q : Int) := by
    intro v q hq
    have := krank_lt hq
    rw [(hset v).2 _ (by omega)]; exact h.front q hq
  have hdone : ∀ q, isLMS T q → krank T q < krank T p + 1 →
      (s.sa.set (lmsCount T + p / 2) (cls T (krank T p + 1) : Int))[lmsCount T + q / 2]? = some (cls T (krank T q + 1) : Int) := by
    intro q hq hk
    by_cases e : q = p
    · rw [e]; exact (hset _).1
    · rw [(hset _).2 _ (fun a => e (lms_half hq hp (by omega)))]
      exact h.done q hq (by
        have : krank T q ≠ krank T p := fun a => e (krank_inj hq hp a)
        omega)
  have htodo : ∀ v : Int, ∀ q, isLMS T q → krank T p + 1 ≤ krank T q →
      (s.sa.set (lmsCount T + p / 2) v)[lmsCount T + q / 2]? = some (plen T q : Int) := by
    intro v q hq hk
    rw [(hset _).2 _ (fun a => by rw [lms_half hq hp (by omega)] at hk; omega)]
    exact h.todo q hq (by omega)
  have hother : ∀ v : Int, ∀ r, lmsCount T ≤ r → r < T.length → (∀ p, isLMS T p → r ≠ lmsCount T + p / 2) →
      (s.sa.set (lmsCount T + p / 2) v)[r]? = some 0 := by
    intro v r h1 h2 h3
    rw [(hset v).2 r (h3 p hp)]; exact h.other r h1 h2 h3
  cases e with
  | true =>
    have hnf := he2.mp rfl
    have hc := cls_other hp hnf
    rw [if_pos rfl, bind_some' (put_spec (by omega) _), h.name]
    refine ⟨_, rfl, ?_⟩
    rw [← hc]
    refine ⟨by simp only [List.length_set]; exact hsz, hfront _, hdone, htodo _, hother _, by simp only, fun a => by omega, ?_⟩
    intro p1 hp1 hk1
    rw [show p1 = p from krank_inj hp1 hp (by omega)]
    have h0 : krank T p ≠ 0 := by
      intro a
      exact hnf ⟨hp, fun q hq _ b => by have := krank_mono hq b; omega⟩
    obtain ⟨p', hp', hk⟩ := krank_surj (T := T) (r := krank T p - 1) (by have := krank_lt hp; omega)
    obtain ⟨r1, r2, r3, r4⟩ := h.rep p' hp' (by omega)
    refine ⟨r1, ?_, r3, by simp only; omega⟩
    simp only
    obtain ⟨x, x1, x2, x3⟩ := first_ex hp
    have hx : krank T x ≠ krank T p := by
      intro a
      rw [krank_inj x1.1 hp a] at x1
      exact hnf x1
    rw [r2, keyX_mid x1.1 hp hp' (by omega) (by omega) x2, x2]
  | false =>
    have hf : isFirst T p := Classical.byContradiction (fun a => by simpa using he2.mpr a)
    have hc := cls_first hf
    rw [if_neg (by simp), bind_some' (put_spec (by omega) _), h.name]
    refine ⟨_, rfl, ?_⟩
    rw [← hc]
    refine ⟨by simp only [List.length_set]; exact hsz, hfront _, hdone, htodo _, hother _, rfl, fun a => by omega, ?_⟩
    intro p1 hp1 hk1
    rw [show p1 = p from krank_inj hp1 hp (by omega)]
    exact ⟨hf, rfl, rfl, by simp only; omega⟩

/-- What stage 1 leaves: the sorted LMS positions, or their names. -/
structure NamesOut (T : List Nat) (sa : List Int) (name : Nat) : Prop where
  size : sa.length = T.length
  le : name ≤ lmsCount T
  full : name = lmsCount T → LmsSorted T sa
  named : name < lmsCount T → ∃ nm, Named T nm name ∧
    (∀ p, isLMS T p → sa[lmsCount T + p / 2]? = some (nm p : Int)) ∧
    ∀ r, lmsCount T ≤ r → r < lmsCount T + T.length / 2 → (∀ p, isLMS T p → r ≠ lmsCount T + p / 2) → sa[r]? = some 0

theorem lmsPost1_spec {sa : List Int} (h : KeySorted T noFl sa) (hm : 0 < lmsCount T) :
    ∃ sa' name, lmsPost1 T (lmsCount T) sa = some (sa', name) ∧ NamesOut T sa' name := by
  have hhalf := lmsCount_le (T := T)
  obtain ⟨A, h1, h2, h3, h4⟩ := compact_spec h hm
  obtain ⟨s1, h5, h6⟩ := lengths_spec h2 (by omega) h4
  have h3' : ∀ p, isLMS T p → A[krank T p]? = some (p : Int) := by
    intro p hp
    rw [h3 p hp, if_neg (by simp [noFl])]
    rfl
  have hpos : ∀ p, isLMS T p → 0 < p := fun p hp => isLMS_pos hp
  obtain ⟨s, h7, h8⟩ := loopUp_spec (f := nameStep T (lmsCount T)) (NmInv T) (lmsCount T) 0 ⟨s1.1, 0, T.length, 0⟩
    (fun j s _ hj h => nameStep_spec (by omega) h)
    ⟨h6.size, fun p hp => by
      simp only
      rw [h6.front _ (krank_lt hp)]; exact h3' p hp, fun p hp a => by omega, fun p hp _ => h6.val p hp (hpos p hp),
      fun r a b c => h6.other r a b (fun p hp _ => c p hp), cls_zero.symm, fun _ => rfl, fun p hp a => by omega⟩
  rw [Nat.zero_add] at h8
  have hname : s.name = classes T := by rw [h8.name, cls_all]
  refine ⟨s.sa, s.name, ?_, ?_⟩
  · unfold lmsPost1
    rw [bind_some' h1, bind_some' h5]
    simp only
    rw [bind_some' h7]
    rfl
  · rw [hname]
    refine ⟨h8.size, classes_le, ?_, ?_⟩
    · intro hf
      refine ⟨h8.size, ?_⟩
      intro p hp
      rw [← krank_lrow hf hp]; exact h8.front p hp
    · intro _
      refine ⟨_, cls_named, fun p hp => h8.done p hp (krank_lt hp), fun r a b c => h8.other r a (by omega) c⟩

end Bwtc.Sais
