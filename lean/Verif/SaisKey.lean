import Verif.SaisBuckets

/-!
# The order in which `sais.hxx` sorts the LMS substrings

Comparison keys for positions: the characters with their types up to the next LMS position.  Specification of the sorting in stage 1;
nothing here models code.
-/

set_option autoImplicit false

namespace Bwtc.Suffix
open Induce Classical

/-- The character at `p` together with the type. -/
noncomputable def tc (T : List Nat) (p : Nat) : Nat := 2 * ch T p + if isS T p then 1 else 0

/-- `walk` with bounded length. -/
noncomputable def walkF (T : List Nat) : Nat → Nat → List Nat
  | 0, _ => []
  | f + 1, p => if isLMS T p then [tc T p, p] else tc T p :: walkF T f (p + 1)

/-- The typed characters from `p` to the first LMS position not before `p`, and that position. -/
noncomputable def walk (T : List Nat) (p : Nat) : List Nat := walkF T (T.length - p) p

/-- `walkX` with bounded length. -/
noncomputable def walkXF (T : List Nat) : Nat → Nat → List Nat
  | 0, _ => []
  | f + 1, p => if isLMS T p then [tc T p] else tc T p :: walkXF T f (p + 1)

/-- The typed characters from `p` to the first LMS position not before `p`. -/
noncomputable def walkX (T : List Nat) (p : Nat) : List Nat := walkXF T (T.length - p) p

/-- The typed characters from `p` to the first LMS position behind `p`, and that position. -/
noncomputable def keyS (T : List Nat) (p : Nat) : List Nat := tc T p :: walk T (p + 1)

/-- The typed characters from `p` to the first LMS position behind `p`. -/
noncomputable def keyX (T : List Nat) (p : Nat) : List Nat := tc T p :: walkX T (p + 1)

variable {T : List Nat}

theorem walk_end {p : Nat} (h : T.length ≤ p) : walk T p = [] := by
  unfold walk; rw [show T.length - p = 0 by omega]; rfl

theorem walk_lms {p : Nat} (h : isLMS T p) : walk T p = [tc T p, p] := by
  have := h.1.1
  unfold walk
  rw [show T.length - p = T.length - p - 1 + 1 by omega, walkF, if_pos h]

theorem walk_step {p : Nat} (hp : p < T.length) (h : ¬ isLMS T p) : walk T p = tc T p :: walk T (p + 1) := by
  unfold walk
  rw [show T.length - p = T.length - (p + 1) + 1 by omega, walkF, if_neg h]

theorem walkX_end {p : Nat} (h : T.length ≤ p) : walkX T p = [] := by
  unfold walkX; rw [show T.length - p = 0 by omega]; rfl

theorem walkX_lms {p : Nat} (h : isLMS T p) : walkX T p = [tc T p] := by
  have := h.1.1
  unfold walkX
  rw [show T.length - p = T.length - p - 1 + 1 by omega, walkXF, if_pos h]

theorem walkX_step {p : Nat} (hp : p < T.length) (h : ¬ isLMS T p) : walkX T p = tc T p :: walkX T (p + 1) := by
  unfold walkX
  rw [show T.length - p = T.length - (p + 1) + 1 by omega, walkXF, if_neg h]

theorem walk_keyS {p : Nat} (hp : p < T.length) (h : ¬ isLMS T p) : walk T p = keyS T p := walk_step hp h
theorem walkX_keyX {p : Nat} (hp : p < T.length) (h : ¬ isLMS T p) : walkX T p = keyX T p := walkX_step hp h

theorem tc_L {p : Nat} (h : isL T p) : tc T p = 2 * ch T p := by
  unfold tc; rw [if_neg (fun a => not_isL_isS h a)]; rfl

theorem tc_S {p : Nat} (h : isS T p) : tc T p = 2 * ch T p + 1 := by
  unfold tc; rw [if_pos h]

/-- The typed characters order positions like the suffixes as far as they go. -/
theorem tc_lt {p q : Nat} (hp : p < T.length) (hq : q < T.length) (h : tc T p < tc T q) : sless T p q := by
  by_cases hc : ch T p < ch T q
  · exact (sless_step hp hq).mpr (Or.inl hc)
  · rcases type_total hp with a | a
    · rcases type_total hq with b | b
      · rw [tc_L a, tc_L b] at h; omega
      · rw [tc_L a, tc_S b] at h; exact L_lt_S a b (by omega)
    · rcases type_total hq with b | b
      · rw [tc_S a, tc_L b] at h; omega
      · rw [tc_S a, tc_S b] at h; omega

theorem tc_ch_lt {p q : Nat} (h : ch T p < ch T q) : tc T p < tc T q := by
  unfold tc; split <;> split <;> omega

theorem tc_eq_ch {p q : Nat} (h : tc T p = tc T q) : ch T p = ch T q := by
  unfold tc at h; split at h <;> split at h <;> omega

theorem tc_eq_L {p q : Nat} (hp : isL T p) (hq : q < T.length) (h : tc T p = tc T q) : isL T q := by
  rcases type_total hq with b | b
  · exact b
  · rw [tc_L hp, tc_S b] at h; omega

theorem tc_eq_S {p q : Nat} (hp : isS T p) (hq : q < T.length) (h : tc T p = tc T q) : isS T q := by
  rcases type_total hq with b | b
  · rw [tc_S hp, tc_L b] at h; omega
  · exact b

theorem L_ne_S {p q : Nat} (hp : isL T p) (hq : isS T q) : tc T p ≠ tc T q := by
  rw [tc_L hp, tc_S hq]; omega

theorem not_lms_L {p : Nat} (h : isL T p) : ¬ isLMS T p := fun a => not_isL_isS h a.1

theorem not_lms_afterS {p : Nat} (h : isS T p) : ¬ isLMS T (p + 1) := fun a => not_isL_isS (isLMS_pred a) h

/-- Behind positions with the same type: a next position that is LMS and one that is not have different typed characters. -/
theorem lms_ne {p q : Nat} (hp : p < T.length) (h : tc T p = tc T q) (h1 : isLMS T (p + 1))
    (hq1 : q + 1 < T.length) (h2 : ¬ isLMS T (q + 1)) : tc T (p + 1) ≠ tc T (q + 1) := by
  have hl := isLMS_pred h1
  have hlq : isL T q := tc_eq_L hl (by omega) h
  rcases L_next hlq with a | a | a
  · omega
  · exact fun e => L_ne_S a.1 h1.1 e.symm
  · exact absurd a.1 h2

/-- The positions decide only between equal substrings. -/
theorem keyX_of_keyS {p q : Nat} (hp : p < T.length) (hq : q < T.length) (h : keyS T p < keyS T q) :
    keyX T p < keyX T q ∨ keyX T p = keyX T q := by
  suffices H : ∀ d p q : Nat, T.length - p ≤ d → p < T.length → q < T.length → keyS T p < keyS T q →
      keyX T p < keyX T q ∨ keyX T p = keyX T q from H _ p q (Nat.le_refl _) hp hq h
  intro d
  induction d with
  | zero => intro p q hd hp; omega
  | succ d ih =>
    intro p q hd hp hq h
    unfold keyS at h
    unfold keyX
    rw [List.cons_lt_cons_iff] at h
    rw [List.cons_lt_cons_iff, List.cons.injEq]
    rcases h with h | ⟨h1, h2⟩
    · exact Or.inl (Or.inl h)
    · suffices G : walkX T (p + 1) < walkX T (q + 1) ∨ walkX T (p + 1) = walkX T (q + 1) by
        rcases G with G | G
        · exact Or.inl (Or.inr ⟨h1, G⟩)
        · exact Or.inr ⟨h1, G⟩
      by_cases eq : q + 1 = T.length
      · rw [walk_end (p := q + 1) (by omega)] at h2
        exact absurd h2 (List.not_lt_nil _)
      · have hq1 : q + 1 < T.length := by omega
        by_cases ep : p + 1 = T.length
        · rw [walkX_end (p := p + 1) (by omega)]
          by_cases hl : isLMS T (q + 1)
          · rw [walkX_lms hl]; exact Or.inl (List.nil_lt_cons _ _)
          · rw [walkX_step hq1 hl]; exact Or.inl (List.nil_lt_cons _ _)
        · have hp1 : p + 1 < T.length := by omega
          by_cases lp : isLMS T (p + 1)
          · rw [walk_lms lp] at h2
            rw [walkX_lms lp]
            by_cases lq : isLMS T (q + 1)
            · rw [walk_lms lq, List.cons_lt_cons_iff] at h2
              rw [walkX_lms lq, List.cons_lt_cons_iff, List.cons.injEq]
              rcases h2 with h2 | h2
              · exact Or.inl (Or.inl h2)
              · exact Or.inr ⟨h2.1, rfl⟩
            · rw [walk_step hq1 lq, List.cons_lt_cons_iff] at h2
              rw [walkX_step hq1 lq, List.cons_lt_cons_iff]
              rcases h2 with h2 | h2
              · exact Or.inl (Or.inl h2)
              · exact absurd h2.1 (lms_ne hp h1 lp hq1 lq)
          · by_cases lq : isLMS T (q + 1)
            · rw [walk_step hp1 lp, walk_lms lq, List.cons_lt_cons_iff] at h2
              rw [walkX_step hp1 lp, walkX_lms lq, List.cons_lt_cons_iff]
              rcases h2 with h2 | h2
              · exact Or.inl (Or.inl h2)
              · exact absurd h2.1.symm (lms_ne hq h1.symm lq hp1 lp)
            · rw [walk_keyS hp1 lp, walk_keyS hq1 lq] at h2
              rw [walkX_keyX hp1 lp, walkX_keyX hq1 lq]
              exact ih (p + 1) (q + 1) (by omega) hp1 hq1 h2

/-- The substrings order positions like the suffixes. -/
theorem sless_of_keyX {p q : Nat} (hp : p < T.length) (hq : q < T.length) (h : keyX T p < keyX T q) : sless T p q := by
  suffices H : ∀ d p q : Nat, T.length - p ≤ d → p < T.length → q < T.length → keyX T p < keyX T q →
      sless T p q from H _ p q (Nat.le_refl _) hp hq h
  intro d
  induction d with
  | zero => intro p q hd hp; omega
  | succ d ih =>
    intro p q hd hp hq h
    unfold keyX at h
    rw [List.cons_lt_cons_iff] at h
    rcases h with h | ⟨h1, h2⟩
    · exact tc_lt hp hq h
    · rw [sless_step hp hq]
      refine Or.inr ⟨tc_eq_ch h1, ?_⟩
      by_cases eq : q + 1 = T.length
      · rw [walkX_end (p := q + 1) (by omega)] at h2
        exact absurd h2 (List.not_lt_nil _)
      · have hq1 : q + 1 < T.length := by omega
        by_cases ep : p + 1 = T.length
        · rw [ep]; exact sless_end hq1
        · have hp1 : p + 1 < T.length := by omega
          by_cases lp : isLMS T (p + 1)
          · rw [walkX_lms lp] at h2
            by_cases lq : isLMS T (q + 1)
            · rw [walkX_lms lq, List.cons_lt_cons_iff] at h2
              rcases h2 with h2 | h2
              · exact tc_lt hp1 hq1 h2
              · exact absurd h2.2 (List.not_lt_nil _)
            · rw [walkX_step hq1 lq, List.cons_lt_cons_iff] at h2
              rcases h2 with h2 | h2
              · exact tc_lt hp1 hq1 h2
              · exact absurd h2.1 (lms_ne hp h1 lp hq1 lq)
          · by_cases lq : isLMS T (q + 1)
            · rw [walkX_step hp1 lp, walkX_lms lq, List.cons_lt_cons_iff] at h2
              rcases h2 with h2 | h2
              · exact tc_lt hp1 hq1 h2
              · exact absurd h2.1.symm (lms_ne hq h1.symm lq hp1 lp)
            · rw [walkX_keyX hp1 lp, walkX_keyX hq1 lq] at h2
              exact ih (p + 1) (q + 1) (by omega) hp1 hq1 h2

/-- `a` is the first LMS position behind `p`. -/
def NextLMS (T : List Nat) (p a : Nat) : Prop := isLMS T a ∧ p < a ∧ ∀ r, p < r → r < a → ¬ isLMS T r

theorem NextLMS.step {p a : Nat} (h : ¬ isLMS T (p + 1)) (ha : NextLMS T (p + 1) a) : NextLMS T p a := by
  refine ⟨ha.1, by have := ha.2.1; omega, ?_⟩
  intro r h1 h2
  by_cases e : r = p + 1
  · rw [e]; exact h
  · exact ha.2.2 r (by omega) h2

theorem NextLMS.succ {p : Nat} (h : isLMS T (p + 1)) : NextLMS T p (p + 1) :=
  ⟨h, by omega, fun r _ _ => by omega⟩

theorem NextLMS.unique {p a b : Nat} (ha : NextLMS T p a) (hb : NextLMS T p b) : a = b := by
  rcases Nat.lt_trichotomy a b with h | h | h
  · exact absurd ha.1 (hb.2.2 a ha.2.1 h)
  · exact h
  · exact absurd hb.1 (ha.2.2 b hb.2.1 h)

/-- Positions with equal substrings. -/
theorem keyX_eq {p q : Nat} (hp : p < T.length) (hq : q < T.length) (h : keyX T p = keyX T q) : p = q ∨
    ∃ a b, NextLMS T p a ∧ NextLMS T q b ∧ a - p = b - q ∧ (∀ j, j ≤ a - p → ch T (p + j) = ch T (q + j)) ∧
      (sless T p q ↔ sless T a b) := by
  suffices H : ∀ d p q : Nat, T.length - p ≤ d → p < T.length → q < T.length → keyX T p = keyX T q → p = q ∨
    ∃ a b, NextLMS T p a ∧ NextLMS T q b ∧ a - p = b - q ∧ (∀ j, j ≤ a - p → ch T (p + j) = ch T (q + j)) ∧
      (sless T p q ↔ sless T a b) from H _ p q (Nat.le_refl _) hp hq h
  intro d
  induction d with
  | zero => intro p q hd hp; omega
  | succ d ih =>
    intro p q hd hp hq h
    unfold keyX at h
    rw [List.cons.injEq] at h
    obtain ⟨h1, h2⟩ := h
    have hc := tc_eq_ch h1
    by_cases eq : q + 1 = T.length
    · rw [walkX_end (p := q + 1) (by omega)] at h2
      by_cases ep : p + 1 = T.length
      · left; omega
      · by_cases lp : isLMS T (p + 1)
        · rw [walkX_lms lp] at h2; exact absurd h2 (List.cons_ne_nil _ _)
        · rw [walkX_step (by omega) lp] at h2; exact absurd h2 (List.cons_ne_nil _ _)
    · have hq1 : q + 1 < T.length := by omega
      by_cases ep : p + 1 = T.length
      · rw [walkX_end (p := p + 1) (by omega)] at h2
        by_cases lq : isLMS T (q + 1)
        · rw [walkX_lms lq] at h2; exact absurd h2.symm (List.cons_ne_nil _ _)
        · rw [walkX_step (by omega) lq] at h2; exact absurd h2.symm (List.cons_ne_nil _ _)
      · have hp1 : p + 1 < T.length := by omega
        have hsl : sless T p q ↔ sless T (p + 1) (q + 1) := by
          rw [sless_step hp hq]
          constructor
          · rintro (a | a)
            · omega
            · exact a.2
          · intro a; exact Or.inr ⟨hc, a⟩
        by_cases lp : isLMS T (p + 1)
        · rw [walkX_lms lp] at h2
          by_cases lq : isLMS T (q + 1)
          · rw [walkX_lms lq, List.cons.injEq] at h2
            right
            refine ⟨p + 1, q + 1, NextLMS.succ lp, NextLMS.succ lq, by omega, ?_, hsl⟩
            intro j hj
            by_cases e : j = 0
            · rw [e]; exact hc
            · rw [show j = 1 by omega]; exact tc_eq_ch h2.1
          · rw [walkX_step hq1 lq, List.cons.injEq] at h2
            exact absurd h2.1 (lms_ne hp h1 lp hq1 lq)
        · by_cases lq : isLMS T (q + 1)
          · rw [walkX_step hp1 lp, walkX_lms lq, List.cons.injEq] at h2
            exact absurd h2.1.symm (lms_ne hq h1.symm lq hp1 lp)
          · rw [walkX_keyX hp1 lp, walkX_keyX hq1 lq] at h2
            rcases ih (p + 1) (q + 1) (by omega) hp1 hq1 h2 with e | ⟨a, b, ha, hb, hab, hch, hs⟩
            · left; omega
            · right
              have h3 := ha.2.1
              have h4 := hb.2.1
              refine ⟨a, b, ha.step lp, hb.step lq, by omega, ?_, hsl.trans hs⟩
              intro j hj
              by_cases e : j = 0
              · rw [e]; exact hc
              · have := hch (j - 1) (by omega)
                rwa [show p + 1 + (j - 1) = p + j by omega, show q + 1 + (j - 1) = q + j by omega] at this

/-- The types follow from the characters and the type of the next position. -/
theorem tc_back {p q : Nat} (hp1 : p + 1 < T.length) (hq1 : q + 1 < T.length) (h : ch T p = ch T q)
    (h1 : tc T (p + 1) = tc T (q + 1)) : tc T p = tc T q := by
  have hc := tc_eq_ch h1
  have hiff : isS T p ↔ isS T q := by
    rw [isS_iff hp1, isS_iff hq1, h, hc]
    constructor
    · rintro (a | a)
      · exact Or.inl a
      · exact Or.inr ⟨a.1, tc_eq_S a.2 hq1 h1⟩
    · rintro (a | a)
      · exact Or.inl a
      · exact Or.inr ⟨a.1, tc_eq_S a.2 hp1 h1.symm⟩
  unfold tc
  rw [h]
  by_cases e : isS T p
  · rw [if_pos e, if_pos (hiff.mp e)]
  · rw [if_neg e, if_neg (fun a => e (hiff.mpr a))]

/-- Equal characters up to LMS positions: the substrings are equal. -/
theorem keyX_of_ch {p q a b : Nat} (ha : NextLMS T p a) (hb : NextLMS T q b) (hl : a - p = b - q)
    (hc : ∀ j, j ≤ a - p → ch T (p + j) = ch T (q + j)) : keyX T p = keyX T q := by
  suffices H : ∀ d p q : Nat, a - p = d + 1 → NextLMS T p a → NextLMS T q b → a - p = b - q →
      (∀ j, j ≤ a - p → ch T (p + j) = ch T (q + j)) → keyX T p = keyX T q by
    have := ha.2.1
    exact H (a - p - 1) p q (by omega) ha hb hl hc
  intro d
  induction d with
  | zero =>
    intro p q hd ha hb hl hc
    obtain rfl : a = p + 1 := by omega
    obtain rfl : b = q + 1 := by omega
    have h1 : tc T (p + 1) = tc T (q + 1) := by
      rw [tc_S ha.1.1, tc_S hb.1.1, hc 1 (by omega)]
    have h2 : tc T p = tc T q := tc_back ha.1.1.1 hb.1.1.1 (hc 0 (by omega)) h1
    unfold keyX
    rw [h2, walkX_lms ha.1, walkX_lms hb.1, h1]
  | succ d ih =>
    intro p q hd ha hb hl hc
    have hal := ha.1.1.1
    have hbl := hb.1.1.1
    have lp := ha.2.2 (p + 1) (by omega) (by omega)
    have lq := hb.2.2 (q + 1) (by omega) (by omega)
    have := ih (p + 1) (q + 1) (by omega) ⟨ha.1, by omega, fun r h1 h2 => ha.2.2 r (by omega) h2⟩
      ⟨hb.1, by omega, fun r h1 h2 => hb.2.2 r (by omega) h2⟩ (by omega)
      (fun j hj => by
        have := hc (j + 1) (by omega)
        rwa [show p + (j + 1) = p + 1 + j by omega, show q + (j + 1) = q + 1 + j by omega] at this)
    have h1 : tc T (p + 1) = tc T (q + 1) := by
      unfold keyX at this; rw [List.cons.injEq] at this; exact this.1
    have h2 : tc T p = tc T q := tc_back (by omega) (by omega) (hc 0 (by omega)) h1
    unfold keyX at this ⊢
    rw [walkX_step (by omega) lp, walkX_step (by omega) lq, h2, this]

/-- Equal characters, but one substring ends with the text: that one is smaller. -/
theorem keyS_of_end {p q b : Nat} (hp : ∀ r, p < r → ¬ isLMS T r) (hb : NextLMS T q b) (hl : T.length - 1 - p = b - q)
    (hc : ∀ j, j ≤ b - q → ch T (p + j) = ch T (q + j)) : tc T p = tc T q ∧ keyS T p < keyS T q := by
  suffices H : ∀ d p q : Nat, b - q = d + 1 → (∀ r, p < r → ¬ isLMS T r) → NextLMS T q b → T.length - 1 - p = b - q →
      (∀ j, j ≤ b - q → ch T (p + j) = ch T (q + j)) → tc T p = tc T q ∧ keyS T p < keyS T q by
    have := hb.2.1
    exact H (b - q - 1) p q (by omega) hp hb hl hc
  intro d
  induction d with
  | zero =>
    intro p q hd hp hb hl hc
    obtain rfl : b = q + 1 := by omega
    have hp1 : p + 2 = T.length := by omega
    have hlast : isL T (p + 1) := isL_last (by omega)
    have hqb := hb.1.1.1
    have c0 := hc 0 (by omega)
    have c1 := hc 1 (by omega)
    have hcq := isLMS_ch hb.1
    have hlq := isLMS_pred hb.1
    have hlp : isL T p := (isL_iff (by omega)).mpr (Or.inl (by simp only [Nat.add_zero] at c0; omega))
    have htc : tc T p = tc T q := by rw [tc_L hlp, tc_L hlq]; simp only [Nat.add_zero] at c0; omega
    refine ⟨htc, ?_⟩
    unfold keyS
    rw [List.cons_lt_cons_iff]
    refine Or.inr ⟨htc, ?_⟩
    rw [walk_step (by omega) (hp _ (by omega)), walk_lms hb.1, List.cons_lt_cons_iff]
    left
    rw [tc_L hlast, tc_S hb.1.1]; omega
  | succ d ih =>
    intro p q hd hp hb hl hc
    have hbl := hb.1.1.1
    have lp := hp (p + 1) (by omega)
    have lq := hb.2.2 (q + 1) (by omega) (by omega)
    have := ih (p + 1) (q + 1) (by omega) (fun r hr => hp r (by omega))
      ⟨hb.1, by omega, fun r h1 h2 => hb.2.2 r (by omega) h2⟩ (by omega)
      (fun j hj => by
        have := hc (j + 1) (by omega)
        rwa [show p + (j + 1) = p + 1 + j by omega, show q + (j + 1) = q + 1 + j by omega] at this)
    have h2 : tc T p = tc T q := tc_back (by omega) (by omega) (hc 0 (by omega)) this.1
    refine ⟨h2, ?_⟩
    unfold keyS
    rw [List.cons_lt_cons_iff]
    refine Or.inr ⟨h2, ?_⟩
    rw [walk_keyS (by omega) lp, walk_keyS (by omega) lq]
    exact this.2

/-! ## The orders of the two passes of stage 1 -/

/-- LMS or L. -/
theorem walk_inj {p q : Nat} (hp : isLMS T p ∨ isL T p) (hq : isLMS T q ∨ isL T q) (h : walk T p = walk T q) :
    p = q := by
  suffices H : ∀ d p q : Nat, T.length - p ≤ d → (isLMS T p ∨ isL T p) → (isLMS T q ∨ isL T q) →
      walk T p = walk T q → p = q from H _ p q (Nat.le_refl _) hp hq h
  intro d
  induction d with
  | zero =>
    intro p q hd hp
    have : p < T.length := hp.elim (fun a => a.1.1) (fun a => a.1)
    omega
  | succ d ih =>
    intro p q hd hp hq h
    rcases hp with hp | hp
    · rcases hq with hq | hq
      · rw [walk_lms hp, walk_lms hq] at h
        simp only [List.cons.injEq, and_true] at h
        exact h.2
      · rw [walk_lms hp, walk_step hq.1 (not_lms_L hq), List.cons.injEq] at h
        exact absurd h.1.symm (L_ne_S hq hp.1)
    · rcases hq with hq | hq
      · rw [walk_step hp.1 (not_lms_L hp), walk_lms hq, List.cons.injEq] at h
        exact absurd h.1 (L_ne_S hp hq.1)
      · rw [walk_step hp.1 (not_lms_L hp), walk_step hq.1 (not_lms_L hq), List.cons.injEq] at h
        have hne : ∀ r, r < T.length → walk T r ≠ [] := by
          intro r hr
          by_cases l : isLMS T r
          · rw [walk_lms l]; exact List.cons_ne_nil _ _
          · rw [walk_step hr l]; exact List.cons_ne_nil _ _
        rcases L_next hp with a | a
        · rcases L_next hq with b | b
          · omega
          · have hb : q + 1 < T.length := b.elim (fun b => b.1.1) (fun b => b.1.1.1)
            rw [walk_end (p := p + 1) (by omega)] at h
            exact absurd h.2.symm (hne _ hb)
        · have ha : p + 1 < T.length := a.elim (fun b => b.1.1) (fun b => b.1.1.1)
          rcases L_next hq with b | b
          · rw [walk_end (p := q + 1) (by omega)] at h
            exact absurd h.2 (hne _ ha)
          · have := ih (p + 1) (q + 1) (by omega) (a.elim (fun a => Or.inr a.1) (fun a => Or.inl a.1))
              (b.elim (fun a => Or.inr a.1) (fun a => Or.inl a.1)) h.2
            omega

theorem keyS_inj {p q : Nat} (hp : p < T.length) (hq : q < T.length) (h : keyS T p = keyS T q) : p = q := by
  suffices H : ∀ d p q : Nat, T.length - p ≤ d → p < T.length → q < T.length →
      keyS T p = keyS T q → p = q from H _ p q (Nat.le_refl _) hp hq h
  intro d
  induction d with
  | zero => intro p q hd hp; omega
  | succ d ih =>
    intro p q hd hp hq h
    have h1 : tc T p = tc T q ∧ walk T (p + 1) = walk T (q + 1) := by
      unfold keyS at h; rw [List.cons.injEq] at h; exact h
    rcases type_total hp with a | a
    · have b := tc_eq_L a hq h1.1
      apply walk_inj (Or.inr a) (Or.inr b)
      rw [walk_keyS hp (not_lms_L a), walk_keyS hq (not_lms_L b)]; exact h
    · have b := tc_eq_S a hq h1.1
      have hp1 := isS_next a
      have hq1 := isS_next b
      rw [walk_keyS hp1 (not_lms_afterS a), walk_keyS hq1 (not_lms_afterS b)] at h1
      have := ih (p + 1) (q + 1) (by omega) hp1 hq1 h1.2
      omega

theorem walk_ne {r : Nat} (hr : r < T.length) : ∃ c l, walk T r = c :: l := by
  by_cases l : isLMS T r
  · rw [walk_lms l]; exact ⟨_, _, rfl⟩
  · rw [walk_step hr l]; exact ⟨_, _, rfl⟩

theorem walk_next {p : Nat} (hp : isL T p) (h1 : p + 1 < T.length) : walk T (p + 1) < walk T p := by
  suffices H : ∀ d p : Nat, T.length - p ≤ d → isL T p → p + 1 < T.length → walk T (p + 1) < walk T p from
    H _ p (Nat.le_refl _) hp h1
  intro d
  induction d with
  | zero => intro p hd hp; have := hp.1; omega
  | succ d ih =>
    intro p hd hp h1
    rw [walk_step hp.1 (not_lms_L hp)]
    rcases L_next hp with a | a | a
    · omega
    · rw [walk_step h1 (not_lms_L a.1), List.cons_lt_cons_iff]
      by_cases e : ch T (p + 1) = ch T p
      · right
        refine ⟨by rw [tc_L a.1, tc_L hp, e], ?_⟩
        rw [← walk_step h1 (not_lms_L a.1)]
        by_cases e2 : p + 1 + 1 = T.length
        · rw [walk_end (p := p + 1 + 1) (by omega)]
          obtain ⟨c, l, h⟩ := walk_ne h1
          rw [h]; exact List.nil_lt_cons _ _
        · exact ih (p + 1) (by omega) a.1 (by omega)
      · left; exact tc_ch_lt (by omega)
    · rw [walk_lms a.1, List.cons_lt_cons_iff]
      left; exact tc_ch_lt a.2

theorem keyS_next {p : Nat} (hp : isS T p) : keyS T p < keyS T (p + 1) := by
  suffices H : ∀ d p : Nat, T.length - p ≤ d → isS T p → keyS T p < keyS T (p + 1) from
    H _ p (Nat.le_refl _) hp
  intro d
  induction d with
  | zero => intro p hd hp; have := hp.1; omega
  | succ d ih =>
    intro p hd hp
    have h1 := isS_next hp
    show tc T p :: walk T (p + 1) < tc T (p + 1) :: walk T (p + 1 + 1)
    rw [List.cons_lt_cons_iff]
    rcases (isS_iff h1).mp hp with a | a
    · left; exact tc_ch_lt a
    · right
      refine ⟨by rw [tc_S hp, tc_S a.2, a.1], ?_⟩
      have h2 := isS_next a.2
      rw [walk_keyS h1 (not_lms_afterS hp), walk_keyS h2 (not_lms_afterS a.2)]
      exact ih (p + 1) (by omega) a.2

/-- Left to right, the LMS positions behind `p0` are given in any order with larger positions last; the L positions behind `p0` are induced. -/
def ordL1 (T : List Nat) (p0 : Nat) : Order T.length where
  src p := isLMS T p ∧ p0 < p
  tgt p := isL T p ∧ p0 < p
  ch := ch T
  lt p q := walk T p < walk T q
  disj p h1 h2 := not_isL_isS h2.1 h1.1.1
  bound p h := by exact h.elim (fun h => h.1.1.1) (fun h => h.1.1)
  irrefl p := List.lt_irrefl _
  trans p q r h1 h2 := List.lt_trans h1 h2
  total p q hp hq := by
    rcases list_total (walk T p) (walk T q) with a | a | a
    · exact Or.inl a
    · exact Or.inr (Or.inl (walk_inj (hp.imp And.left And.left) (hq.imp And.left And.left) a))
    · exact Or.inr (Or.inr a)
  char p q hp hq h := by
    have b1 : p < T.length := by exact hp.elim (fun h => h.1.1.1) (fun h => h.1.1)
    have b2 : q < T.length := by exact hq.elim (fun h => h.1.1.1) (fun h => h.1.1)
    have H : ∀ r, r < T.length → ∃ l, walk T r = tc T r :: l := by
      intro r hr
      by_cases l : isLMS T r
      · rw [walk_lms l]; exact ⟨_, rfl⟩
      · rw [walk_step hr l]; exact ⟨_, rfl⟩
    obtain ⟨l1, e1⟩ := H p b1
    obtain ⟨l2, e2⟩ := H q b2
    rw [e1, e2, List.cons_lt_cons_iff]
    exact Or.inl (tc_ch_lt h)
  front p q hp hq h := by
    rw [walk_step hp.1.1 (not_lms_L hp.1), walk_lms hq.1, List.cons_lt_cons_iff]
    left
    rw [tc_L hp.1, tc_S hq.1.1]; omega
  ind p q hp hq h _ _ := by
    rw [walk_step hp.1.1 (not_lms_L hp.1), walk_step hq.1.1 (not_lms_L hq.1), List.cons_lt_cons_iff, tc_L hp.1, tc_L hq.1]
    constructor
    · rintro (a | a)
      · omega
      · exact a.2
    · intro a; exact Or.inr ⟨by omega, a⟩
  last p q hp hq h e hne := by
    rw [walk_step hp.1.1 (not_lms_L hp.1), walk_step hq.1.1 (not_lms_L hq.1), List.cons_lt_cons_iff, tc_L hp.1, tc_L hq.1]
    right
    refine ⟨by omega, ?_⟩
    rw [walk_end (p := p + 1) (by omega)]
    obtain ⟨c, l, h⟩ := walk_ne (T := T) (r := q + 1) (by have := hq.1.1; omega)
    rw [h]; exact List.nil_lt_cons _ _
  next p hp := by
    rcases L_next hp.1 with h | h
    · exact Or.inl h
    · have h1 : p + 1 < T.length := h.elim (fun b => b.1.1) (fun b => b.1.1.1)
      refine Or.inr ⟨?_, walk_next hp.1 h1⟩
      rcases h with h | h
      · exact Or.inr ⟨h.1, by have := hp.2; omega⟩
      · exact Or.inl ⟨h.1, by have := hp.2; omega⟩

/-- Right to left, the L positions behind `p0` are given, the S positions from `p0` on are induced. -/
def ordS1 (T : List Nat) (p0 : Nat) (k : Nat) (hk : ∀ p, p < T.length → ch T p < k) :
    Order T.length where
  src p := isL T p ∧ p0 < p
  tgt p := isS T p ∧ p0 ≤ p
  ch p := k - 1 - ch T p
  lt p q := keyS T q < keyS T p
  disj p h1 h2 := not_isL_isS h1.1 h2.1
  bound p h := by exact h.elim (fun h => h.1.1) (fun h => h.1.1)
  irrefl p := List.lt_irrefl _
  trans p q r h1 h2 := List.lt_trans h2 h1
  total p q hp hq := by
    have b1 : p < T.length := by exact hp.elim (fun h => h.1.1) (fun h => h.1.1)
    have b2 : q < T.length := by exact hq.elim (fun h => h.1.1) (fun h => h.1.1)
    rcases list_total (keyS T p) (keyS T q) with a | a | a
    · exact Or.inr (Or.inr a)
    · exact Or.inr (Or.inl (keyS_inj b1 b2 a))
    · exact Or.inl a
  char p q hp hq h := by
    have b1 : p < T.length := by exact hp.elim (fun h => h.1.1) (fun h => h.1.1)
    have b2 : q < T.length := by exact hq.elim (fun h => h.1.1) (fun h => h.1.1)
    have := hk p b1
    have := hk q b2
    show tc T q :: _ < tc T p :: _
    rw [List.cons_lt_cons_iff]
    exact Or.inl (tc_ch_lt (by omega))
  front p q hp hq h := by
    have := hk p hp.1.1
    have := hk q hq.1.1
    show tc T q :: _ < tc T p :: _
    rw [List.cons_lt_cons_iff, tc_L hq.1, tc_S hp.1]
    left; omega
  ind p q hp hq h _ _ := by
    have := hk p hp.1.1
    have := hk q hq.1.1
    have hp1 := isS_next hp.1
    have hq1 := isS_next hq.1
    rw [← walk_keyS hp1 (not_lms_afterS hp.1), ← walk_keyS hq1 (not_lms_afterS hq.1)]
    show tc T q :: _ < tc T p :: _ ↔ _
    rw [List.cons_lt_cons_iff, tc_S hp.1, tc_S hq.1]
    constructor
    · rintro (a | a)
      · omega
      · exact a.2
    · intro a; exact Or.inr ⟨by omega, a⟩
  last p q hp hq h e hne := by have := isS_next hp.1; omega
  next p hp := by
    have hp1 := isS_next hp.1
    refine Or.inr ⟨?_, keyS_next hp.1⟩
    rcases type_total hp1 with a | a
    · exact Or.inl ⟨a, by have := hp.2; omega⟩
    · exact Or.inr ⟨a, by have := hp.2; omega⟩

end Bwtc.Suffix
