import Verif.SsForward

/-!
# `ss_mergebackward` merges
-/

set_option autoImplicit false

namespace Bwtc.Ss
open Sais (put inv put_spec inv_inv bind_some')
open Divsuf (getI dec sub)
open Suffix

variable {T : List Nat} {P : Nat → Nat} {m pa : Nat} {W : List Nat}

/-- The cells of a range follow each other. -/
def Steps (K : Nat → List Nat) (a b : Nat) (f : Nat → Int) : Prop := ∀ r, a ≤ r → r + 1 < b → Stp K (f r) (f (r + 1))

theorem stp_congr {K : Nat → List Nat} {x x' y : Int} (h : Stp K x y) (e : dec x' = dec x) : Stp K x' y := by
  unfold Stp at h ⊢; rw [e]; exact h

/-- A copy of a range is put before a range. -/
theorem steps_copy {K : Nat → List Nat} {A A' L last x : Nat} {f g h : Nat → Int} (hs : Steps K A last f) (h1 : ∀ r, A ≤ r → r < last → g r = f r)
    (h2 : ∀ i, i < L → dec (g (A' + i)) = dec (h (x + i))) (h3 : ∀ i, 1 ≤ i → i < L → g (A' + i) = h (x + i)) (hA : A' + L = A)
    (h4 : ∀ i, i + 1 < L → Stp K (h (x + i)) (h (x + i + 1))) (h5 : 0 < L → A < last → Stp K (h (x + L - 1)) (f A)) : Steps K A' last g := by
  intro r hr1 hr2
  by_cases hr : A ≤ r
  · rw [h1 r hr (by omega), h1 (r + 1) (by omega) hr2]; exact hs r hr hr2
  · have e1 := h2 (r - A') (by omega)
    rw [show A' + (r - A') = r by omega] at e1
    by_cases hr' : r + 1 = A
    · rw [hr', h1 A (Nat.le_refl _) (by omega)]
      refine stp_congr (h5 (by omega) (by omega)) ?_
      rw [e1, show x + (r - A') = x + L - 1 by omega]
    · have e2 := h3 (r - A' + 1) (by omega) (by omega)
      rw [show A' + (r - A' + 1) = r + 1 by omega, show x + (r - A' + 1) = x + (r - A') + 1 by omega] at e2
      rw [e2]
      exact stp_congr (h4 (r - A') (by omega)) e1

/-! ## The inner loops -/

theorem shiftDown_spec {sa : List Int} {a b : Nat} (hab : b < a) (ha : a < sa.length) :
    ∃ sa', shiftDown sa a b = some sa' ∧ sa'.length = sa.length ∧ (∀ r, cel sa' r = if r = b then cel sa (a - 1) else if r = a then cel sa b else cel sa r) := by
  unfold shiftDown
  rw [if_neg (by omega), bind_some' (get_cel (by omega)), bind_some' (put_spec (by omega) _), bind_some' (get_cel (by rw [List.length_set]; omega)), cel_set_ne _ (by omega)]
  refine ⟨_, put_spec (by rw [List.length_set]; omega) _, by simp, fun r => ?_⟩
  rw [cel_set (by rw [List.length_set]; omega), cel_set (by omega)]

theorem shiftDown_far {sa : List Int} {a b : Nat} (h0 : 0 < a) (hab : a < b) (hb : b < sa.length) :
    ∃ sa', shiftDown sa a b = some sa' ∧ sa'.length = sa.length ∧ (∀ r, cel sa' r = if r = b then cel sa (a - 1) else if r = a then cel sa b else cel sa r) := by
  unfold shiftDown
  rw [if_neg (by omega), bind_some' (get_cel (by omega)), bind_some' (put_spec (by omega) _), bind_some' (get_cel (by rw [List.length_set]; omega)), cel_set_ne _ (by omega)]
  refine ⟨_, put_spec (by rw [List.length_set]; omega) _, by simp, fun r => ?_⟩
  rw [cel_set (by rw [List.length_set]; omega), cel_set (by omega)]

/-- The marked cells of a group in the buffer; `lo` is a cell below that is not marked. -/
theorem mbMarked_far {lo : Nat} : ∀ (n : Nat) (sa : List Int) (a b : Nat), b - lo ≤ n → lo ≤ b → b - lo ≤ a → a < lo → b < sa.length →
    0 ≤ cel sa lo → cel sa b < 0 →
    ∃ L a' b' sa', mbMarked sa a b = some (sa', a', b') ∧ 1 ≤ L ∧ a = a' + L ∧ b = b' + L ∧ lo ≤ b' ∧ sa'.length = sa.length ∧
      (∀ i, i < L → cel sa (b' + 1 + i) < 0) ∧ 0 ≤ cel sa b' ∧ (∀ i, i < L → cel sa' (a' + 1 + i) = cel sa (b' + 1 + i)) ∧
      (∀ i, i < L → cel sa' (b' + 1 + i) = cel sa (a' + i)) ∧ (∀ r, r ≤ a' ∨ a < r → r ≤ b' ∨ b < r → cel sa' r = cel sa r) := by
  intro n
  induction n with
  | zero =>
    intro sa a b h1 h2 h3 h4 h5 h6 h7
    have : lo = b := by omega
    subst this; omega
  | succ n ih =>
    intro sa a b h1 h2 h3 h4 h5 h6 h7
    have hlb : lo ≠ b := fun h => by subst h; omega
    obtain ⟨a, rfl⟩ : ∃ a0, a = a0 + 1 := ⟨a - 1, by omega⟩
    obtain ⟨b, rfl⟩ : ∃ b0, b = b0 + 1 := ⟨b - 1, by omega⟩
    rw [mbMarked]
    obtain ⟨sa1, e1, l1, hc⟩ := shiftDown_far (sa := sa) (a := a + 1) (b := b + 1) (by omega) (by omega) (by omega)
    rw [bind_some' e1, bind_some' (get_cel (by omega))]
    have hb : cel sa1 b = cel sa b := by rw [hc, if_neg (by omega), if_neg (by omega)]
    rw [hb]
    by_cases hneg : cel sa b < 0
    · rw [if_pos hneg]
      obtain ⟨L, a', b', sa', k0, k1, k2, k3, k4, k5, k6, k7, k8, k9, k10⟩ := ih sa1 a b (by omega) (by omega) (by omega) (by omega) (by omega)
        (by rw [hc, if_neg (by omega), if_neg (by omega)]; exact h6) (by rw [hb]; exact hneg)
      refine ⟨L + 1, a', b', sa', k0, by omega, by omega, by omega, k4, by omega, ?_, ?_, ?_, ?_, ?_⟩
      · intro i hi
        by_cases hi' : i = L
        · rw [show b' + 1 + i = b + 1 by omega]; exact h7
        · have := k6 i (by omega)
          rw [hc, if_neg (by omega), if_neg (by omega)] at this
          exact this
      · rw [hc, if_neg (by omega), if_neg (by omega)] at k7; exact k7
      · intro i hi
        by_cases hi' : i = L
        · rw [show b' + 1 + i = b + 1 by omega, show a' + 1 + i = a + 1 by omega, k10 _ (by omega) (by omega), hc, if_neg (by omega), if_pos rfl]
        · rw [k8 i (by omega), hc, if_neg (by omega), if_neg (by omega)]
      · intro i hi
        by_cases hi' : i = L
        · rw [show b' + 1 + i = b + 1 by omega, show a' + i = a by omega, k10 _ (by omega) (by omega), hc, if_pos rfl]
          rfl
        · rw [k9 i (by omega), hc, if_neg (by omega), if_neg (by omega)]
      · intro r hr1 hr2
        rw [k10 r (by omega) (by omega), hc, if_neg (by omega), if_neg (by omega)]
    · rw [if_neg hneg]
      refine ⟨1, a, b, sa1, rfl, Nat.le_refl _, rfl, rfl, by omega, l1, ?_, by omega, ?_, ?_, ?_⟩
      · intro i hi
        rw [show b + 1 + i = b + 1 by omega]; exact h7
      · intro i hi
        rw [show b + 1 + i = b + 1 by omega, show a + 1 + i = a + 1 by omega, hc, if_neg (by omega), if_pos rfl]
      · intro i hi
        rw [show b + 1 + i = b + 1 by omega, show a + i = a by omega, hc, if_pos rfl]
        rfl
      · intro r hr1 hr2
        rw [hc, if_neg (by omega), if_neg (by omega)]

/-- The junk between `c` and `a` moves down by one. -/
theorem shiftDown_junk {sa sa' : List Int} {a c : Nat} (ha : c < a) (hc : ∀ r, cel sa' r = if r = c then cel sa (a - 1) else if r = a then cel sa c else cel sa r) :
    (∀ v, occ (cel sa') c (a - 1) v = occ (cel sa) (c + 1) a v) ∧
    ∀ (J : Int → Prop), (∀ r, c + 1 ≤ r → r < a → J (cel sa r)) → ∀ r, c ≤ r → r < a - 1 → J (cel sa' r) := by
  constructor
  · intro v
    rcases Nat.lt_or_ge (c + 1) a with h | h
    · have e : occ (cel sa) (c + 1) a v = occ (cel sa) (c + 1) (a - 1) v + bit (cel sa (a - 1)) v := by
        rw [← occ_succ _ (show c + 1 ≤ a - 1 by omega), show a - 1 + 1 = a by omega]
      rw [e, occ_first (cel sa') (show c < a - 1 by omega)]
      have h1 : cel sa' c = cel sa (a - 1) := by rw [hc, if_pos rfl]
      rw [h1, occ_congr (f := cel sa') (g := cel sa) (a := c + 1) (b := a - 1) (fun r h2 h3 => by rw [hc, if_neg (by omega), if_neg (by omega)])]
      omega
    · rw [occ_le _ (by omega), occ_le _ (by omega)]
  · intro J h r h1 h2
    rw [hc]
    by_cases h3 : r = c
    · rw [if_pos h3]; exact h (a - 1) (by omega) (by omega)
    · rw [if_neg h3, if_neg (by omega)]; exact h r (by omega) (by omega)

/-- The marked cells of a group in the array. -/
theorem mbMarked_near (J : Int → Prop) {lo : Nat} : ∀ (n : Nat) (sa : List Int) (a c : Nat), c - lo ≤ n → lo ≤ c → c < a → a < sa.length →
    0 ≤ cel sa lo → cel sa c < 0 →
    ∃ L a' c' sa', mbMarked sa a c = some (sa', a', c') ∧ 1 ≤ L ∧ a = a' + L ∧ c = c' + L ∧ lo ≤ c' ∧ sa'.length = sa.length ∧
      (∀ i, i < L → cel sa (c' + 1 + i) < 0) ∧ 0 ≤ cel sa c' ∧ (∀ i, i < L → cel sa' (a' + 1 + i) = cel sa (c' + 1 + i)) ∧
      (∀ v, occ (cel sa') (c' + 1) a' v = occ (cel sa) (c + 1) a v) ∧
      ((∀ r, c + 1 ≤ r → r < a → J (cel sa r)) → ∀ r, c' + 1 ≤ r → r < a' → J (cel sa' r)) ∧
      (∀ r, r ≤ c' ∨ a < r → cel sa' r = cel sa r) := by
  intro n
  induction n with
  | zero =>
    intro sa a c h1 h2 h3 h5 h6 h7
    have : lo = c := by omega
    subst this; omega
  | succ n ih =>
    intro sa a c h1 h2 h3 h5 h6 h7
    have hlb : lo ≠ c := fun h => by subst h; omega
    obtain ⟨a, rfl⟩ : ∃ a0, a = a0 + 1 := ⟨a - 1, by omega⟩
    obtain ⟨c, rfl⟩ : ∃ b0, c = b0 + 1 := ⟨c - 1, by omega⟩
    rw [mbMarked]
    obtain ⟨sa1, e1, l1, hc⟩ := shiftDown_spec (sa := sa) (a := a + 1) (b := c + 1) (by omega) (by omega)
    obtain ⟨q1, q2⟩ := shiftDown_junk h3 hc
    rw [show a + 1 - 1 = a from rfl] at q1 q2
    rw [bind_some' e1, bind_some' (get_cel (by omega))]
    have hb : cel sa1 c = cel sa c := by rw [hc, if_neg (by omega), if_neg (by omega)]
    rw [hb]
    by_cases hneg : cel sa c < 0
    · rw [if_pos hneg]
      obtain ⟨L, a', c', sa', k0, k1, k2, k3, k4, k5, k6, k7, k8, k9, k10, k11⟩ := ih sa1 a c (by omega) (by omega) (by omega) (by omega)
        (by rw [hc, if_neg (by omega), if_neg (by omega)]; exact h6) (by rw [hb]; exact hneg)
      refine ⟨L + 1, a', c', sa', k0, by omega, by omega, by omega, k4, by omega, ?_, ?_, ?_, ?_, ?_, ?_⟩
      · intro i hi
        by_cases hi' : i = L
        · rw [show c' + 1 + i = c + 1 by omega]; exact h7
        · have := k6 i (by omega)
          rw [hc, if_neg (by omega), if_neg (by omega)] at this
          exact this
      · rw [hc, if_neg (by omega), if_neg (by omega)] at k7; exact k7
      · intro i hi
        by_cases hi' : i = L
        · rw [show c' + 1 + i = c + 1 by omega, show a' + 1 + i = a + 1 by omega, k11 _ (by omega), hc, if_neg (by omega), if_pos rfl]
        · rw [k8 i (by omega), hc, if_neg (by omega), if_neg (by omega)]
      · intro v
        rw [k9 v, q1 v]
      · intro hJ
        exact k10 (q2 J hJ)
      · intro r hr
        rw [k11 r (by omega), hc, if_neg (by omega), if_neg (by omega)]
    · rw [if_neg hneg]
      refine ⟨1, a, c, sa1, rfl, Nat.le_refl _, rfl, rfl, by omega, l1, ?_, by omega, ?_, q1, q2 J, ?_⟩
      · intro i hi
        rw [show c + 1 + i = c + 1 by omega]; exact h7
      · intro i hi
        rw [show c + 1 + i = c + 1 by omega, show a + 1 + i = a + 1 by omega, hc, if_neg (by omega), if_pos rfl]
      · intro r hr
        rw [hc, if_neg (by omega), if_neg (by omega)]

theorem mbRest_spec {buf : Nat} {t : Int} : ∀ (n : Nat) (sa : List Int) (x b : Nat), b - buf = n → buf ≤ b → x + n < buf → b < sa.length →
    ∃ sa', mbRest buf t sa (x + n) b = some sa' ∧ sa'.length = sa.length ∧ (∀ i, i ≤ n → cel sa' (x + i) = cel sa (buf + i)) ∧
      cel sa' buf = t ∧ (∀ i, 1 ≤ i → i ≤ n → cel sa' (buf + i) = cel sa (x + i - 1)) ∧
      (∀ r, r < x ∨ x + n < r → r < buf ∨ b < r → cel sa' r = cel sa r) := by
  intro n
  induction n with
  | zero =>
    intro sa x b h1 h2 h3 h4
    have : b = buf := by omega
    subst this
    rw [mbRest, if_neg (by omega), bind_some' (get_cel (by omega)), bind_some' (put_spec (by omega) _), Nat.add_zero]
    have hc : ∀ r, cel ((sa.set x (cel sa b)).set b t) r = if r = b then t else if r = x then cel sa b else cel sa r := fun r => by
      rw [cel_set (by rw [List.length_set]; omega), cel_set (by omega)]
    refine ⟨_, put_spec (by rw [List.length_set]; omega) _, by simp, ?_, ?_, fun i _ _ => by omega, ?_⟩
    · intro i hi
      rw [hc, if_neg (by omega), if_pos (by omega), show b + i = b by omega]
    · rw [hc, if_pos rfl]
    · intro r h5 h6
      rw [hc, if_neg (by omega), if_neg (by omega)]
  | succ n ih =>
    intro sa x b h1 h2 h3 h4
    rw [mbRest, if_pos (by omega)]
    obtain ⟨sa1, e1, l1, hc⟩ := shiftDown_far (sa := sa) (a := x + (n + 1)) (b := b) (by omega) (by omega) (by omega)
    rw [bind_some' e1]
    obtain ⟨sa', e, k1, k2, k3, k4, k5⟩ := ih sa1 x (b - 1) (by omega) (by omega) (by omega) (by omega)
    refine ⟨sa', e, by omega, ?_, k3, ?_, ?_⟩
    · intro i hi
      by_cases hi0 : i = n + 1
      · subst hi0
        rw [k5 _ (by omega) (by omega), hc, if_neg (by omega), if_pos (by omega), show buf + (n + 1) = b by omega]
      · rw [k2 i (by omega), hc, if_neg (by omega), if_neg (by omega)]
    · intro i hi1 hi
      by_cases hi0 : i = n + 1
      · subst hi0
        rw [k5 _ (by omega) (by omega), hc, if_pos (by omega)]
      · rw [k4 i hi1 (by omega), hc, if_neg (by omega), if_neg (by omega)]
    · intro r hr1 hr2
      rw [k5 r (by omega) (by omega), hc, if_neg (by omega), if_neg (by omega)]

theorem mbBuf_spec {buf : Nat} {t : Int} {sa : List Int} {a b : Nat} (e : Bool) (h2 : buf ≤ b) (h3 : b - buf < a) (h4 : a < buf) (h5 : b < sa.length) (h6 : 0 ≤ cel sa buf) :
    ∃ L a' b' sa', 1 ≤ L ∧ a + 1 = a' + L ∧ b + 1 = b' + L ∧ buf ≤ b' ∧ 0 < a' ∧ sa'.length = sa.length ∧ (∀ i, 1 ≤ i → i < L → cel sa (b' + i) < 0) ∧ 0 ≤ cel sa b' ∧
      cel sa' a' = (if e then inv (cel sa b') else cel sa b') ∧ (∀ i, 1 ≤ i → i < L → cel sa' (a' + i) = cel sa (b' + i)) ∧
      (∀ i, i < L → b' + i ≠ buf → cel sa' (b' + i) = cel sa (a' + i - 1)) ∧ (∀ r, r < a' ∨ a < r → r < b' ∨ b < r → cel sa' r = cel sa r) ∧
      ((b' = buf ∧ cel sa' buf = t ∧ mbBuf buf t (decide (cel sa b < 0)) e sa a b = some (sa', none)) ∨
       (buf < b' ∧ mbBuf buf t (decide (cel sa b < 0)) e sa a b = some (sa', some (a' - 1, b' - 1)))) := by
  have key : ∀ (sa1 : List Int) (L a' b' : Nat), a = a' + L → b = b' + L → buf ≤ b' → sa1.length = sa.length →
      (∀ i, i < L → cel sa (b' + 1 + i) < 0) → 0 ≤ cel sa b' → (∀ i, i < L → cel sa1 (a' + 1 + i) = cel sa (b' + 1 + i)) →
      (∀ i, i < L → cel sa1 (b' + 1 + i) = cel sa (a' + i)) → (∀ r, r ≤ a' ∨ a < r → r ≤ b' ∨ b < r → cel sa1 r = cel sa r) →
      mbBuf buf t (decide (cel sa b < 0)) e sa a b = (do
        let x ← sa1[b']?
        let sa ← put sa1 a' (if e then inv x else x)
        if b' ≤ buf then
          let sa ← put sa buf t
          return (sa, none)
        else if a' = 0 then none
        else
          let y ← sa[a' - 1]?
          let sa ← put sa b' y
          return (sa, some (a' - 1, b' - 1))) →
      ∃ L a' b' sa', 1 ≤ L ∧ a + 1 = a' + L ∧ b + 1 = b' + L ∧ buf ≤ b' ∧ 0 < a' ∧ sa'.length = sa.length ∧ (∀ i, 1 ≤ i → i < L → cel sa (b' + i) < 0) ∧ 0 ≤ cel sa b' ∧
        cel sa' a' = (if e then inv (cel sa b') else cel sa b') ∧ (∀ i, 1 ≤ i → i < L → cel sa' (a' + i) = cel sa (b' + i)) ∧
        (∀ i, i < L → b' + i ≠ buf → cel sa' (b' + i) = cel sa (a' + i - 1)) ∧ (∀ r, r < a' ∨ a < r → r < b' ∨ b < r → cel sa' r = cel sa r) ∧
        ((b' = buf ∧ cel sa' buf = t ∧ mbBuf buf t (decide (cel sa b < 0)) e sa a b = some (sa', none)) ∨
         (buf < b' ∧ mbBuf buf t (decide (cel sa b < 0)) e sa a b = some (sa', some (a' - 1, b' - 1)))) := by
    intro sa1 L a' b' k1 k2 k3 k4 k5 k6 k7 k8 k9 k10
    have hx : cel sa1 b' = cel sa b' := k9 _ (by omega) (by omega)
    rw [bind_some' (get_cel (show b' < sa1.length by omega)), hx, bind_some' (put_spec (show a' < sa1.length by omega) _)] at k10
    by_cases hb : b' ≤ buf
    · rw [if_pos hb, bind_some' (put_spec (show buf < (sa1.set a' _).length by rw [List.length_set]; omega) _)] at k10
      have hc : ∀ r, cel ((sa1.set a' (if e then inv (cel sa b') else cel sa b')).set buf t) r = if r = buf then t else if r = a' then (if e then inv (cel sa b') else cel sa b') else cel sa1 r := fun r => by
        rw [cel_set (by rw [List.length_set]; omega), cel_set (by omega)]
      refine ⟨L + 1, a', b', _, by omega, by omega, by omega, k3, by omega, by simp [k4], ?_, k6, ?_, ?_, ?_, ?_, Or.inl ⟨by omega, ?_, k10⟩⟩
      · intro i hi1 hi2
        have := k5 (i - 1) (by omega)
        rw [show b' + 1 + (i - 1) = b' + i by omega] at this; exact this
      · rw [hc, if_neg (by omega), if_pos rfl]
      · intro i hi1 hi2
        have := k7 (i - 1) (by omega)
        rw [show b' + 1 + (i - 1) = b' + i by omega, show a' + 1 + (i - 1) = a' + i by omega] at this
        rw [hc, if_neg (by omega), if_neg (by omega), this]
      · intro i hi hib
        have := k8 (i - 1) (by omega)
        rw [show b' + 1 + (i - 1) = b' + i by omega, show a' + (i - 1) = a' + i - 1 by omega] at this
        rw [hc, if_neg (by omega), if_neg (by omega), this]
      · intro r hr1 hr2
        rw [hc, if_neg (by omega), if_neg (by omega), k9 r (by omega) (by omega)]
      · rw [hc, if_pos rfl]
    · rw [if_neg hb, if_neg (by omega), bind_some' (get_cel (show a' - 1 < (sa1.set a' _).length by rw [List.length_set]; omega)),
        bind_some' (put_spec (show b' < (sa1.set a' _).length by rw [List.length_set]; omega) _), cel_set_ne _ (by omega), k9 (a' - 1) (by omega) (by omega)] at k10
      have hc : ∀ r, cel ((sa1.set a' (if e then inv (cel sa b') else cel sa b')).set b' (cel sa (a' - 1))) r = if r = b' then cel sa (a' - 1) else if r = a' then (if e then inv (cel sa b') else cel sa b') else cel sa1 r := fun r => by
        rw [cel_set (by rw [List.length_set]; omega), cel_set (by omega)]
      refine ⟨L + 1, a', b', _, by omega, by omega, by omega, k3, by omega, by simp [k4], ?_, k6, ?_, ?_, ?_, ?_, Or.inr ⟨by omega, k10⟩⟩
      · intro i hi1 hi2
        have := k5 (i - 1) (by omega)
        rw [show b' + 1 + (i - 1) = b' + i by omega] at this; exact this
      · rw [hc, if_neg (by omega), if_pos rfl]
      · intro i hi1 hi2
        have := k7 (i - 1) (by omega)
        rw [show b' + 1 + (i - 1) = b' + i by omega, show a' + 1 + (i - 1) = a' + i by omega] at this
        rw [hc, if_neg (by omega), if_neg (by omega), this]
      · intro i hi hib
        by_cases hi0 : i = 0
        · subst hi0; rw [hc, if_pos (by omega)]; rfl
        · have := k8 (i - 1) (by omega)
          rw [show b' + 1 + (i - 1) = b' + i by omega, show a' + (i - 1) = a' + i - 1 by omega] at this
          rw [hc, if_neg (by omega), if_neg (by omega), this]
      · intro r hr1 hr2
        rw [hc, if_neg (by omega), if_neg (by omega), k9 r (by omega) (by omega)]
  by_cases hneg : cel sa b < 0
  · obtain ⟨L, a', b', sa1, k0, k1, k2, k3, k4, k5, k6, k7, k8, k9, k10⟩ := mbMarked_far (lo := buf) (b - buf) sa a b (Nat.le_refl _) h2 (by omega) h4 h5 h6 hneg
    refine key sa1 L a' b' k2 k3 k4 k5 k6 k7 k8 k9 k10 ?_
    unfold mbBuf
    rw [if_pos (by simpa using hneg), bind_some' k0]
  · refine key sa 0 a b rfl rfl h2 rfl (fun i hi => by omega) (by omega) (fun i hi => by omega) (fun i hi => by omega) (fun _ _ _ => rfl) ?_
    unfold mbBuf
    rw [if_neg (by simpa using hneg)]
    rfl

theorem mbMid_spec (J : Int → Prop) {first buf : Nat} {t : Int} {sa : List Int} {a b c : Nat} (h2 : first ≤ c) (h3 : c < a) (h5 : a < sa.length) (h6 : 0 ≤ cel sa first) :
    ∃ L a' c' sa', 1 ≤ L ∧ a + 1 = a' + L ∧ c + 1 = c' + L ∧ first ≤ c' ∧ c' < a' ∧ sa'.length = sa.length ∧ (∀ i, 1 ≤ i → i < L → cel sa (c' + i) < 0) ∧ 0 ≤ cel sa c' ∧
      (∀ i, i < L → cel sa' (a' + i) = cel sa (c' + i)) ∧ (∀ v, occ (cel sa') c' (a' - 1) v = occ (cel sa) (c + 1) a v) ∧
      ((∀ r, c + 1 ≤ r → r < a → J (cel sa r)) → ∀ r, c' ≤ r → r < a' - 1 → J (cel sa' r)) ∧ (∀ r, r < c' ∨ a < r → cel sa' r = cel sa r) ∧
      ((c' = first ∧ mbMid first buf t (decide (cel sa c < 0)) b sa a c = (mbRest buf t sa' (a' - 1) b).bind (fun s => some (s, none))) ∨
       (first < c' ∧ mbMid first buf t (decide (cel sa c < 0)) b sa a c = some (sa', some (a' - 1, c' - 1)))) := by
  have key : ∀ (sa1 : List Int) (L a' c' : Nat), a = a' + L → c = c' + L → first ≤ c' → sa1.length = sa.length →
      (∀ i, i < L → cel sa (c' + 1 + i) < 0) → 0 ≤ cel sa c' → (∀ i, i < L → cel sa1 (a' + 1 + i) = cel sa (c' + 1 + i)) →
      (∀ v, occ (cel sa1) (c' + 1) a' v = occ (cel sa) (c + 1) a v) → ((∀ r, c + 1 ≤ r → r < a → J (cel sa r)) → ∀ r, c' + 1 ≤ r → r < a' → J (cel sa1 r)) →
      (∀ r, r ≤ c' ∨ a < r → cel sa1 r = cel sa r) →
      mbMid first buf t (decide (cel sa c < 0)) b sa a c = (do
        let sa ← shiftDown sa1 a' c'
        if c' ≤ first then
          let sa ← mbRest buf t sa (a' - 1) b
          return (sa, none)
        else return (sa, some (a' - 1, c' - 1))) →
      ∃ L a' c' sa', 1 ≤ L ∧ a + 1 = a' + L ∧ c + 1 = c' + L ∧ first ≤ c' ∧ c' < a' ∧ sa'.length = sa.length ∧ (∀ i, 1 ≤ i → i < L → cel sa (c' + i) < 0) ∧ 0 ≤ cel sa c' ∧
        (∀ i, i < L → cel sa' (a' + i) = cel sa (c' + i)) ∧ (∀ v, occ (cel sa') c' (a' - 1) v = occ (cel sa) (c + 1) a v) ∧
        ((∀ r, c + 1 ≤ r → r < a → J (cel sa r)) → ∀ r, c' ≤ r → r < a' - 1 → J (cel sa' r)) ∧ (∀ r, r < c' ∨ a < r → cel sa' r = cel sa r) ∧
        ((c' = first ∧ mbMid first buf t (decide (cel sa c < 0)) b sa a c = (mbRest buf t sa' (a' - 1) b).bind (fun s => some (s, none))) ∨
         (first < c' ∧ mbMid first buf t (decide (cel sa c < 0)) b sa a c = some (sa', some (a' - 1, c' - 1)))) := by
    intro sa1 L a' c' k1 k2 k3 k4 k5 k6 k7 k8 k9 k10 k11
    obtain ⟨sa2, e2, l2, hc⟩ := shiftDown_spec (sa := sa1) (a := a') (b := c') (by omega) (by omega)
    obtain ⟨q1, q2⟩ := shiftDown_junk (by omega) hc
    rw [bind_some' e2] at k11
    refine ⟨L + 1, a', c', sa2, by omega, by omega, by omega, k3, by omega, by omega, ?_, k6, ?_, ?_, ?_, ?_, ?_⟩
    · intro i hi1 hi2
      have := k5 (i - 1) (by omega)
      rw [show c' + 1 + (i - 1) = c' + i by omega] at this; exact this
    · intro i hi
      by_cases hi0 : i = 0
      · subst hi0
        rw [hc, if_neg (by omega), if_pos (by omega), k10 c' (by omega)]; rfl
      · have := k7 (i - 1) (by omega)
        rw [show c' + 1 + (i - 1) = c' + i by omega, show a' + 1 + (i - 1) = a' + i by omega] at this
        rw [hc, if_neg (by omega), if_neg (by omega), this]
    · intro v
      rw [q1 v, k8 v]
    · intro hJ
      exact q2 J (k9 hJ)
    · intro r hr
      rw [hc, if_neg (by omega), if_neg (by omega), k10 r (by omega)]
    · by_cases hcf : c' ≤ first
      · rw [if_pos hcf] at k11
        exact Or.inl ⟨by omega, k11⟩
      · rw [if_neg hcf] at k11
        exact Or.inr ⟨by omega, k11⟩
  by_cases hneg : cel sa c < 0
  · obtain ⟨L, a', c', sa1, k0, k1, k2, k3, k4, k5, k6, k7, k8, k9, k10, k11⟩ := mbMarked_near J (lo := first) (c - first) sa a c (Nat.le_refl _) h2 h3 h5 h6 hneg
    refine key sa1 L a' c' k2 k3 k4 k5 k6 k7 k8 k9 k10 k11 ?_
    unfold mbMid
    rw [if_pos (by simpa using hneg), bind_some' k0]
  · refine key sa 0 a c rfl rfl h2 rfl (fun i hi => by omega) (by omega) (fun i hi => by omega) (fun _ => rfl) (fun h => h) (fun _ _ => rfl) ?_
    unfold mbMid
    rw [if_neg (by simpa using hneg)]
    rfl

/-! ## The loop -/

/-- The state of the merge, with the ends `A`, `B` and `C` of the free part, of what is left of the second run in the buffer and of what is left
of the first run (`a`, `b` and `c` are one less). -/
structure Bwd (K : Nat → List Nat) (J : Int → Prop) (first middle last buf bufe : Nat) (t : Int) (o sa : List Int) (A B C : Nat) : Prop where
  hA : A ≤ last
  hB : buf < B
  hB' : B ≤ bufe
  hC : first < C
  hm : C ≤ middle
  pos : A + buf = B + C
  len : sa.length = o.length
  sameB : ∀ r, buf ≤ r → r < B → cel sa r = cel o r
  sameC : ∀ r, first ≤ r → r < C → cel sa r = cel o r
  off : ∀ r, r < first ∨ last ≤ r → r < buf ∨ bufe ≤ r → cel sa r = cel o r
  steps : Steps K A last (cel sa)
  out : ∀ v, occ (cel sa) A last v = occ (cel o) B bufe v + occ (cel o) C middle v
  junk : ∀ v, bit t v + occ (cel sa) C (A - 1) v + occ (cel sa) B bufe v = occ (cel o) middle last v
  jt : J t
  jac : ∀ r, C ≤ r → r < A - 1 → J (cel sa r)
  jbuf : ∀ r, B ≤ r → r < bufe → J (cel sa r)

/-- The end of the merge. -/
structure BEnd (K : Nat → List Nat) (J : Int → Prop) (first middle last buf bufe : Nat) (o sa : List Int) : Prop where
  len : sa.length = o.length
  off : ∀ r, r < first ∨ last ≤ r → r < buf ∨ bufe ≤ r → cel sa r = cel o r
  srt : Srt K first last (cel sa)
  out : ∀ v, occ (cel sa) first last v = occ (cel o) buf bufe v + occ (cel o) first middle v
  junk : ∀ v, occ (cel sa) buf bufe v = occ (cel o) middle last v
  jbuf : ∀ r, buf ≤ r → r < bufe → J (cel sa r)

variable {K : Nat → List Nat} {J : Int → Prop} {first middle last buf bufe : Nat} {t : Int} {o : List Int}

/-- The group that ends at `B` is put in place; its head is marked if `e`. -/
theorem buf_spec {sa : List Int} {A B C : Nat} (e : Bool) (h : Bwd K J first middle last buf bufe t o sa A B C) (hl : last ≤ buf) (hbl : bufe ≤ o.length)
    (hB : Srt K buf bufe (cel o)) (hC : Srt K first middle (cel o)) (h1 : A < last → Stp K (cel sa (B - 1)) (cel sa A))
    (h2 : if e then K (dec (cel sa (C - 1))) = K (dec (cel sa (B - 1))) else K (dec (cel sa (C - 1))) < K (dec (cel sa (B - 1)))) :
    ∃ sa', (mbBuf buf t (decide (cel sa (B - 1) < 0)) e sa (A - 1) (B - 1) = some (sa', none) ∧ BEnd K J first middle last buf bufe o sa') ∨
      ∃ A' B', mbBuf buf t (decide (cel sa (B - 1) < 0)) e sa (A - 1) (B - 1) = some (sa', some (A' - 1, B' - 1)) ∧ Bwd K J first middle last buf bufe t o sa' A' B' C ∧
        B' < B ∧ A' < last ∧ cel sa' (C - 1) = cel sa (C - 1) ∧ Stp K (cel sa (C - 1)) (cel sa' A') ∧ K (dec (cel sa' (B' - 1))) < K (dec (cel sa (B - 1))) ∧
        (e = false → 0 ≤ cel sa' A') ∧ K (dec (cel sa' A')) = K (dec (cel sa (B - 1))) := by
  have hpos := h.pos
  have hhA := h.hA
  have hhB := h.hB
  have hhB' := h.hB'
  have hhC := h.hC
  have hhm := h.hm
  have hlen := h.len
  obtain ⟨L, a', b', sa', k1, k2, k3, k4, k0, k5, k6, k7, k8, k9, k10, k11, k12⟩ := mbBuf_spec (buf := buf) (t := t) (sa := sa) (a := A - 1) (b := B - 1) e (by omega) (by omega) (by omega) (by omega)
    (by rw [h.sameB buf (Nat.le_refl _) hhB]; exact hB.first (by omega))
  have hA' : a' + L = A := by omega
  have hB' : b' + L = B := by omega
  have hstep : ∀ i, i + 1 < L → Stp K (cel sa (b' + i)) (cel sa (b' + i + 1)) := by
    intro i hi
    rw [h.sameB _ (by omega) (by omega), h.sameB _ (by omega) (by omega)]
    exact hB.stp (by omega) (by omega)
  have hkey := group_key (K := K) (f := cel sa) (b := b') L hstep k6
  have hkl : K (dec (cel sa (B - 1))) = K (dec (cel sa b')) := by
    rw [show B - 1 = b' + (L - 1) by omega]; exact hkey (L - 1) (by omega)
  have hdec : ∀ i, i < L → dec (cel sa' (a' + i)) = dec (cel sa (b' + i)) := by
    intro i hi
    by_cases hi0 : i = 0
    · subst hi0
      rw [Nat.add_zero, Nat.add_zero, k8]
      split
      · exact dec_inv _
      · rfl
    · rw [k9 i (by omega) hi]
  have hst : Steps K a' last (cel sa') := by
    refine steps_copy h.steps (fun r h3 h4 => k11 r (by omega) (by omega)) hdec k9 hA' hstep (fun _ h3 => ?_)
    rw [show b' + L - 1 = B - 1 by omega]; exact h1 h3
  have hka : K (dec (cel sa' a')) = K (dec (cel sa (B - 1))) := by
    have := hdec 0 (by omega)
    rw [Nat.add_zero, Nat.add_zero] at this
    rw [this, hkl]
  have hcs : ∀ r, first ≤ r → r < C → cel sa' r = cel o r := fun r h3 h4 => by rw [k11 r (by omega) (by omega), h.sameC r h3 h4]
  have hcc : cel sa' (C - 1) = cel sa (C - 1) := k11 _ (by omega) (by omega)
  have hstc : Stp K (cel sa (C - 1)) (cel sa' a') := by
    unfold Stp
    rw [hka, k8]
    cases e with
    | true => exact Or.inr ⟨(inv_neg_iff _).2 k7, h2⟩
    | false => exact Or.inl ⟨k7, h2⟩
  have hoff : ∀ r, r < first ∨ last ≤ r → r < buf ∨ bufe ≤ r → cel sa' r = cel o r := by
    intro r h3 h4
    rw [k11 r (by omega) (by omega), h.off r h3 h4]
  have hout : ∀ v, occ (cel sa') a' last v = occ (cel o) b' bufe v + occ (cel o) C middle v := by
    intro v
    have e1 := occ_map (f := cel o) (g := cel sa') a' b' L (fun i hi => by rw [hdec i hi, h.sameB _ (by omega) (by omega)]) v
    rw [hA', hB'] at e1
    rw [occ_split (cel sa') (c := A) (by omega) hhA, occ_split (cel o) (a := b') (c := B) (by omega) hhB',
      occ_congr (f := cel sa') (g := cel sa) (a := A) (b := last) (fun r h3 h4 => by rw [k11 r (by omega) (by omega)]), h.out v, e1]
    omega
  rcases k12 with ⟨e1, e2, e3⟩ | ⟨e1, e2⟩
  · refine ⟨sa', Or.inl ⟨e3, ?_⟩⟩
    have hac : a' = C := by omega
    subst hac
    subst e1
    refine ⟨by omega, hoff, ⟨fun _ => ?_, ?_⟩, ?_, ?_, ?_⟩
    · rw [hcs first (Nat.le_refl _) hhC]; exact hC.first (by omega)
    · refine steps_copy (A := a') (L := a' - first) (x := first) (h := cel sa') hst (fun _ _ _ => rfl) (fun _ _ => rfl) (fun _ _ _ => rfl) (by omega) (fun i hi => ?_) (fun _ _ => ?_)
      · rw [hcs _ (by omega) (by omega), hcs _ (by omega) (by omega)]
        exact hC.stp (by omega) (by omega)
      · rw [show first + (a' - first) - 1 = a' - 1 by omega, hcc]; exact hstc
    · intro v
      rw [occ_split (cel sa') (c := a') (by omega) (show a' ≤ last by omega), hout v, occ_split (cel o) (a := first) (c := a') (by omega) hhm,
        occ_congr (f := cel sa') (g := cel o) (a := first) (b := a') (fun r h3 h4 => by rw [hcs r h3 h4])]
      omega
    · intro v
      have e4 := occ_map (f := cel sa) (g := cel sa') (b' + 1) a' (L - 1) (fun i hi => by
        rw [show b' + 1 + i = b' + (i + 1) by omega, k10 (i + 1) (by omega) (by omega), show a' + (i + 1) - 1 = a' + i by omega]) v
      rw [show b' + 1 + (L - 1) = B by omega, show a' + (L - 1) = A - 1 by omega] at e4
      rw [← h.junk v, occ_first _ (show b' < bufe by omega), e2, occ_split (cel sa') (a := b' + 1) (c := B) (by omega) hhB', e4,
        occ_congr (f := cel sa') (g := cel sa) (a := B) (b := bufe) (fun r h3 h4 => by rw [k11 r (by omega) (by omega)])]
      omega
    · intro r h3 h4
      by_cases hr : B ≤ r
      · rw [k11 r (by omega) (by omega)]; exact h.jbuf r hr h4
      · by_cases hr2 : r = b'
        · rw [hr2, e2]; exact h.jt
        · have := k10 (r - b') (by omega) (by omega)
          rw [show b' + (r - b') = r by omega] at this
          rw [this]
          exact h.jac _ (by omega) (by omega)
  · refine ⟨sa', Or.inr ⟨a', b', e2, ?_, by omega, by omega, hcc, hstc, ?_, ?_, hka⟩⟩
    · refine ⟨by omega, e1, by omega, hhC, hhm, by omega, by omega, ?_, hcs, hoff, hst, hout, ?_, h.jt, ?_, ?_⟩
      · intro r h3 h4
        rw [k11 r (by omega) (by omega)]; exact h.sameB r h3 (by omega)
      · intro v
        have e4 := occ_map (f := cel sa) (g := cel sa') b' (a' - 1) L (fun i hi => by
          rw [k10 i hi (by omega), show a' + i - 1 = a' - 1 + i by omega]) v
        rw [show b' + L = B by omega, show a' - 1 + L = A - 1 by omega] at e4
        rw [← h.junk v, occ_split (cel sa') (a := b') (c := B) (by omega) hhB', e4,
          occ_split (cel sa) (a := C) (c := a' - 1) (by omega) (show a' - 1 ≤ A - 1 by omega),
          occ_congr (f := cel sa') (g := cel sa) (a := B) (b := bufe) (fun r h3 h4 => by rw [k11 r (by omega) (by omega)]),
          occ_congr (f := cel sa') (g := cel sa) (a := C) (b := a' - 1) (fun r h3 h4 => by rw [k11 r (by omega) (by omega)])]
        omega
      · intro r h3 h4
        rw [k11 r (by omega) (by omega)]; exact h.jac r h3 (by omega)
      · intro r h3 h4
        by_cases hr : B ≤ r
        · rw [k11 r (by omega) (by omega)]; exact h.jbuf r hr h4
        · have := k10 (r - b') (by omega) (by omega)
          rw [show b' + (r - b') = r by omega] at this
          rw [this]
          exact h.jac _ (by omega) (by omega)
    · rw [k11 (b' - 1) (by omega) (by omega), hkl, h.sameB _ (by omega) (by omega), h.sameB _ (by omega) (by omega)]
      refine hB.lt (by omega) (by omega) (by omega) ?_
      rw [← h.sameB _ (by omega) (by omega)]; exact k7
    · intro he
      rw [k8, he]; exact k7

/-- The group that ends at `C` is put in place. -/
theorem mid_spec {sa : List Int} {A B C : Nat} (h : Bwd K J first middle last buf bufe t o sa A B C) (hl : last ≤ buf) (hbl : bufe ≤ o.length)
    (hB : Srt K buf bufe (cel o)) (hC : Srt K first middle (cel o)) (h1 : A < last → Stp K (cel sa (C - 1)) (cel sa A))
    (h2 : K (dec (cel sa (B - 1))) < K (dec (cel sa (C - 1)))) :
    ∃ sa', (mbMid first buf t (decide (cel sa (C - 1) < 0)) (B - 1) sa (A - 1) (C - 1) = some (sa', none) ∧ BEnd K J first middle last buf bufe o sa') ∨
      ∃ A' C', mbMid first buf t (decide (cel sa (C - 1) < 0)) (B - 1) sa (A - 1) (C - 1) = some (sa', some (A' - 1, C' - 1)) ∧ Bwd K J first middle last buf bufe t o sa' A' B C' ∧
        C' < C ∧ A' < last ∧ cel sa' (B - 1) = cel sa (B - 1) ∧ Stp K (cel sa' (B - 1)) (cel sa' A') ∧ Stp K (cel sa' (C' - 1)) (cel sa' A') := by
  have hpos := h.pos
  have hhA := h.hA
  have hhB := h.hB
  have hhB' := h.hB'
  have hhC := h.hC
  have hhm := h.hm
  have hlen := h.len
  obtain ⟨L, a', c', sa', k1, k2, k3, k4, k0, k5, k6, k7, k8, k9, k10, k11, k12⟩ := mbMid_spec J (first := first) (buf := buf) (t := t) (sa := sa) (a := A - 1) (b := B - 1) (c := C - 1)
    (by omega) (by omega) (by omega) (by rw [h.sameC first (Nat.le_refl _) hhC]; exact hC.first (by omega))
  rw [show C - 1 + 1 = C by omega] at k9 k10
  have hA' : a' + L = A := by omega
  have hC' : c' + L = C := by omega
  have hstep : ∀ i, i + 1 < L → Stp K (cel sa (c' + i)) (cel sa (c' + i + 1)) := by
    intro i hi
    rw [h.sameC _ (by omega) (by omega), h.sameC _ (by omega) (by omega)]
    exact hC.stp (by omega) (by omega)
  have hkey := group_key (K := K) (f := cel sa) (b := c') L hstep k6
  have hkl : K (dec (cel sa (C - 1))) = K (dec (cel sa c')) := by
    rw [show C - 1 = c' + (L - 1) by omega]; exact hkey (L - 1) (by omega)
  have hst : Steps K a' last (cel sa') := by
    refine steps_copy h.steps (fun r h3 h4 => k11 r (by omega)) (fun i hi => by rw [k8 i hi]) (fun i _ hi => k8 i hi) hA' hstep (fun _ h3 => ?_)
    rw [show c' + L - 1 = C - 1 by omega]; exact h1 h3
  have hka : cel sa' a' = cel sa c' := by
    have := k8 0 (by omega)
    rw [Nat.add_zero, Nat.add_zero] at this
    exact this
  have hbs : ∀ r, last ≤ r → cel sa' r = cel sa r := fun r h3 => k11 r (by omega)
  have hbb : cel sa' (B - 1) = cel sa (B - 1) := hbs _ (by omega)
  have hstb : Stp K (cel sa (B - 1)) (cel sa' a') := by
    unfold Stp
    rw [hka]
    exact Or.inl ⟨k7, by rw [← hkl]; exact h2⟩
  have hoff : ∀ r, r < first ∨ last ≤ r → r < buf ∨ bufe ≤ r → cel sa' r = cel o r := by
    intro r h3 h4
    rw [k11 r (by omega), h.off r h3 h4]
  have hout : ∀ v, occ (cel sa') a' last v = occ (cel o) B bufe v + occ (cel o) c' middle v := by
    intro v
    have e1 := occ_map (f := cel o) (g := cel sa') a' c' L (fun i hi => by rw [k8 i hi, h.sameC _ (by omega) (by omega)]) v
    rw [hA', hC'] at e1
    rw [occ_split (cel sa') (c := A) (by omega) hhA, occ_split (cel o) (a := c') (c := C) (by omega) hhm,
      occ_congr (f := cel sa') (g := cel sa) (a := A) (b := last) (fun r h3 h4 => by rw [k11 r (by omega)]), h.out v, e1]
    omega
  have hj := k10 h.jac
  rcases k12 with ⟨e1, e2⟩ | ⟨e1, e2⟩
  · subst e1
    obtain ⟨sa2, q0, q1, q2, q3, q4, q5⟩ := mbRest_spec (buf := buf) (t := t) (B - 1 - buf) sa' c' (B - 1) rfl (by omega) (by omega) (by omega)
    rw [show c' + (B - 1 - buf) = a' - 1 by omega] at q0 q5
    refine ⟨sa2, Or.inl ⟨by rw [e2, q0]; rfl, ?_⟩⟩
    refine ⟨by omega, ?_, ⟨fun _ => ?_, ?_⟩, ?_, ?_, ?_⟩
    · intro r h3 h4
      rw [q5 r (by omega) (by omega), hoff r h3 h4]
    · have := q2 0 (by omega)
      rw [Nat.add_zero, Nat.add_zero] at this
      rw [this, hbs buf hl, h.sameB buf (Nat.le_refl _) hhB]; exact hB.first (by omega)
    · refine steps_copy (A := a') (L := B - buf) (x := buf) (h := cel sa') hst (fun r h3 h4 => q5 r (by omega) (by omega)) (fun i hi => by rw [q2 i (by omega)]) (fun i _ hi => q2 i (by omega)) (by omega) (fun i hi => ?_) (fun _ _ => ?_)
      · rw [hbs _ (by omega), hbs _ (by omega), h.sameB _ (by omega) (by omega), h.sameB _ (by omega) (by omega)]
        exact hB.stp (by omega) (by omega)
      · rw [show buf + (B - buf) - 1 = B - 1 by omega, hbb]; exact hstb
    · intro v
      have e3 := occ_map (f := cel o) (g := cel sa2) c' buf (B - buf) (fun i hi => by rw [q2 i (by omega), hbs _ (by omega), h.sameB _ (by omega) (by omega)]) v
      rw [show c' + (B - buf) = a' by omega, show buf + (B - buf) = B by omega] at e3
      rw [occ_split (cel sa2) (c := a') (by omega) (show a' ≤ last by omega),
        occ_congr (f := cel sa2) (g := cel sa') (a := a') (b := last) (fun r h3 h4 => by rw [q5 r (by omega) (by omega)]), hout v, e3,
        occ_split (cel o) (a := buf) (c := B) (by omega) hhB']
      omega
    · intro v
      have e4 := occ_map (f := cel sa') (g := cel sa2) (buf + 1) c' (B - 1 - buf) (fun i hi => by
        rw [show buf + 1 + i = buf + (i + 1) by omega, q4 (i + 1) (by omega) (by omega), show c' + (i + 1) - 1 = c' + i by omega]) v
      rw [show buf + 1 + (B - 1 - buf) = B by omega, show c' + (B - 1 - buf) = a' - 1 by omega, k9 v] at e4
      rw [← h.junk v, occ_first _ (show buf < bufe by omega), q3, occ_split (cel sa2) (a := buf + 1) (c := B) (by omega) hhB', e4,
        occ_congr (f := cel sa2) (g := cel sa) (a := B) (b := bufe) (fun r h3 h4 => by rw [q5 r (by omega) (by omega), hbs r (by omega)])]
      omega
    · intro r h3 h4
      by_cases hr : B ≤ r
      · rw [q5 r (by omega) (by omega), hbs r (by omega)]; exact h.jbuf r hr h4
      · by_cases hr2 : r = buf
        · rw [hr2, q3]; exact h.jt
        · have := q4 (r - buf) (by omega) (by omega)
          rw [show buf + (r - buf) = r by omega] at this
          rw [this]
          exact hj _ (by omega) (by omega)
  · refine ⟨sa', Or.inr ⟨a', c', e2, ?_, by omega, by omega, hbb, by rw [hbb]; exact hstb, ?_⟩⟩
    · refine ⟨by omega, hhB, hhB', e1, by omega, by omega, by omega, ?_, ?_, hoff, hst, hout, ?_, h.jt, hj, ?_⟩
      · intro r h3 h4
        rw [hbs r (by omega)]; exact h.sameB r h3 h4
      · intro r h3 h4
        rw [k11 r (by omega)]; exact h.sameC r h3 (by omega)
      · intro v
        rw [← h.junk v, k9 v, occ_congr (f := cel sa') (g := cel sa) (a := B) (b := bufe) (fun r h3 h4 => by rw [hbs r (by omega)])]
      · intro r h3 h4
        rw [hbs r (by omega)]; exact h.jbuf r h3 h4
    · have h7 := hC.stp (r := c' - 1) (by omega) (by omega)
      rw [show c' - 1 + 1 = c' by omega] at h7
      rw [hka, k11 (c' - 1) (by omega), h.sameC _ (by omega) (by omega), h.sameC _ (by omega) (by omega)]
      exact h7

theorem mbLoop_spec (hl : last ≤ buf) (hbl : bufe ≤ pa) (hB : Srt (sub T P m) buf bufe (cel o)) (hC : Srt (sub T P m) first middle (cel o))
    (hE : Env T P m pa o) (hpa : pa ≤ o.length)
    (hgB : ∀ r, buf ≤ r → r < bufe → Good T P m W (dec (cel o r))) (hgC : ∀ r, first ≤ r → r < middle → Good T P m W (dec (cel o r))) :
    ∀ (n : Nat) (sa : List Int) (A B C : Nat), B + C ≤ n → Bwd (sub T P m) J first middle last buf bufe t o sa A B C →
      (A < last → Stp (sub T P m) (cel sa (B - 1)) (cel sa A)) → (A < last → Stp (sub T P m) (cel sa (C - 1)) (cel sa A)) →
      ∃ sa', mbLoop T pa W.length first buf t sa (A - 1) (B - 1) (C - 1) = some sa' ∧ BEnd (sub T P m) J first middle last buf bufe o sa' := by
  intro n
  induction n with
  | zero => intro sa A B C h1 h; have := h.hC; omega
  | succ n ih =>
    intro sa A B C hn h hcB hcC
    have hpos := h.pos
    have hhA := h.hA
    have hhB := h.hB
    have hhB' := h.hB'
    have hhC := h.hC
    have hhm := h.hm
    have hlen := h.len
    have hEs : Env T P m pa sa := hE.frame hlen (fun r hr => h.off r (by omega) (by omega))
    rw [mbLoop, bind_some' (get_cel (show B - 1 < sa.length by omega)), bind_some' (get_cel (show C - 1 < sa.length by omega)), idx_eq, idx_eq]
    obtain ⟨r, er, hr⟩ := hEs.compare (i := dec (cel sa (B - 1))) (j := dec (cel sa (C - 1))) (W := W) (by rw [h.sameB _ (by omega) (by omega)]; exact hgB _ (by omega) (by omega))
      (by rw [h.sameC _ (by omega) (by omega)]; exact hgC _ (by omega) (by omega))
    rw [bind_some' er]
    by_cases hr1 : 0 < r
    · rw [if_pos hr1]
      obtain ⟨sa', k | ⟨A', B', e, k1, k2, k3, k4, k5, k6, k7, k8⟩⟩ := buf_spec false h hl (by omega) hB hC hcB (by simpa using hr.gt hr1)
      · exact ⟨sa', by rw [bind_some' k.1]; rfl, k.2⟩
      · rw [bind_some' e]
        exact ih sa' A' B' C (by omega) k1 (fun _ => Or.inl ⟨k7 rfl, by rw [k8]; exact k6⟩) (fun _ => by rw [k4]; exact k5)
    · rw [if_neg hr1]
      by_cases hr2 : r < 0
      · rw [if_pos hr2]
        obtain ⟨sa', k | ⟨A', C', e, k1, k2, k3, k4, k5, k6⟩⟩ := mid_spec h hl (by omega) hB hC hcC (hr.lt hr2)
        · exact ⟨sa', by rw [bind_some' k.1]; rfl, k.2⟩
        · rw [bind_some' e]
          exact ih sa' A' B C' (by omega) k1 (fun _ => k5) (fun _ => k6)
      · rw [if_neg hr2]
        have hrk := hr.eq (by omega)
        obtain ⟨sa', k | ⟨A', B', e, k1, k2, k3, k4, k5, k6, k7, k8⟩⟩ := buf_spec true h hl (by omega) hB hC hcB (by simpa using hrk.symm)
        · exact ⟨sa', by rw [bind_some' k.1]; rfl, k.2⟩
        · rw [bind_some' e]
          obtain ⟨sa2, q | ⟨A2, C2, e2, q1, q2, q3, q4, q5, q6⟩⟩ := mid_spec k1 hl (by omega) hB hC (fun _ => by rw [k4]; exact k5)
            (by rw [k4, ← hrk]; exact k6)
          · refine ⟨sa2, ?_, q.2⟩
            show (mbMid first buf t (decide (cel sa (C - 1) < 0)) (B' - 1) sa' (A' - 1) (C - 1)).bind _ = _
            rw [← k4, q.1]; rfl
          · obtain ⟨s, es, hs'⟩ := ih sa2 A2 B' C2 (by omega) q1 (fun _ => q5) (fun _ => q6)
            refine ⟨s, ?_, hs'⟩
            show (mbMid first buf t (decide (cel sa (C - 1) < 0)) (B' - 1) sa' (A' - 1) (C - 1)).bind _ = _
            rw [← k4, e2]; exact es

/-- `ss_mergebackward` merges the two sorted ranges. -/
theorem mergebackward_spec (J : Int → Prop) {sa : List Int} (hE : Env T P m pa sa) (hpa : pa ≤ sa.length) (h1 : first < middle) (h2 : middle < last) (h3 : last ≤ buf)
    (h4 : buf + (last - middle) ≤ pa) (hA : Srt (sub T P m) first middle (cel sa)) (hC : Srt (sub T P m) middle last (cel sa))
    (hg : ∀ r, first ≤ r → r < last → Good T P m W (dec (cel sa r))) :
    ∃ sa', mergebackward T pa sa first middle last buf W.length = some sa' ∧ Merged (sub T P m) J first last buf (last - middle) sa sa' := by
  unfold mergebackward
  obtain ⟨o, e1, k1, k2, k3, k4⟩ := blockswap_spec' (last - middle) sa buf middle (by omega) (by omega) (by omega)
  rw [bind_some' e1, if_neg (by omega), bind_some' (get_cel (show last - 1 < o.length by omega))]
  have hb : ∀ r, buf ≤ r → r < buf + (last - middle) → cel o r = cel sa (middle + (r - buf)) := by
    intro r h5 h6
    have := k2 (r - buf) (by omega)
    rw [show buf + (r - buf) = r by omega] at this
    exact this
  have hf : ∀ r, middle ≤ r → r < last → cel o r = cel sa (buf + (r - middle)) := by
    intro r h5 h6
    have := k3 (r - middle) (by omega)
    rw [show middle + (r - middle) = r by omega] at this
    exact this
  have hB : Srt (sub T P m) buf (buf + (last - middle)) (cel o) := by
    refine ⟨fun _ => ?_, fun r h5 h6 => ?_⟩
    · rw [hb buf (by omega) (by omega), Nat.sub_self]; exact hC.first h2
    · rw [hb r h5 (by omega), hb (r + 1) (by omega) (by omega), show middle + (r + 1 - buf) = middle + (r - buf) + 1 by omega]
      exact hC.step _ (by omega) (by omega)
  have hA' : Srt (sub T P m) first middle (cel o) := hA.congr (fun r h5 h6 => k4 r (by omega) (by omega))
  have go : ∀ J : Int → Prop, (∀ r, buf ≤ r → r < buf + (last - middle) → J (cel sa r)) →
      ∃ sa', mbLoop T pa W.length first buf (cel o (last - 1)) o (last - 1) (buf + (last - middle) - 1) (middle - 1) = some sa' ∧
        BEnd (sub T P m) J first middle last buf (buf + (last - middle)) o sa' := by
    intro J hJ
    have hJo : ∀ r, middle ≤ r → r < last → J (cel o r) := fun r h5 h6 => by
      rw [hf r h5 h6]; exact hJ _ (by omega) (by omega)
    refine mbLoop_spec (J := J) h3 h4 hB hA' (hE.frame k1 (fun r hr => k4 r (by omega) (by omega))) (by omega) ?_ ?_ _ o last (buf + (last - middle)) middle (Nat.le_refl _) ?_
      (fun h => by omega) (fun h => by omega)
    · intro r h5 h6
      rw [hb r h5 (by omega)]; exact hg _ (by omega) (by omega)
    · intro r h5 h6
      rw [k4 r (by omega) (by omega)]; exact hg _ (by omega) (by omega)
    · refine ⟨Nat.le_refl _, by omega, Nat.le_refl _, h1, Nat.le_refl _, by omega, rfl, fun _ _ _ => rfl, fun _ _ _ => rfl, fun _ _ _ => rfl,
        fun r h5 h6 => by omega, fun v => by simp [occ_self], fun v => ?_, hJo _ (by omega) (by omega), fun r h5 h6 => hJo r (by omega) (by omega), fun r h5 h6 => by omega⟩
      have : occ (cel o) middle last v = occ (cel o) middle (last - 1) v + bit (cel o (last - 1)) v := by
        rw [← occ_succ _ (show middle ≤ last - 1 by omega), show last - 1 + 1 = last by omega]
      rw [occ_self, this]; omega
  obtain ⟨sa', e, q⟩ := go (fun _ => True) (fun _ _ _ => trivial)
  refine ⟨sa', e, by rw [q.len, k1], fun r h5 h6 => ?_, fun v => ?_, q.srt, fun v => ?_, fun hJ r h5 h6 => ?_⟩
  · rw [q.off r h5 (by omega), k4 r (by omega) (by omega)]
  · have := occ_map (f := cel sa) (g := cel o) buf middle (last - middle) (fun i hi => by rw [k2 i hi]) v
    rw [show middle + (last - middle) = last by omega] at this
    rw [q.out v, occ_split (cel sa) (c := middle) (by omega) (show middle ≤ last by omega), this,
      occ_congr (f := cel o) (g := cel sa) (a := first) (b := middle) (fun r h5 h6 => by rw [k4 r (by omega) (by omega)])]
    omega
  · have h7 := q.junk v
    have := occ_map (f := cel sa) (g := cel o) middle buf (last - middle) (fun i hi => by rw [k3 i hi]) v
    rw [show middle + (last - middle) = last by omega] at this
    omega
  · obtain ⟨sa2, e2, q2⟩ := go J hJ
    rw [e] at e2
    obtain rfl := Option.some.inj e2
    exact q2.jbuf r h5 (by omega)

end Bwtc.Ss
