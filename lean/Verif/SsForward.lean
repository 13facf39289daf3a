import Verif.SsIntro

/-!
# `ss_mergeforward` merges
-/

set_option autoImplicit false

namespace Bwtc.Ss
open Sais (put inv put_spec inv_inv bind_some')
open Divsuf (getI dec sub)
open Suffix

variable {T : List Nat} {P : Nat → Nat} {m pa : Nat} {W : List Nat}

/-- `ss_blockswap` of two ranges that do not overlap. -/
theorem blockswap_spec' : ∀ (n : Nat) (sa : List Int) (a b : Nat), a + n ≤ b ∨ b + n ≤ a → a + n ≤ sa.length → b + n ≤ sa.length →
    ∃ sa', blockswap sa a b n = some sa' ∧ sa'.length = sa.length ∧ (∀ r, r < n → cel sa' (a + r) = cel sa (b + r)) ∧
      (∀ r, r < n → cel sa' (b + r) = cel sa (a + r)) ∧ (∀ r, (r < a ∨ a + n ≤ r) → (r < b ∨ b + n ≤ r) → cel sa' r = cel sa r) := by
  intro n
  induction n with
  | zero => intro sa a b h1 h2 h3; exact ⟨sa, rfl, rfl, fun r _ => by omega, fun r _ => by omega, fun _ _ _ => rfl⟩
  | succ n ih =>
    intro sa a b h1 h2 h3
    rw [blockswap]
    obtain ⟨sa1, e1, k1, k2, k3, k4⟩ := swap_spec (sa := sa) (i := a) (j := b) (by omega) (by omega)
    obtain ⟨sa2, e2, j1, j2, j3, j4⟩ := ih sa1 (a + 1) (b + 1) (by omega) (by omega) (by omega)
    refine ⟨sa2, by rw [bind_some' e1, e2], by omega, ?_, ?_, ?_⟩
    · intro r hr
      by_cases h : r = 0
      · subst h
        rw [j4 _ (by omega) (by omega)]; exact k2
      · have := j2 (r - 1) (by omega)
        rw [show a + 1 + (r - 1) = a + r by omega, show b + 1 + (r - 1) = b + r by omega] at this
        rw [this, k4 _ (by omega) (by omega)]
    · intro r hr
      by_cases h : r = 0
      · subst h
        rw [j4 _ (by omega) (by omega)]; exact k3
      · have := j3 (r - 1) (by omega)
        rw [show a + 1 + (r - 1) = a + r by omega, show b + 1 + (r - 1) = b + r by omega] at this
        rw [this, k4 _ (by omega) (by omega)]
    · intro r hr1 hr2
      rw [j4 r (by omega) (by omega), k4 r (by omega) (by omega)]

/-- The same numbers in two ranges of the same length. -/
theorem occ_map {f g : Nat → Int} (x y : Nat) : ∀ (L : Nat), (∀ i, i < L → dec (g (x + i)) = dec (f (y + i))) →
    ∀ v, occ g x (x + L) v = occ f y (y + L) v := by
  intro L
  induction L with
  | zero => intro _ v; rw [occ_le g (by omega), occ_le f (by omega)]
  | succ L ih =>
    intro h v
    rw [show x + (L + 1) = x + L + 1 by omega, show y + (L + 1) = y + L + 1 by omega, occ_succ g (by omega), occ_succ f (by omega),
      ih (fun i hi => h i (by omega))]
    unfold bit; rw [h L (by omega)]

/-- How a cell follows another one in a sorted range. -/
def Stp (K : Nat → List Nat) (x y : Int) : Prop := (0 ≤ y ∧ K (dec x) < K (dec y)) ∨ (y < 0 ∧ K (dec x) = K (dec y))

theorem Srt.stp {K : Nat → List Nat} {a b : Nat} {f : Nat → Int} (h : Srt K a b f) {r : Nat} (h1 : a ≤ r) (h2 : r + 1 < b) : Stp K (f r) (f (r + 1)) :=
  h.step r h1 h2

/-- A sorted range goes on with a copy of another one. -/
theorem srt_copy {K : Nat → List Nat} {first a b L : Nat} {f g h : Nat → Int} (hf : Srt K first a f) (h1 : ∀ r, first ≤ r → r < a → g r = f r)
    (h2 : ∀ i, i < L → g (a + i) = h (b + i)) (h3 : ∀ i, i + 1 < L → Stp K (h (b + i)) (h (b + i + 1))) (hfa : first ≤ a)
    (h4 : first < a → 0 < L → Stp K (f (a - 1)) (h b)) (h5 : a = first → 0 < L → 0 ≤ h b) : Srt K first (a + L) g := by
  refine Srt.join (c := a) (hf.congr h1) ?_ ?_ ?_
  · intro r hr1 hr2
    have e1 := h2 (r - a) (by omega)
    have e2 := h2 (r - a + 1) (by omega)
    rw [show a + (r - a) = r by omega] at e1
    rw [show a + (r - a + 1) = r + 1 by omega, show b + (r - a + 1) = b + (r - a) + 1 by omega] at e2
    rw [e1, e2]
    exact h3 (r - a) (by omega)
  · intro h6 h7
    have e1 := h2 0 (by omega)
    rw [Nat.add_zero, Nat.add_zero] at e1
    rw [e1, h1 (a - 1) (by omega) (by omega)]
    exact h4 h6 (by omega)
  · intro h6 h7
    have : a = first := by omega
    refine ⟨this, ?_⟩
    have e1 := h2 0 (by omega)
    rw [Nat.add_zero, Nat.add_zero] at e1
    rw [e1]; exact h5 this (by omega)

/-- The keys of a group. -/
theorem group_key {K : Nat → List Nat} {b : Nat} {f : Nat → Int} : ∀ (L : Nat), (∀ i, i + 1 < L → Stp K (f (b + i)) (f (b + i + 1))) →
    (∀ i, 1 ≤ i → i < L → f (b + i) < 0) → ∀ i, i < L → K (dec (f (b + i))) = K (dec (f b)) := by
  intro L h1 h2 i
  induction i with
  | zero => intro _; rfl
  | succ i ih =>
    intro hi
    have h3 := h2 (i + 1) (by omega) hi
    rcases h1 i hi with h4 | h4
    · rw [show b + (i + 1) = b + i + 1 by omega] at h3; omega
    · rw [show b + (i + 1) = b + i + 1 by omega, ← h4.2]; exact ih (by omega)

/-! ## The inner loops -/

theorem mfLeft_spec {bufend : Nat} {t : Int} : ∀ (n : Nat) (sa : List Int) (a b : Nat), bufend - b ≤ n → b ≤ bufend → a + (bufend - b) + 1 ≤ b →
    bufend < sa.length →
    ∃ L sa', 1 ≤ L ∧ b + L ≤ bufend + 1 ∧ sa'.length = sa.length ∧ (∀ i, 1 ≤ i → i < L → cel sa (b + i) < 0) ∧
      (∀ i, i < L → cel sa' (a + i) = cel sa (b + i)) ∧ (∀ i, i < L → b + i < bufend → cel sa' (b + i) = cel sa (a + 1 + i)) ∧
      (∀ r, r < a ∨ a + L ≤ r → r < b ∨ b + L ≤ r → cel sa' r = cel sa r) ∧
      ((b + L = bufend + 1 ∧ mfLeft bufend t sa a b = some (sa', none) ∧ cel sa' bufend = t) ∨
       (b + L ≤ bufend ∧ 0 ≤ cel sa (b + L) ∧ mfLeft bufend t sa a b = some (sa', some (a + L, b + L)))) := by
  intro n
  induction n with
  | zero =>
    intro sa a b h1 h2 h3 h4
    have : b = bufend := by omega
    subst this
    rw [mfLeft, bind_some' (get_cel (by omega)), bind_some' (put_spec (by omega) _), if_pos (Nat.le_refl _), bind_some' (put_spec (by rw [List.length_set]; omega) _)]
    have hc : ∀ r, cel ((sa.set a (cel sa b)).set b t) r = if r = b then t else if r = a then cel sa b else cel sa r := fun r => by
      rw [cel_set (by rw [List.length_set]; omega), cel_set (by omega)]
    refine ⟨1, _, Nat.le_refl _, by omega, by simp, fun i _ _ => by omega, ?_, fun i _ _ => by omega, ?_, Or.inl ⟨rfl, rfl, ?_⟩⟩
    · intro i hi
      rw [hc, if_neg (by omega), if_pos (by omega), show b + i = b by omega]
    · intro r h5 h6
      rw [hc, if_neg (by omega), if_neg (by omega)]
    · rw [hc, if_pos rfl]
  | succ n ih =>
    intro sa a b h1 h2 h3 h4
    rw [mfLeft, bind_some' (get_cel (by omega)), bind_some' (put_spec (by omega) _)]
    by_cases hb : bufend ≤ b
    · have : b = bufend := by omega
      subst this
      rw [if_pos (Nat.le_refl _), bind_some' (put_spec (by rw [List.length_set]; omega) _)]
      have hc : ∀ r, cel ((sa.set a (cel sa b)).set b t) r = if r = b then t else if r = a then cel sa b else cel sa r := fun r => by
        rw [cel_set (by rw [List.length_set]; omega), cel_set (by omega)]
      refine ⟨1, _, Nat.le_refl _, by omega, by simp, fun i _ _ => by omega, ?_, fun i _ _ => by omega, ?_, Or.inl ⟨rfl, rfl, ?_⟩⟩
      · intro i hi
        rw [hc, if_neg (by omega), if_pos (by omega), show b + i = b by omega]
      · intro r h5 h6
        rw [hc, if_neg (by omega), if_neg (by omega)]
      · rw [hc, if_pos rfl]
    · rw [if_neg hb, bind_some' (get_cel (by rw [List.length_set]; omega)), bind_some' (put_spec (by rw [List.length_set]; omega) _),
        bind_some' (get_cel (by rw [List.length_set, List.length_set]; omega))]
      have hs : cel (sa.set a (cel sa b)) (a + 1) = cel sa (a + 1) := cel_set_ne _ (by omega)
      rw [hs]
      have hc : ∀ r, cel ((sa.set a (cel sa b)).set b (cel sa (a + 1))) r = if r = b then cel sa (a + 1) else if r = a then cel sa b else cel sa r := fun r => by
        rw [cel_set (by rw [List.length_set]; omega), cel_set (by omega)]
      have hz : cel ((sa.set a (cel sa b)).set b (cel sa (a + 1))) (b + 1) = cel sa (b + 1) := by
        rw [hc, if_neg (by omega), if_neg (by omega)]
      rw [hz]
      by_cases hneg : cel sa (b + 1) < 0
      · rw [if_pos hneg]
        obtain ⟨L, sa', k1, k2, k3, k4, k5, k6, k7, k8⟩ := ih ((sa.set a (cel sa b)).set b (cel sa (a + 1))) (a + 1) (b + 1) (by omega) (by omega) (by omega) (by simp; omega)
        refine ⟨L + 1, sa', by omega, by omega, by rw [k3]; simp, ?_, ?_, ?_, ?_, ?_⟩
        · intro i hi1 hi2
          by_cases hi : i = 1
          · rw [hi]; exact hneg
          · have := k4 (i - 1) (by omega) (by omega)
            rw [hc, if_neg (by omega), if_neg (by omega), show b + 1 + (i - 1) = b + i by omega] at this
            exact this
        · intro i hi
          by_cases hi0 : i = 0
          · subst hi0
            rw [k7 _ (by omega) (by omega), hc, if_neg (by omega), if_pos (by omega)]
            rfl
          · have := k5 (i - 1) (by omega)
            rw [hc, if_neg (by omega), if_neg (by omega), show b + 1 + (i - 1) = b + i by omega, show a + 1 + (i - 1) = a + i by omega] at this
            exact this
        · intro i hi hi2
          by_cases hi0 : i = 0
          · subst hi0
            rw [k7 _ (by omega) (by omega), hc, if_pos (by omega)]
          · have := k6 (i - 1) (by omega) (by omega)
            rw [hc, if_neg (by omega), if_neg (by omega), show b + 1 + (i - 1) = b + i by omega, show a + 1 + 1 + (i - 1) = a + 1 + i by omega] at this
            exact this
        · intro r hr1 hr2
          rw [k7 r (by omega) (by omega), hc, if_neg (by omega), if_neg (by omega)]
        · rcases k8 with ⟨h5, h6, h7⟩ | ⟨h5, h6, h7⟩
          · exact Or.inl ⟨by omega, h6, h7⟩
          · refine Or.inr ⟨by omega, ?_, ?_⟩
            · rw [hc, if_neg (by omega), if_neg (by omega), show b + 1 + L = b + (L + 1) by omega] at h6
              exact h6
            · rw [h7, show a + 1 + L = a + (L + 1) by omega, show b + 1 + L = b + (L + 1) by omega]
      · rw [if_neg hneg]
        refine ⟨1, _, Nat.le_refl _, by omega, by simp, fun i _ _ => by omega, ?_, ?_, ?_, Or.inr ⟨by omega, by omega, rfl⟩⟩
        · intro i hi
          rw [hc, if_neg (by omega), if_pos (by omega), show b + i = b by omega]
        · intro i hi _
          rw [hc, if_pos (by omega), show a + 1 + i = a + 1 by omega]
        · intro r h5 h6
          rw [hc, if_neg (by omega), if_neg (by omega)]

theorem shiftUp_spec {sa : List Int} {a b : Nat} (ha : a + 1 ≤ b) (hb : b < sa.length) :
    ∃ sa', shiftUp sa a b = some sa' ∧ sa'.length = sa.length ∧ (∀ r, cel sa' r = if r = b then cel sa (a + 1) else if r = a then cel sa b else cel sa r) := by
  unfold shiftUp
  rw [bind_some' (get_cel hb), bind_some' (put_spec (by omega) _), bind_some' (get_cel (by rw [List.length_set]; omega)), cel_set_ne _ (by omega)]
  refine ⟨_, put_spec (by rw [List.length_set]; omega) _, by simp, fun r => ?_⟩
  rw [cel_set (by rw [List.length_set]; omega), cel_set (by omega)]

theorem mfRest_spec {bufend : Nat} {t : Int} : ∀ (n : Nat) (sa : List Int) (a b : Nat), bufend - b ≤ n → b ≤ bufend → a + (bufend - b) + 1 ≤ b →
    bufend < sa.length →
    ∃ sa', mfRest bufend t sa a b = some sa' ∧ sa'.length = sa.length ∧ (∀ i, b + i ≤ bufend → cel sa' (a + i) = cel sa (b + i)) ∧
      (∀ i, b + i < bufend → cel sa' (b + i) = cel sa (a + 1 + i)) ∧ cel sa' bufend = t ∧
      (∀ r, r < a ∨ a + (bufend - b) < r → r < b ∨ bufend < r → cel sa' r = cel sa r) := by
  intro n
  induction n with
  | zero =>
    intro sa a b h1 h2 h3 h4
    have : b = bufend := by omega
    subst this
    rw [mfRest, if_neg (by omega), bind_some' (get_cel (by omega)), bind_some' (put_spec (by omega) _)]
    have hc : ∀ r, cel ((sa.set a (cel sa b)).set b t) r = if r = b then t else if r = a then cel sa b else cel sa r := fun r => by
      rw [cel_set (by rw [List.length_set]; omega), cel_set (by omega)]
    refine ⟨_, put_spec (by rw [List.length_set]; omega) _, by simp, ?_, fun i _ => by omega, ?_, ?_⟩
    · intro i hi
      rw [hc, if_neg (by omega), if_pos (by omega), show b + i = b by omega]
    · rw [hc, if_pos rfl]
    · intro r h5 h6
      rw [hc, if_neg (by omega), if_neg (by omega)]
  | succ n ih =>
    intro sa a b h1 h2 h3 h4
    rw [mfRest]
    by_cases hb : b < bufend
    · rw [if_pos hb]
      obtain ⟨sa1, e1, l1, hc⟩ := shiftUp_spec (sa := sa) (a := a) (b := b) (by omega) (by omega)
      rw [bind_some' e1]
      obtain ⟨sa', e, k1, k2, k3, k4, k5⟩ := ih sa1 (a + 1) (b + 1) (by omega) (by omega) (by omega) (by omega)
      refine ⟨sa', e, by omega, ?_, ?_, k4, ?_⟩
      · intro i hi
        by_cases hi0 : i = 0
        · subst hi0
          rw [k5 _ (by omega) (by omega), hc, if_neg (by omega), if_pos (by omega)]
          rfl
        · have := k2 (i - 1) (by omega)
          rw [hc, if_neg (by omega), if_neg (by omega), show b + 1 + (i - 1) = b + i by omega, show a + 1 + (i - 1) = a + i by omega] at this
          exact this
      · intro i hi
        by_cases hi0 : i = 0
        · subst hi0
          rw [k5 _ (by omega) (by omega), hc, if_pos (by omega)]
        · have := k3 (i - 1) (by omega)
          rw [hc, if_neg (by omega), if_neg (by omega), show b + 1 + (i - 1) = b + i by omega, show a + 1 + 1 + (i - 1) = a + 1 + i by omega] at this
          exact this
      · intro r hr1 hr2
        rw [k5 r (by omega) (by omega), hc, if_neg (by omega), if_neg (by omega)]
    · rw [if_neg hb]
      have : b = bufend := by omega
      subst this
      rw [bind_some' (get_cel (by omega)), bind_some' (put_spec (by omega) _)]
      have hc : ∀ r, cel ((sa.set a (cel sa b)).set b t) r = if r = b then t else if r = a then cel sa b else cel sa r := fun r => by
        rw [cel_set (by rw [List.length_set]; omega), cel_set (by omega)]
      refine ⟨_, put_spec (by rw [List.length_set]; omega) _, by simp, ?_, fun i _ => by omega, ?_, ?_⟩
      · intro i hi
        rw [hc, if_neg (by omega), if_pos (by omega), show b + i = b by omega]
      · rw [hc, if_pos rfl]
      · intro r h5 h6
        rw [hc, if_neg (by omega), if_neg (by omega)]

/-- The junk between `a + 1` and `c` moves up by one. -/
theorem shiftUp_junk {sa sa' : List Int} {a c : Nat} (ha : a + 1 ≤ c) (hc : ∀ r, cel sa' r = if r = c then cel sa (a + 1) else if r = a then cel sa c else cel sa r) :
    (∀ v, occ (cel sa') (a + 2) (c + 1) v = occ (cel sa) (a + 1) c v) ∧
    ∀ (J : Int → Prop), (∀ r, a + 1 ≤ r → r < c → J (cel sa r)) → ∀ r, a + 2 ≤ r → r < c + 1 → J (cel sa' r) := by
  constructor
  · intro v
    rcases Nat.lt_or_ge (a + 1) c with h | h
    · rw [occ_succ _ (show a + 2 ≤ c by omega), occ_first (cel sa) h, show a + 1 + 1 = a + 2 from rfl]
      have h1 : cel sa' c = cel sa (a + 1) := by rw [hc, if_pos rfl]
      rw [h1, occ_congr (f := cel sa') (g := cel sa) (a := a + 2) (b := c) (fun r h2 h3 => by rw [hc, if_neg (by omega), if_neg (by omega)])]
      omega
    · rw [occ_le _ (by omega), occ_le _ (by omega)]
  · intro J h r h1 h2
    rw [hc]
    by_cases h3 : r = c
    · rw [if_pos h3]; exact h (a + 1) (by omega) (by omega)
    · rw [if_neg h3, if_neg (by omega)]; exact h r (by omega) (by omega)

theorem mfRight_spec {bufend last : Nat} {t : Int} {b : Nat} (J : Int → Prop) : ∀ (n : Nat) (sa : List Int) (a c : Nat), last - c ≤ n → a + 1 ≤ c → c < last → last ≤ sa.length →
    ∃ L sa', 1 ≤ L ∧ c + L ≤ last ∧ sa'.length = sa.length ∧ (∀ i, 1 ≤ i → i < L → cel sa (c + i) < 0) ∧
      (∀ i, i < L → cel sa' (a + i) = cel sa (c + i)) ∧ (∀ v, occ (cel sa') (a + L + 1) (c + L) v = occ (cel sa) (a + 1) c v) ∧
      ((∀ r, a + 1 ≤ r → r < c → J (cel sa r)) → ∀ r, a + L + 1 ≤ r → r < c + L → J (cel sa' r)) ∧
      (∀ r, r < a ∨ c + L ≤ r → cel sa' r = cel sa r) ∧
      ((c + L = last ∧ mfRight bufend last t b sa a c = (mfRest bufend t sa' (a + L) b).bind (fun s => some (s, none))) ∨
       (c + L < last ∧ 0 ≤ cel sa (c + L) ∧ mfRight bufend last t b sa a c = some (sa', some (a + L, c + L)))) := by
  intro n
  induction n with
  | zero => intro sa a c h1 h2 h3; omega
  | succ n ih =>
    intro sa a c h1 h2 h3 h4
    rw [mfRight]
    obtain ⟨sa1, e1, l1, hc⟩ := shiftUp_spec (sa := sa) (a := a) (b := c) h2 (by omega)
    rw [bind_some' e1]
    obtain ⟨q1, q2⟩ := shiftUp_junk h2 hc
    have base : ∀ i, i < 1 → cel sa1 (a + i) = cel sa (c + i) := by
      intro i hi
      rw [show a + i = a by omega, show c + i = c by omega, hc]
      by_cases hac : a = c
      · omega
      · rw [if_neg hac, if_pos rfl]
    by_cases hl : last ≤ c + 1
    · rw [if_pos hl]
      refine ⟨1, sa1, Nat.le_refl _, by omega, l1, fun i _ _ => by omega, base, q1, q2 J, ?_, Or.inl ⟨by omega, rfl⟩⟩
      intro r hr
      rw [hc, if_neg (by omega), if_neg (by omega)]
    · rw [if_neg hl, bind_some' (get_cel (by omega))]
      have hz : cel sa1 (c + 1) = cel sa (c + 1) := by rw [hc, if_neg (by omega), if_neg (by omega)]
      rw [hz]
      by_cases hneg : cel sa (c + 1) < 0
      · rw [if_pos hneg]
        obtain ⟨L, sa', k1, k2, k3, k4, k5, k6, k7, k8, k9⟩ := ih sa1 (a + 1) (c + 1) (by omega) (by omega) (by omega) (by omega)
        refine ⟨L + 1, sa', by omega, by omega, by omega, ?_, ?_, ?_, ?_, ?_, ?_⟩
        · intro i hi1 hi2
          by_cases hi : i = 1
          · rw [hi]; exact hneg
          · have := k4 (i - 1) (by omega) (by omega)
            rw [hc, if_neg (by omega), if_neg (by omega), show c + 1 + (i - 1) = c + i by omega] at this
            exact this
        · intro i hi
          by_cases hi0 : i = 0
          · subst hi0
            rw [k8 _ (by omega)]; exact base 0 (by omega)
          · have := k5 (i - 1) (by omega)
            rw [hc, if_neg (by omega), if_neg (by omega), show c + 1 + (i - 1) = c + i by omega, show a + 1 + (i - 1) = a + i by omega] at this
            exact this
        · intro v
          have := k6 v
          rw [show a + 1 + L + 1 = a + (L + 1) + 1 by omega, show c + 1 + L = c + (L + 1) by omega] at this
          rw [this]; exact q1 v
        · intro h r hr1 hr2
          exact k7 (q2 J h) r (by omega) (by omega)
        · intro r hr
          rw [k8 r (by omega), hc, if_neg (by omega), if_neg (by omega)]
        · rcases k9 with ⟨h5, h6⟩ | ⟨h5, h6, h7⟩
          · exact Or.inl ⟨by omega, by rw [h6, show a + 1 + L = a + (L + 1) by omega]⟩
          · refine Or.inr ⟨by omega, ?_, ?_⟩
            · rw [hc, if_neg (by omega), if_neg (by omega), show c + 1 + L = c + (L + 1) by omega] at h6
              exact h6
            · rw [h7, show a + 1 + L = a + (L + 1) by omega, show c + 1 + L = c + (L + 1) by omega]
      · rw [if_neg hneg]
        refine ⟨1, sa1, Nat.le_refl _, by omega, l1, fun i _ _ => by omega, base, q1, q2 J, ?_, Or.inr ⟨by omega, by omega, rfl⟩⟩
        intro r hr
        rw [hc, if_neg (by omega), if_neg (by omega)]

/-! ## The loop -/

/-- The state of the merge: what is in place before `a`, what is left of the first run from `b` on in the buffer, what is left of the second
run from `c` on; the other cells hold what was in the buffer. `K` are the keys, `o` is the array after the exchange with the buffer. -/
structure Fwd (K : Nat → List Nat) (J : Int → Prop) (first middle last buf bufend : Nat) (t : Int) (o sa : List Int) (a b c : Nat) : Prop where
  ha : first ≤ a
  hb : buf ≤ b
  hb' : b ≤ bufend
  hm : middle ≤ c
  hc : c < last
  pos : a + (bufend - b) + 1 = c
  len : sa.length = o.length
  sameB : ∀ r, b ≤ r → r ≤ bufend → cel sa r = cel o r
  sameC : ∀ r, c < r → r < last → cel sa r = cel o r
  atC : dec (cel sa c) = dec (cel o c)
  off : ∀ r, r < first ∨ last ≤ r → r < buf ∨ bufend < r → cel sa r = cel o r
  srt : Srt K first a (cel sa)
  out : ∀ v, occ (cel sa) first a v = occ (cel o) buf b v + occ (cel o) middle c v
  junk : ∀ v, bit t v + occ (cel sa) (a + 1) c v + occ (cel sa) buf b v = occ (cel o) first middle v
  jt : J t
  jac : ∀ r, a + 1 ≤ r → r < c → J (cel sa r)
  jbuf : ∀ r, buf ≤ r → r < b → J (cel sa r)

/-- The end of the merge. -/
structure FEnd (K : Nat → List Nat) (J : Int → Prop) (first middle last buf bufend : Nat) (o sa : List Int) : Prop where
  len : sa.length = o.length
  off : ∀ r, r < first ∨ last ≤ r → r < buf ∨ bufend < r → cel sa r = cel o r
  srt : Srt K first last (cel sa)
  out : ∀ v, occ (cel sa) first last v = occ (cel o) buf (bufend + 1) v + occ (cel o) middle last v
  junk : ∀ v, occ (cel sa) buf (bufend + 1) v = occ (cel o) first middle v
  jbuf : ∀ r, buf ≤ r → r ≤ bufend → J (cel sa r)

/-- What stands at `y` can follow what is in place before `a`. -/
def Conn (K : Nat → List Nat) (first a : Nat) (sa : List Int) (y : Int) : Prop :=
  (first < a → Stp K (cel sa (a - 1)) y) ∧ (a = first → 0 ≤ y)

variable {K : Nat → List Nat} {J : Int → Prop} {first middle last buf bufend : Nat} {t : Int} {o : List Int}

/-- The group at `b` is put in place. -/
theorem left_spec {sa : List Int} {a b c : Nat} (h : Fwd K J first middle last buf bufend t o sa a b c) (hl : last ≤ buf) (hbl : bufend < o.length)
    (hB : Srt K buf (bufend + 1) (cel o)) (hC : Srt K middle last (cel o)) (h1 : Conn K first a sa (cel sa b)) (h2 : Stp K (cel sa b) (cel sa c)) :
    ∃ sa', (mfLeft bufend t sa a b = some (sa', none) ∧ FEnd K J first middle last buf bufend o sa') ∨
      ∃ a' b', mfLeft bufend t sa a b = some (sa', some (a', b')) ∧ Fwd K J first middle last buf bufend t o sa' a' b' c ∧ b < b' ∧ first < a' ∧
        0 ≤ cel sa' b' ∧ cel sa' c = cel sa c ∧ Stp K (cel sa' (a' - 1)) (cel sa' b') ∧ Stp K (cel sa' (a' - 1)) (cel sa c) ∧
        K (dec (cel sa' (a' - 1))) = K (dec (cel sa b)) := by
  obtain ⟨L, sa', k1, k2, k3, k4, k5, k6, k7, k8⟩ := mfLeft_spec (bufend := bufend) (t := t) (bufend - b) sa a b (Nat.le_refl _) h.hb' (by have := h.pos; have := h.hc; have := h.hb; omega) (by have := h.len; omega)
  have hpos := h.pos
  have hhb := h.hb
  have hhc := h.hc
  have hha := h.ha
  have hhm := h.hm
  have hlen := h.len
  have hstep : ∀ i, i + 1 < L → Stp K (cel sa (b + i)) (cel sa (b + i + 1)) := by
    intro i hi
    rw [h.sameB _ (by omega) (by omega), h.sameB _ (by omega) (by omega)]
    exact hB.stp (by omega) (by omega)
  have hkey := group_key (K := K) (f := cel sa) (b := b) L hstep k4
  have hsrt : Srt K first (a + L) (cel sa') :=
    srt_copy h.srt (fun r _ hr => k7 r (by omega) (by omega)) k5 hstep hha (fun h3 _ => h1.1 h3) (fun h3 _ => h1.2 h3)
  have hlast : cel sa' (a + L - 1) = cel sa (b + L - 1) := by
    have := k5 (L - 1) (by omega)
    rw [show a + (L - 1) = a + L - 1 by omega, show b + (L - 1) = b + L - 1 by omega] at this
    exact this
  have hkl : K (dec (cel sa' (a + L - 1))) = K (dec (cel sa b)) := by
    rw [hlast, show b + L - 1 = b + (L - 1) by omega]; exact hkey (L - 1) (by omega)
  have hout : ∀ v, occ (cel sa') first (a + L) v = occ (cel o) buf (b + L) v + occ (cel o) middle c v := by
    intro v
    rw [occ_split (cel sa') (c := a) hha (by omega), occ_split (cel o) (a := buf) (c := b) (by omega) (show b ≤ b + L by omega),
      occ_congr (f := cel sa') (g := cel sa) (a := first) (b := a) (fun r h3 h4 => by rw [k7 r (by omega) (by omega)]), h.out v,
      occ_map (f := cel o) (g := cel sa') a b L (fun i hi => by rw [k5 i hi, h.sameB _ (by omega) (by omega)])]
    omega
  have hcc : cel sa' c = cel sa c := by
    refine k7 c ?_ (by omega)
    omega
  have hstc : Stp K (cel sa' (a + L - 1)) (cel sa c) := by
    unfold Stp; rw [hkl]; exact h2
  have hcs : ∀ r, c < r → r < last → cel sa' r = cel o r := by
    intro r h3 h4
    rw [k7 r (by omega) (by omega), h.sameC r h3 h4]
  have hoff : ∀ r, r < first ∨ last ≤ r → r < buf ∨ bufend < r → cel sa' r = cel o r := by
    intro r h3 h4
    rw [k7 r (by omega) (by omega), h.off r h3 h4]
  rcases k8 with ⟨e1, e2, e3⟩ | ⟨e1, e2, e3⟩
  · refine ⟨sa', Or.inl ⟨e2, ?_⟩⟩
    have hac : a + L = c := by omega
    refine ⟨by omega, hoff, ?_, ?_, ?_, ?_⟩
    · have := srt_copy (L := last - c) (b := c) (g := cel sa') (h := cel sa') hsrt (fun _ _ _ => rfl) (fun i _ => by rw [hac]) (fun i hi => ?_) (by omega) (fun h3 _ => ?_) (fun h3 _ => by omega)
      · rw [show a + L + (last - c) = last by omega] at this
        exact this
      · by_cases hi0 : i = 0
        · subst hi0
          have := hC.stp (r := c) (by omega) (by omega)
          rw [Nat.add_zero, hcs (c + 1) (by omega) (by omega), hcc]
          unfold Stp at this ⊢
          rw [h.atC]; exact this
        · rw [hcs _ (by omega) (by omega), hcs _ (by omega) (by omega)]
          exact hC.stp (by omega) (by omega)
      · rw [hcc]; exact hstc
    · intro v
      rw [occ_split (cel sa') (c := a + L) (by omega) (show a + L ≤ last by omega), hout v, e1, hac, occ_split (cel o) (a := middle) (c := c) hhm (show c ≤ last by omega),
        occ_congr (f := cel sa') (g := cel o) (a := c) (b := last) (fun r h3 h4 => ?_)]
      · omega
      · by_cases hrc : r = c
        · subst hrc; rw [hcc, h.atC]
        · rw [hcs r (by omega) h4]
    · intro v
      rw [occ_succ _ (by omega), e3, ← h.junk v, occ_split (cel sa') (a := buf) (c := b) hhb h.hb',
        occ_congr (f := cel sa') (g := cel sa) (a := buf) (b := b) (fun r h3 h4 => by rw [k7 r (by omega) (by omega)])]
      have := occ_map (f := cel sa) (g := cel sa') b (a + 1) (bufend - b) (fun i hi => by rw [k6 i (by omega) (by omega)]) v
      rw [show b + (bufend - b) = bufend by omega, show a + 1 + (bufend - b) = c by omega] at this
      omega
    · intro r h3 h4
      by_cases hr : r < b
      · rw [k7 r (by omega) (by omega)]; exact h.jbuf r h3 hr
      · by_cases hr2 : r = bufend
        · rw [hr2, e3]; exact h.jt
        · have := k6 (r - b) (by omega) (by omega)
          rw [show b + (r - b) = r by omega] at this
          rw [this]
          exact h.jac _ (by omega) (by omega)
  · have hbb : cel sa' (b + L) = cel sa (b + L) := k7 _ (by omega) (by omega)
    refine ⟨sa', Or.inr ⟨a + L, b + L, e3, ?_, by omega, by omega, by rw [hbb]; exact e2, hcc, ?_, hstc, hkl⟩⟩
    · refine ⟨by omega, by omega, e1, hhm, hhc, by omega, by omega, ?_, hcs, by rw [hcc]; exact h.atC, hoff, hsrt, hout, ?_, h.jt, ?_, ?_⟩
      · intro r h3 h4
        rw [k7 r (by omega) (by omega)]; exact h.sameB r (by omega) h4
      · intro v
        rw [← h.junk v, occ_split (cel sa') (a := buf) (c := b) hhb (show b ≤ b + L by omega),
          occ_congr (f := cel sa') (g := cel sa) (a := buf) (b := b) (fun r h3 h4 => by rw [k7 r (by omega) (by omega)]),
          occ_split (cel sa) (a := a + 1) (c := a + 1 + L) (by omega) (show a + 1 + L ≤ c by omega),
          occ_map (f := cel sa) (g := cel sa') b (a + 1) L (fun i hi => by rw [k6 i hi (by omega)]),
          show a + L + 1 = a + 1 + L by omega,
          occ_congr (f := cel sa') (g := cel sa) (a := a + 1 + L) (b := c) (fun r h3 h4 => by rw [k7 r (by omega) (by omega)])]
        omega
      · intro r h3 h4
        rw [k7 r (by omega) (by omega)]; exact h.jac r (by omega) h4
      · intro r h3 h4
        by_cases hr : r < b
        · rw [k7 r (by omega) (by omega)]; exact h.jbuf r h3 hr
        · have := k6 (r - b) (by omega) (by omega)
          rw [show b + (r - b) = r by omega] at this
          rw [this]
          exact h.jac _ (by omega) (by omega)
    · rw [hbb, hlast, h.sameB (b + L) (by omega) (by omega), h.sameB (b + L - 1) (by omega) (by omega)]
      have := hB.stp (r := b + L - 1) (by omega) (by omega)
      rw [show b + L - 1 + 1 = b + L by omega] at this
      exact this

/-- The group at `c` is put in place. -/
theorem right_spec {sa : List Int} {a b c : Nat} (h : Fwd K J first middle last buf bufend t o sa a b c) (hl : last ≤ buf) (hbl : bufend < o.length)
    (hB : Srt K buf (bufend + 1) (cel o)) (hC : Srt K middle last (cel o)) (h1 : Conn K first a sa (cel sa c)) (h2 : Stp K (cel sa c) (cel sa b)) :
    ∃ sa', (mfRight bufend last t b sa a c = some (sa', none) ∧ FEnd K J first middle last buf bufend o sa') ∨
      ∃ a' c', mfRight bufend last t b sa a c = some (sa', some (a', c')) ∧ Fwd K J first middle last buf bufend t o sa' a' b c' ∧ c < c' ∧ first < a' ∧
        0 ≤ cel sa' c' ∧ cel sa' b = cel sa b ∧ Stp K (cel sa' (a' - 1)) (cel sa' c') ∧ Stp K (cel sa' (a' - 1)) (cel sa b) := by
  have hpos := h.pos
  have hhb := h.hb
  have hhb' := h.hb'
  have hhc := h.hc
  have hha := h.ha
  have hhm := h.hm
  have hlen := h.len
  obtain ⟨L, sa', k1, k2, k3, k4, k5, k6, k7, k8, k9⟩ := mfRight_spec (bufend := bufend) (last := last) (t := t) (b := b) J (last - c) sa a c (Nat.le_refl _) (by omega) hhc (by omega)
  have hstep : ∀ i, i + 1 < L → Stp K (cel sa (c + i)) (cel sa (c + i + 1)) := by
    intro i hi
    by_cases hi0 : i = 0
    · subst hi0
      have := hC.stp (r := c) (by omega) (by omega)
      rw [Nat.add_zero, h.sameC (c + 1) (by omega) (by omega)]
      unfold Stp at this ⊢
      rw [h.atC]; exact this
    · rw [h.sameC _ (by omega) (by omega), h.sameC _ (by omega) (by omega)]
      exact hC.stp (by omega) (by omega)
  have hkey := group_key (K := K) (f := cel sa) (b := c) L hstep k4
  have hsrt : Srt K first (a + L) (cel sa') :=
    srt_copy h.srt (fun r _ hr => k8 r (by omega)) k5 hstep hha (fun h3 _ => h1.1 h3) (fun h3 _ => h1.2 h3)
  have hlast : cel sa' (a + L - 1) = cel sa (c + L - 1) := by
    have := k5 (L - 1) (by omega)
    rw [show a + (L - 1) = a + L - 1 by omega, show c + (L - 1) = c + L - 1 by omega] at this
    exact this
  have hkl : K (dec (cel sa' (a + L - 1))) = K (dec (cel sa c)) := by
    rw [hlast, show c + L - 1 = c + (L - 1) by omega]; exact hkey (L - 1) (by omega)
  have hdc : ∀ i, i < L → dec (cel sa (c + i)) = dec (cel o (c + i)) := by
    intro i hi
    by_cases hi0 : i = 0
    · subst hi0; exact h.atC
    · rw [h.sameC _ (by omega) (by omega)]
  have hout : ∀ v, occ (cel sa') first (a + L) v = occ (cel o) buf b v + occ (cel o) middle (c + L) v := by
    intro v
    rw [occ_split (cel sa') (c := a) hha (by omega), occ_split (cel o) (a := middle) (c := c) (by omega) (show c ≤ c + L by omega),
      occ_congr (f := cel sa') (g := cel sa) (a := first) (b := a) (fun r h3 h4 => by rw [k8 r (by omega)]), h.out v,
      occ_map (f := cel o) (g := cel sa') a c L (fun i hi => by rw [k5 i hi, hdc i hi])]
    omega
  have hstb : Stp K (cel sa' (a + L - 1)) (cel sa b) := by
    unfold Stp; rw [hkl]; exact h2
  have hbs : ∀ r, last ≤ r → cel sa' r = cel sa r := fun r h3 => k8 r (by omega)
  have hoff : ∀ r, r < first ∨ last ≤ r → r < buf ∨ bufend < r → cel sa' r = cel o r := by
    intro r h3 h4
    rw [k8 r (by omega), h.off r h3 h4]
  have hj := k7 h.jac
  rcases k9 with ⟨e1, e2⟩ | ⟨e1, e2, e3⟩
  · obtain ⟨sa2, q0, q1, q2, q3, q4, q5⟩ := mfRest_spec (bufend := bufend) (t := t) (bufend - b) sa' (a + L) b (Nat.le_refl _) hhb' (by omega) (by omega)
    refine ⟨sa2, Or.inl ⟨by rw [e2, q0]; rfl, ?_⟩⟩
    refine ⟨by omega, ?_, ?_, ?_, ?_, ?_⟩
    · intro r h3 h4
      rw [q5 r (by omega) (by omega), hoff r h3 h4]
    · have := srt_copy (L := bufend - b + 1) (b := b) (g := cel sa2) (h := cel sa') hsrt (fun r _ h4 => q5 r (by omega) (by omega))
        (fun i hi => q2 i (by omega)) (fun i hi => ?_) (by omega) (fun h3 _ => ?_) (fun h3 _ => by omega)
      · rw [show a + L + (bufend - b + 1) = last by omega] at this
        exact this
      · rw [hbs _ (by omega), hbs _ (by omega), h.sameB _ (by omega) (by omega), h.sameB _ (by omega) (by omega)]
        exact hB.stp (by omega) (by omega)
      · rw [hbs b (by omega)]; exact hstb
    · intro v
      rw [occ_split (cel sa2) (c := a + L) (by omega) (show a + L ≤ last by omega),
        occ_congr (f := cel sa2) (g := cel sa') (a := first) (b := a + L) (fun r h3 h4 => by rw [q5 r (by omega) (by omega)]), hout v, e1,
        occ_split (cel o) (a := buf) (c := b) hhb (show b ≤ bufend + 1 by omega)]
      have := occ_map (f := cel o) (g := cel sa2) (a + L) b (bufend - b + 1) (fun i hi => by rw [q2 i (by omega), hbs _ (by omega), h.sameB _ (by omega) (by omega)]) v
      rw [show a + L + (bufend - b + 1) = last by omega, show b + (bufend - b + 1) = bufend + 1 by omega] at this
      omega
    · intro v
      rw [occ_succ _ (by omega), q4, ← h.junk v, occ_split (cel sa2) (a := buf) (c := b) hhb hhb',
        occ_congr (f := cel sa2) (g := cel sa) (a := buf) (b := b) (fun r h3 h4 => by rw [q5 r (by omega) (by omega), hbs r (by omega)]), ← k6 v]
      have := occ_map (f := cel sa') (g := cel sa2) b (a + L + 1) (bufend - b) (fun i hi => by rw [q3 i (by omega)]) v
      rw [show b + (bufend - b) = bufend by omega, show a + L + 1 + (bufend - b) = c + L by omega] at this
      omega
    · intro r h3 h4
      by_cases hr : r < b
      · rw [q5 r (by omega) (by omega), hbs r (by omega)]; exact h.jbuf r h3 hr
      · by_cases hr2 : r = bufend
        · rw [hr2, q4]; exact h.jt
        · have := q3 (r - b) (by omega)
          rw [show b + (r - b) = r by omega] at this
          rw [this]
          exact hj _ (by omega) (by omega)
  · have hccL : cel sa' (c + L) = cel sa (c + L) := k8 _ (by omega)
    refine ⟨sa', Or.inr ⟨a + L, c + L, e3, ?_, by omega, by omega, by rw [hccL]; exact e2, hbs b (by omega), ?_, hstb⟩⟩
    · refine ⟨by omega, hhb, hhb', by omega, e1, by omega, by omega, ?_, ?_, ?_, hoff, hsrt, hout, ?_, h.jt, hj, ?_⟩
      · intro r h3 h4
        rw [hbs r (by omega)]; exact h.sameB r (by omega) h4
      · intro r h3 h4
        rw [k8 r (by omega)]; exact h.sameC r (by omega) h4
      · rw [hccL, h.sameC _ (by omega) e1]
      · intro v
        rw [← h.junk v, k6 v, occ_congr (f := cel sa') (g := cel sa) (a := buf) (b := b) (fun r h3 h4 => by rw [hbs r (by omega)])]
      · intro r h3 h4
        rw [hbs r (by omega)]; exact h.jbuf r h3 h4
    · rw [hccL, hlast, h.sameC (c + L) (by omega) e1]
      have h5 := hC.stp (r := c + L - 1) (by omega) (by omega)
      rw [show c + L - 1 + 1 = c + L by omega] at h5
      have h6 := hdc (L - 1) (by omega)
      rw [show c + (L - 1) = c + L - 1 by omega] at h6
      unfold Stp at h5 ⊢
      rw [h6]; exact h5

theorem mfLoop_spec (hl : last ≤ buf) (hbl : bufend < pa) (hB : Srt (sub T P m) buf (bufend + 1) (cel o)) (hC : Srt (sub T P m) middle last (cel o))
    (hE : Env T P m pa o) (hpa : pa ≤ o.length)
    (hgB : ∀ r, buf ≤ r → r ≤ bufend → Good T P m W (dec (cel o r))) (hgC : ∀ r, middle ≤ r → r < last → Good T P m W (dec (cel o r))) :
    ∀ (n : Nat) (sa : List Int) (a b c : Nat), (bufend - b) + (last - c) ≤ n → Fwd (sub T P m) J first middle last buf bufend t o sa a b c →
      Conn (sub T P m) first a sa (cel sa b) → Conn (sub T P m) first a sa (cel sa c) → 0 ≤ cel sa b → 0 ≤ cel sa c →
      ∃ sa', mfLoop T pa W.length bufend last t sa a b c = some sa' ∧ FEnd (sub T P m) J first middle last buf bufend o sa' := by
  intro n
  induction n with
  | zero => intro sa a b c h1 h; have := h.hc; omega
  | succ n ih =>
    intro sa a b c hn h hcB hcC hb0 hc0
    have hpos := h.pos
    have hhb := h.hb
    have hhb' := h.hb'
    have hhc := h.hc
    have hhm := h.hm
    have hlen := h.len
    have hEs : Env T P m pa sa := hE.frame hlen (fun r hr => h.off r (by omega) (by omega))
    rw [mfLoop, bind_some' (get_cel (show b < sa.length by omega)), bind_some' (get_cel (show c < sa.length by omega))]
    obtain ⟨r, er, hr⟩ := hEs.compare (i := dec (cel sa b)) (j := dec (cel sa c)) (W := W) (by rw [h.sameB b (by omega) hhb']; exact hgB b hhb hhb')
      (by rw [h.atC]; exact hgC c hhm hhc)
    rw [← nat_of hb0, ← nat_of hc0] at er
    rw [bind_some' er]
    by_cases hr1 : r < 0
    · rw [if_pos hr1]
      obtain ⟨sa', k | ⟨a', b', e, k1, k2, k3, k4, k5, k6, k7, _⟩⟩ := left_spec h hl (by omega) hB hC hcB (Or.inl ⟨hc0, hr.lt hr1⟩)
      · exact ⟨sa', by rw [bind_some' k.1]; rfl, k.2⟩
      · rw [bind_some' e]
        have := k1.hb'
        exact ih sa' a' b' c (by omega) k1 ⟨fun _ => k6, fun h0 => by omega⟩ ⟨fun _ => by rw [k5]; exact k7, fun h0 => by omega⟩ k4 (by rw [k5]; exact hc0)
    · rw [if_neg hr1]
      by_cases hr2 : 0 < r
      · rw [if_pos hr2]
        obtain ⟨sa', k | ⟨a', c', e, k1, k2, k3, k4, k5, k6, k7⟩⟩ := right_spec h hl (by omega) hB hC hcC (Or.inl ⟨hb0, hr.gt hr2⟩)
        · exact ⟨sa', by rw [bind_some' k.1]; rfl, k.2⟩
        · rw [bind_some' e]
          have := k1.hc
          exact ih sa' a' b c' (by omega) k1 ⟨fun _ => by rw [k5]; exact k7, fun h0 => by omega⟩ ⟨fun _ => k6, fun h0 => by omega⟩ (by rw [k5]; exact hb0) k4
      · rw [if_neg hr2, bind_some' (put_spec (by omega) _)]
        have hrk := hr.eq (by omega)
        have hcl : c < sa.length := by omega
        have hs : ∀ r, r ≠ c → cel (sa.set c (inv (cel sa c))) r = cel sa r := fun r hr => cel_set_ne _ hr
        have hsc : cel (sa.set c (inv (cel sa c))) c = inv (cel sa c) := cel_set_self hcl _
        have hM : Fwd (sub T P m) J first middle last buf bufend t o (sa.set c (inv (cel sa c))) a b c := by
          have hha := h.ha
          refine ⟨h.ha, hhb, hhb', hhm, hhc, hpos, by simp [hlen], fun r h3 h4 => ?_, fun r h3 h4 => ?_, by rw [hsc, dec_inv]; exact h.atC,
            fun r h3 h4 => ?_, h.srt.congr (fun r h3 h4 => hs r (by omega)), fun v => ?_, fun v => ?_, h.jt, fun r h3 h4 => ?_, fun r h3 h4 => ?_⟩
          · rw [hs r (by omega)]; exact h.sameB r h3 h4
          · rw [hs r (by omega)]; exact h.sameC r h3 h4
          · have hr : r ≠ c := by
              have := h.ha
              omega
            rw [hs r hr]; exact h.off r h3 h4
          · rw [← h.out v]; exact occ_congr (fun r h3 h4 => by rw [hs r (by omega)]) v
          · rw [← h.junk v, occ_congr (f := cel (sa.set c (inv (cel sa c)))) (g := cel sa) (a := a + 1) (b := c) (fun r h3 h4 => by rw [hs r (by omega)]),
              occ_congr (f := cel (sa.set c (inv (cel sa c)))) (g := cel sa) (a := buf) (b := b) (fun r h3 h4 => by rw [hs r (by omega)])]
          · rw [hs r (by omega)]; exact h.jac r h3 h4
          · rw [hs r (by omega)]; exact h.jbuf r h3 h4
        have hsb : cel (sa.set c (inv (cel sa c))) b = cel sa b := hs b (by omega)
        obtain ⟨sa', k | ⟨a', b', e, k1, k2, k3, k4, k5, k6, k7, k8⟩⟩ := left_spec hM hl (by omega) hB hC
          (by rw [hsb]; exact ⟨fun h3 => by rw [hs (a - 1) (by omega)]; exact hcB.1 h3, hcB.2⟩)
          (by rw [hsb, hsc]; exact Or.inr ⟨(inv_neg_iff _).2 hc0, by rw [dec_inv]; exact hrk⟩)
        · exact ⟨sa', by rw [bind_some' k.1]; rfl, k.2⟩
        · rw [bind_some' e]
          have hbk : Stp (sub T P m) (cel sa' c) (cel sa' b') := by
            refine Or.inl ⟨k4, ?_⟩
            rcases k6 with k6 | k6
            · rw [k5, hsc, dec_inv, ← hrk, ← hsb, ← k8]; exact k6.2
            · exact absurd k6.1 (by omega)
          obtain ⟨sa2, q | ⟨a2, c2, e2, q1, q2, q3, q4, q5, q6, q7⟩⟩ := right_spec k1 hl (by omega) hB hC ⟨fun _ => by rw [k5]; exact k7, fun h0 => by omega⟩ hbk
          · refine ⟨sa2, ?_, q.2⟩
            show (mfRight bufend last t b' sa' a' c).bind _ = _
            rw [q.1]; rfl
          · have h1 := k1.hb'
            have h2 := q1.hc
            obtain ⟨s, es, hs'⟩ := ih sa2 a2 b' c2 (by omega) q1 ⟨fun _ => by rw [q5]; exact q7, fun h0 => by omega⟩ ⟨fun _ => q6, fun h0 => by omega⟩ (by rw [q5]; exact k4) q4
            refine ⟨s, ?_, hs'⟩
            show (mfRight bufend last t b' sa' a' c).bind _ = _
            rw [e2]; exact es

/-- What a merge with the help of a buffer of `n` cells does: the range is sorted, the buffer holds the same numbers as before, and what holds of
every cell of the buffer still does. -/
structure Merged (K : Nat → List Nat) (J : Int → Prop) (first last buf n : Nat) (sa sa' : List Int) : Prop where
  len : sa'.length = sa.length
  off : ∀ r, r < first ∨ last ≤ r → r < buf ∨ buf + n ≤ r → cel sa' r = cel sa r
  perm : Perm first last (cel sa) (cel sa')
  srt : Srt K first last (cel sa')
  bperm : Perm buf (buf + n) (cel sa) (cel sa')
  bj : (∀ r, buf ≤ r → r < buf + n → J (cel sa r)) → ∀ r, buf ≤ r → r < buf + n → J (cel sa' r)

/-- `ss_mergeforward` merges the two sorted ranges. -/
theorem mergeforward_spec (J : Int → Prop) {sa : List Int} (hE : Env T P m pa sa) (hpa : pa ≤ sa.length) (h1 : first < middle) (h2 : middle < last) (h3 : last ≤ buf)
    (h4 : buf + (middle - first) ≤ pa) (hA : Srt (sub T P m) first middle (cel sa)) (hC : Srt (sub T P m) middle last (cel sa))
    (hg : ∀ r, first ≤ r → r < last → Good T P m W (dec (cel sa r))) :
    ∃ sa', mergeforward T pa sa first middle last buf W.length = some sa' ∧ Merged (sub T P m) J first last buf (middle - first) sa sa' := by
  unfold mergeforward
  obtain ⟨o, e1, k1, k2, k3, k4⟩ := blockswap_spec' (middle - first) sa buf first (by omega) (by omega) (by omega)
  rw [bind_some' e1, bind_some' (get_cel (show first < o.length by omega)), if_neg (by omega)]
  have hb : ∀ r, buf ≤ r → r < buf + (middle - first) → cel o r = cel sa (first + (r - buf)) := by
    intro r h5 h6
    have := k2 (r - buf) (by omega)
    rw [show buf + (r - buf) = r by omega] at this
    exact this
  have hf : ∀ r, first ≤ r → r < middle → cel o r = cel sa (buf + (r - first)) := by
    intro r h5 h6
    have := k3 (r - first) (by omega)
    rw [show first + (r - first) = r by omega] at this
    exact this
  have hB : Srt (sub T P m) buf (buf + (middle - first) - 1 + 1) (cel o) := by
    refine ⟨fun _ => ?_, fun r h5 h6 => ?_⟩
    · rw [hb buf (by omega) (by omega), Nat.sub_self]; exact hA.first h1
    · rw [hb r h5 (by omega), hb (r + 1) (by omega) (by omega), show first + (r + 1 - buf) = first + (r - buf) + 1 by omega]
      exact hA.step _ (by omega) (by omega)
  have hC' : Srt (sub T P m) middle last (cel o) := hC.congr (fun r h5 h6 => k4 r (by omega) (by omega))
  have go : ∀ J : Int → Prop, (∀ r, buf ≤ r → r < buf + (middle - first) → J (cel sa r)) →
      ∃ sa', mfLoop T pa W.length (buf + (middle - first) - 1) last (cel o first) o first buf middle = some sa' ∧
        FEnd (sub T P m) J first middle last buf (buf + (middle - first) - 1) o sa' := by
    intro J hJ
    have hJo : ∀ r, first ≤ r → r < middle → J (cel o r) := fun r h5 h6 => by
      rw [hf r h5 h6]; exact hJ _ (by omega) (by omega)
    refine mfLoop_spec (J := J) h3 (by omega) hB hC' (hE.frame k1 (fun r hr => k4 r (by omega) (by omega))) (by omega) ?_ ?_ _ o first buf middle (Nat.le_refl _) ?_
      ⟨fun h => by omega, fun _ => hB.first (by omega)⟩ ⟨fun h => by omega, fun _ => hC'.first h2⟩ (hB.first (by omega)) (hC'.first h2)
    · intro r h5 h6
      rw [hb r h5 (by omega)]; exact hg _ (by omega) (by omega)
    · intro r h5 h6
      rw [k4 r (by omega) (by omega)]; exact hg _ (by omega) h6
    · refine ⟨Nat.le_refl _, Nat.le_refl _, by omega, Nat.le_refl _, h2, by omega, rfl, fun _ _ _ => rfl, fun _ _ _ => rfl, rfl, fun _ _ _ => rfl,
        Srt.nil (Nat.le_refl _), fun v => by simp [occ_self], fun v => ?_, hJo _ (Nat.le_refl _) h1, fun r h5 h6 => hJo r (by omega) h6, fun r h5 h6 => by omega⟩
      rw [occ_self, occ_first (cel o) h1]; rfl
  obtain ⟨sa', e, q⟩ := go (fun _ => True) (fun _ _ _ => trivial)
  refine ⟨sa', e, by rw [q.len, k1], fun r h5 h6 => ?_, fun v => ?_, q.srt, fun v => ?_, fun hJ r h5 h6 => ?_⟩
  · rw [q.off r h5 (by omega), k4 r (by omega) (by omega)]
  · rw [q.out v, occ_split (cel sa) (c := middle) (by omega) (show middle ≤ last by omega),
      occ_congr (f := cel o) (g := cel sa) (a := middle) (b := last) (fun r h5 h6 => by rw [k4 r (by omega) (by omega)])]
    have := occ_map (f := cel sa) (g := cel o) buf first (middle - first) (fun i hi => by rw [k2 i hi]) v
    rw [show first + (middle - first) = middle by omega] at this
    rw [show buf + (middle - first) - 1 + 1 = buf + (middle - first) by omega, this]
  · have h7 := q.junk v
    have := occ_map (f := cel sa) (g := cel o) first buf (middle - first) (fun i hi => by rw [k3 i hi]) v
    rw [show first + (middle - first) = middle by omega] at this
    rw [show buf + (middle - first) - 1 + 1 = buf + (middle - first) by omega] at h7
    omega
  · obtain ⟨sa2, e2, q2⟩ := go J hJ
    rw [e] at e2
    obtain rfl := Option.some.inj e2
    exact q2.jbuf r h5 (by omega)

end Bwtc.Ss
