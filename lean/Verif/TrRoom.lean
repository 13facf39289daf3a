import Verif.Induce

/-!
# The stack that `tr_introsort` needs

A group of `x ≥ 2` suffixes needs at most `p` entries of the stack if `(x + 4) ^ 3 ≤ 2 ^ (p + 6)`.
-/

set_option autoImplicit false

namespace Bwtc.Tr
open Induce (cnt cnt_succ cnt_le)

/-- `p` entries of the stack are enough for a group of `x` suffixes. -/
def Fits (x p : Nat) : Prop := x ≤ 1 ∨ (x + 4) ^ 3 ≤ 2 ^ (p + 6)

theorem Fits.mono {x y p r : Nat} (h : Fits x p) (h1 : y ≤ x) (h2 : p ≤ r) : Fits y r := by
  rcases h with h | h
  · exact Or.inl (by omega)
  · exact Or.inr (Nat.le_trans (Nat.pow_le_pow_left (by omega) 3) (Nat.le_trans h (Nat.pow_le_pow_right (by omega) (by omega))))

theorem fits_one {x p : Nat} (h : x ≤ 1) : Fits x p := Or.inl h

theorem Fits.least {x p : Nat} (h : Fits x p) (y k : Nat) (hy : 2 ≤ y) (h1 : y ≤ x) (h2 : 2 ^ (k + 5) < (y + 4) ^ 3) : k ≤ p := by
  rcases h with h | h
  · omega
  · rcases Nat.lt_or_ge p k with h3 | h3
    · have h4 : 2 ^ (p + 6) ≤ 2 ^ (k + 5) := Nat.pow_le_pow_right (by omega) (by omega)
      have h5 : (y + 4) ^ 3 ≤ (x + 4) ^ 3 := Nat.pow_le_pow_left (by omega) 3
      omega
    · exact h3

theorem Fits.two {s p : Nat} (h : Fits s p) (h1 : 2 ≤ s) : 2 ≤ p := h.least 2 2 (by omega) h1 (by decide)
theorem Fits.three {s p : Nat} (h : Fits s p) (h1 : 4 ≤ s) : 3 ≤ p := h.least 4 3 (by omega) h1 (by decide)
theorem Fits.four {s p : Nat} (h : Fits s p) (h1 : 6 ≤ s) : 4 ≤ p := h.least 6 4 (by omega) h1 (by decide)

theorem Fits.cut {x s p : Nat} (h : Fits s p) (k a b : Nat) (hb : 0 < b) (hk : 2 ^ k * b ^ 3 ≤ a ^ 3) (h1 : a * (x + 4) ≤ b * (s + 4)) (h2 : 2 ≤ x → 2 ≤ s) :
    Fits x (p - k) := by
  by_cases hx : x ≤ 1
  · exact Or.inl hx
  · rcases h with h | h
    · omega
    · have h3 : (a * (x + 4)) ^ 3 ≤ (b * (s + 4)) ^ 3 := Nat.pow_le_pow_left h1 3
      rw [Nat.mul_pow, Nat.mul_pow] at h3
      have h4 : 2 ^ k * b ^ 3 * (x + 4) ^ 3 ≤ b ^ 3 * 2 ^ (p + 6) :=
        Nat.le_trans (Nat.mul_le_mul_right _ hk) (Nat.le_trans h3 (Nat.mul_le_mul_left _ h))
      have h5 : b ^ 3 * (2 ^ k * (x + 4) ^ 3) ≤ b ^ 3 * 2 ^ (p + 6) := by
        rw [← Nat.mul_assoc, Nat.mul_comm (b ^ 3) (2 ^ k)]; exact h4
      have h6 := Nat.le_of_mul_le_mul_left h5 (Nat.pow_pos hb)
      have h7 : 216 ≤ (x + 4) ^ 3 := Nat.pow_le_pow_left (show 6 ≤ x + 4 by omega) 3
      have hkp : k ≤ p := by
        rcases Nat.lt_or_ge p k with h8 | h8
        · have h9 : 2 ^ (p + 6) ≤ 2 ^ k * 2 ^ 5 := by
            rw [← Nat.pow_add]; exact Nat.pow_le_pow_right (by omega) (by omega)
          have h10 : 2 ^ k * 216 ≤ 2 ^ k * (x + 4) ^ 3 := Nat.mul_le_mul_left _ h7
          have h11 : 0 < 2 ^ k := Nat.pow_pos (by omega)
          omega
        · exact h8
      refine Or.inr ?_
      have h8 : 2 ^ (p + 6) = 2 ^ k * 2 ^ (p - k + 6) := by rw [← Nat.pow_add]; congr 1; omega
      rw [h8] at h6
      exact Nat.le_of_mul_le_mul_left h6 (Nat.pow_pos (by omega))

theorem Fits.cut1 {x s p : Nat} (h : Fits s p) (h1 : 2 ≤ x → 63 * (x + 4) ≤ 50 * (s + 4)) : Fits x (p - 1) := by
  by_cases hx : x ≤ 1
  · exact Or.inl hx
  · exact h.cut 1 63 50 (by decide) (by decide) (h1 (by omega)) (by omega)

theorem Fits.cut2 {x s p : Nat} (h : Fits s p) (h1 : 2 ≤ x → 8 * (x + 4) ≤ 5 * (s + 4)) : Fits x (p - 2) := by
  by_cases hx : x ≤ 1
  · exact Or.inl hx
  · exact h.cut 2 8 5 (by decide) (by decide) (h1 (by omega)) (by omega)

theorem Fits.cut3 {x s p : Nat} (h : Fits s p) (h1 : 2 ≤ x → 2 * (x + 4) ≤ s + 4) : Fits x (p - 3) := by
  by_cases hx : x ≤ 1
  · exact Or.inl hx
  · exact h.cut 3 2 1 (by decide) (by decide) (by have := h1 (by omega); omega) (by omega)

theorem Fits.cut4 {x s p : Nat} (h : Fits s p) (h1 : 2 ≤ x → 63 * (x + 4) ≤ 25 * (s + 4)) : Fits x (p - 4) := by
  by_cases hx : x ≤ 1
  · exact Or.inl hx
  · exact h.cut 4 63 25 (by decide) (by decide) (h1 (by omega)) (by omega)

theorem Fits.cut5 {x s p : Nat} (h : Fits s p) (h1 : 2 ≤ x → 16 * (x + 4) ≤ 5 * (s + 4)) : Fits x (p - 5) := by
  by_cases hx : x ≤ 1
  · exact Or.inl hx
  · exact h.cut 5 16 5 (by decide) (by decide) (h1 (by omega)) (by omega)

/-- One of the parts of a group that are put on the stack, with `k` others below. -/
theorem Fits.part {s room k x : Nat} (h : Fits s room) (hk : k ≤ 2) (hx : (k + 1) * x ≤ s) (h2 : 2 ≤ x) : k ≤ room ∧ Fits x (room - k) := by
  have : k = 0 ∨ k = 1 ∨ k = 2 := by omega
  rcases this with rfl | rfl | rfl
  · exact ⟨by omega, h.mono (by omega) (by omega)⟩
  · have := h.two (by omega)
    exact ⟨by omega, h.cut1 (by omega)⟩
  · have := h.two (by omega)
    exact ⟨by omega, h.cut2 (by omega)⟩

/-- Enough room for the two groups with `A` and `B` members. -/
def FitTwo (A B room : Nat) : Prop :=
  Fits A room ∧ Fits B room ∧ (2 ≤ A → 2 ≤ B → 1 ≤ room ∧ (A ≤ B → Fits A (room - 1)) ∧ (B ≤ A → Fits B (room - 1)))

/-- Enough room for a tandem repeat of `x` members: the groups with smaller keys have at most `lo` members, those with larger keys `hi`.  If at least
two members have equal keys, two more entries are pushed. -/
def FitRep (x lo hi room : Nat) : Prop :=
  ∀ A B, A ≤ lo → B ≤ hi → (A + B + 2 ≤ x → 2 ≤ room ∧ FitTwo A B (room - 2)) ∧ (A + B ≤ x → FitTwo A B room)

theorem FitRep.mono {x a b a' b' room : Nat} (h : FitRep x a b room) (h1 : a' ≤ a) (h2 : b' ≤ b) : FitRep x a' b' room :=
  fun A B hA hB => h A B (by omega) (by omega)

theorem fitTwo {A B room : Nat} (h1 : Fits A room) (h2 : Fits B room) (h3 : 2 ≤ A → 2 ≤ B → 1 ≤ room) (h4 : 2 ≤ A → A ≤ B → Fits A (room - 1)) (h5 : 2 ≤ B → B ≤ A → Fits B (room - 1)) : FitTwo A B room :=
  ⟨h1, h2, fun a b => ⟨h3 a b, h4 a, h5 b⟩⟩

theorem Fits.rep {s room k x lo hi : Nat} (h : Fits s room) (hk : k ≤ 2) (hx : (k + 1) * x ≤ s) (h2 : 2 ≤ x) (h0 : k = 0 → lo + x ≤ s ∧ hi + x ≤ s) :
    k ≤ room ∧ FitRep x lo hi (room - k) := by
  have : k = 0 ∨ k = 1 ∨ k = 2 := by omega
  have r2 := h.two (Nat.le_trans h2 (Nat.le_trans (Nat.le_mul_of_pos_left x (Nat.succ_pos k)) hx))
  rcases this with rfl | rfl | rfl
  · obtain ⟨a1, a2⟩ := h0 rfl
    refine ⟨by omega, fun A B hA hB => ⟨fun hm => ⟨by omega, fitTwo ?_ ?_ ?_ ?_ ?_⟩, fun hm => fitTwo ?_ ?_ ?_ ?_ ?_⟩⟩
    · exact h.cut2 (by omega)
    · exact h.cut2 (by omega)
    · intro h3 h4
      have := h.three (by omega)
      omega
    · intro h3 h4
      exact h.cut3 (by omega)
    · intro h3 h4
      exact h.cut3 (by omega)
    · exact h.mono (by omega) (by omega)
    · exact h.mono (by omega) (by omega)
    · intro h3 h4; omega
    · intro h3 h4
      exact h.cut1 (by omega)
    · intro h3 h4
      exact h.cut1 (by omega)
  · have r3 := h.three (by omega)
    refine ⟨by omega, fun A B hA hB => ⟨fun hm => ⟨by omega, fitTwo ?_ ?_ ?_ ?_ ?_⟩, fun hm => fitTwo ?_ ?_ ?_ ?_ ?_⟩⟩
    · exact h.cut3 (by omega)
    · exact h.cut3 (by omega)
    · intro h3 h4
      have := h.four (by omega)
      omega
    · intro h3 h4
      exact h.cut4 (by omega)
    · intro h3 h4
      exact h.cut4 (by omega)
    · exact h.cut1 (by omega)
    · exact h.cut1 (by omega)
    · intro h3 h4; omega
    · intro h3 h4
      exact h.cut2 (by omega)
    · intro h3 h4
      exact h.cut2 (by omega)
  · have r4 := h.four (by omega)
    refine ⟨by omega, fun A B hA hB => ⟨fun hm => ⟨by omega, fitTwo ?_ ?_ ?_ ?_ ?_⟩, fun hm => fitTwo ?_ ?_ ?_ ?_ ?_⟩⟩
    · exact h.cut4 (by omega)
    · exact h.cut4 (by omega)
    · intro h3 h4
      have := h.least 10 5 (by omega) (by omega) (by decide)
      omega
    · intro h3 h4
      exact h.cut5 (by omega)
    · intro h3 h4
      exact h.cut5 (by omega)
    · exact h.cut2 (by omega)
    · exact h.cut2 (by omega)
    · intro h3 h4; omega
    · intro h3 h4
      exact h.cut3 (by omega)
    · intro h3 h4
      exact h.cut3 (by omega)

/-- Enough room for the cells from `f` to `l` of a group that has been sorted by keys and began at `lo`. -/
def FitSrt (lo f l room : Nat) : Prop := Fits (l - lo) room ∨ (Fits (l - f) room ∧ ∃ p, Fits (l - f - 2) p ∧ p + 2 ≤ room)

theorem FitSrt.two {lo f l room : Nat} (h : FitSrt lo f l room) (h1 : f + 2 ≤ l) (h2 : lo ≤ f) : 2 ≤ room := by
  rcases h with h | ⟨h, -⟩
  · exact h.two (by omega)
  · exact h.two (by omega)

/-- The run `[c, m)` and the rest `[m, l)`, the smaller of which comes first. -/
theorem FitSrt.run {lo f l room c m : Nat} (h : FitSrt lo f l room) (h1 : lo ≤ f) (h2 : f ≤ c) (h3 : c + 2 ≤ m) (h4 : m ≤ l) :
    Fits (m - c) room ∧ (m - c ≤ l - m → 1 ≤ room ∧ Fits (m - c) (room - 1)) := by
  have h5 := h.two (by omega) h1
  rcases h with h | ⟨h, -⟩
  · exact ⟨h.mono (by omega) (Nat.le_refl _), fun h6 => ⟨by omega, h.cut1 (by omega)⟩⟩
  · exact ⟨h.mono (by omega) (Nat.le_refl _), fun h6 => ⟨by omega, h.cut1 (by omega)⟩⟩

theorem FitSrt.rest {lo f l room c m : Nat} (h : FitSrt lo f l room) (h1 : lo ≤ f) (h2 : f ≤ c) (h3 : c + 2 ≤ m) (h4 : m + 2 ≤ l) :
    FitSrt lo m l room ∧ (l - m ≤ m - c → 1 ≤ room ∧ FitSrt lo m l (room - 1)) := by
  rcases h with h | ⟨h, p, hp, h5⟩
  · refine ⟨Or.inl h, fun h6 => ?_⟩
    have := h.three (by omega)
    exact ⟨by omega, Or.inr ⟨h.cut1 (by omega), room - 3, h.cut3 (by omega), by omega⟩⟩
  · refine ⟨Or.inr ⟨h.mono (by omega) (Nat.le_refl _), p, hp.mono (by omega) (Nat.le_refl _), h5⟩, fun h6 => ?_⟩
    have := hp.two (by omega)
    exact ⟨by omega, Or.inr ⟨h.cut1 (by omega), p - 1, hp.cut1 (by omega), by omega⟩⟩

/-- A run that is a tandem repeat; without the rest below it on the stack, or with it. -/
theorem FitSrt.rep {lo f l room c m a b : Nat} (h : FitSrt lo f l room) (h1 : lo ≤ f) (h2 : f ≤ c) (h3 : c + 2 ≤ m) (h4 : m ≤ l)
    (ha : a ≤ c - lo) (hb : b ≤ l - m) : FitRep (m - c) a b room ∧ (m - c ≤ l - m → 1 ≤ room ∧ FitRep (m - c) a b (room - 1)) := by
  rcases h with h | ⟨h, p, hp, h5⟩
  · refine ⟨(h.rep (k := 0) (x := m - c) (by omega) (by omega) (by omega) (fun _ => by omega)).2, fun h6 => ?_⟩
    exact h.rep (k := 1) (x := m - c) (by omega) (by omega) (by omega) (fun _ => by omega)
  · have h6 := h.two (by omega)
    refine ⟨fun A B hA hB => ⟨fun hm => ⟨by omega, fitTwo ?_ ?_ ?_ ?_ ?_⟩, fun hm => fitTwo ?_ ?_ ?_ ?_ ?_⟩, fun h7 => ⟨by omega, fun A B hA hB => ?_⟩⟩
    · exact hp.mono (by omega) (by omega)
    · exact hp.mono (by omega) (by omega)
    · intro k1 k2
      have := hp.two (by omega)
      omega
    · intro k1 k2
      exact (hp.cut1 (x := A) (by omega)).mono (Nat.le_refl _) (by omega)
    · intro k1 k2
      exact (hp.cut1 (x := B) (by omega)).mono (Nat.le_refl _) (by omega)
    · exact h.mono (by omega) (by omega)
    · exact h.mono (by omega) (by omega)
    · intro k1 k2; omega
    · intro k1 k2
      exact h.cut1 (by omega)
    · intro k1 k2
      exact h.cut1 (by omega)
    · have h8 := hp.two (by omega)
      refine ⟨fun hm => ⟨by omega, fitTwo ?_ ?_ ?_ ?_ ?_⟩, fun hm => fitTwo ?_ ?_ ?_ ?_ ?_⟩
      · exact (hp.cut1 (x := A) (by omega)).mono (Nat.le_refl _) (by omega)
      · exact (hp.cut1 (x := B) (by omega)).mono (Nat.le_refl _) (by omega)
      · intro k1 k2
        have := hp.three (by omega)
        omega
      · intro k1 k2
        exact (hp.cut2 (x := A) (by omega)).mono (Nat.le_refl _) (by omega)
      · intro k1 k2
        exact (hp.cut2 (x := B) (by omega)).mono (Nat.le_refl _) (by omega)
      · exact h.cut1 (by omega)
      · exact h.cut1 (by omega)
      · intro k1 k2; omega
      · intro k1 k2
        exact h.cut2 (by omega)
      · intro k1 k2
        exact h.cut2 (by omega)

/-! ## Counting -/

/-- An injection does not lead to fewer elements. -/
theorem cnt_inj {n m : Nat} {P Q : Nat → Prop} (φ : Nat → Nat) (h1 : ∀ i, i < n → P i → φ i < m ∧ Q (φ i)) (h2 : ∀ i j, i < n → j < n → P i → P j → φ i = φ j → i = j) :
    cnt n P ≤ cnt m Q := by
  induction n generalizing Q with
  | zero => exact Nat.zero_le _
  | succ n ih =>
    rw [cnt_succ]
    by_cases hp : P n
    · rw [if_pos hp]
      obtain ⟨k1, k2⟩ := h1 n (by omega) hp
      have := ih (Q := fun j => Q j ∧ j ≠ φ n) (fun i hi hpi => ⟨(h1 i (by omega) hpi).1, (h1 i (by omega) hpi).2, fun he => by have := h2 i n (by omega) (by omega) hpi hp he; omega⟩)
        (fun i j hi hj => h2 i j (by omega) (by omega))
      have h3 := Induce.cnt_lt (n := m) (P := fun j => Q j ∧ j ≠ φ n) (Q := Q) k1 (fun h => h.2 rfl) k2 (fun _ _ h => h.1)
      omega
    · rw [if_neg hp]
      exact ih (fun i hi => h1 i (by omega)) (fun i j hi hj => h2 i j (by omega) (by omega))

theorem cnt_range (n a b : Nat) (h1 : a ≤ b) (h2 : b ≤ n) : cnt n (fun r => a ≤ r ∧ r < b) = b - a := by
  induction n with
  | zero => show 0 = _; omega
  | succ n ih =>
    rw [cnt_succ]
    by_cases h3 : b ≤ n
    · rw [ih h3, if_neg (by omega)]; rfl
    · have h4 : b = n + 1 := by omega
      by_cases h5 : a ≤ n
      · rw [if_pos (by omega)]
        have : cnt n (fun r => a ≤ r ∧ r < b) = cnt n (fun r => a ≤ r ∧ r < n) := Induce.cnt_congr (fun q hq => by omega)
        rw [this]
        have : ∀ k, k ≤ n → cnt k (fun r => a ≤ r ∧ r < n) = k - a := by
          intro k
          induction k with
          | zero => intro _; show 0 = _; omega
          | succ k ihk =>
            intro hk
            rw [cnt_succ, ihk (by omega)]
            by_cases h6 : a ≤ k
            · rw [if_pos (by omega)]; omega
            · rw [if_neg (by omega)]; omega
        rw [this n (Nat.le_refl _)]; omega
      · rw [if_neg (by omega), Induce.cnt_false (fun q hq => by omega)]; omega

end Bwtc.Tr
