import Verif.SsBase

/-!
# `ss_isqrt`
-/

set_option autoImplicit false

namespace Bwtc.Ss
open Sais (bind_some')

theorem lg_cases : ∀ i : Fin 256, ∃ l : Nat, l < 8 ∧ (1 ≤ i.1 → lgTable[i.1]? = some (l : Int) ∧ 2 ^ l ≤ i.1 ∧ i.1 < 2 ^ (l + 1)) := by decide +kernel

theorem sqq_small : ∀ i : Fin 256, ∃ s, s < 256 ∧ sqqTable[i.1]? = some s ∧ (64 ≤ i.1 → 128 ≤ s) ∧ s / 16 ≤ i.1 ∧ (2 ≤ i.1 → s / 16 < i.1) := by decide +kernel

theorem sqrtEnd_spec {x y : Nat} (h : 0 < y) : ∃ s, sqrtEnd x y = some s ∧ s ≤ y := by
  unfold sqrtEnd
  by_cases h1 : x < y * y
  · rw [if_pos h1, if_neg (by omega)]; exact ⟨_, rfl, by omega⟩
  · rw [if_neg h1]; exact ⟨_, rfl, Nat.le_refl _⟩

theorem isqrt_spec {x : Nat} (hx : 1 ≤ x) : ∃ s, isqrt x = some s ∧ s ≤ x ∧ (2 ≤ x → s < x) := by
  unfold isqrt
  by_cases h0 : 1048576 ≤ x
  · rw [if_pos h0]; exact ⟨1024, rfl, by omega, fun _ => by omega⟩
  · rw [if_neg h0]
    by_cases h1 : 65536 ≤ x
    · obtain ⟨l, l8, hl⟩ := lg_cases ⟨x / 65536, by omega⟩
      simp only at hl
      obtain ⟨e, q1, q2⟩ := hl (by omega)
      have hb : hiBit x = some (16 + (l : Int)) := by
        unfold hiBit
        rw [if_pos (by omega), if_neg (by omega), show x / 65536 % 256 = x / 65536 by omega, e]; rfl
      rw [bind_some' hb, if_pos (by omega)]
      have key : ∀ k z : Nat, (16 + (l : Int) - 6 - (16 + (l : Int)) % 2).toNat = k → ((16 + (l : Int)) / 2 - 7).toNat = z → x / 2 ^ k < 256 → 64 ≤ x / 2 ^ k → (z = 1 ∨ z = 2) →
          ∃ s, (do
            let s ← sqqTable[x / 2 ^ ((16 + (l : Int)) - 6 - (16 + (l : Int)) % 2).toNat]?
            let y := s * 2 ^ ((16 + (l : Int)) / 2 - 7).toNat
            let y ← (if 24 ≤ (16 + (l : Int)) then newton x y else some y : Option _)
            let y ← newton x y
            sqrtEnd x y) = some s ∧ s ≤ x ∧ (2 ≤ x → s < x) := by
        intro k z ek ez h2 h3 h4
        rw [ek, ez]
        obtain ⟨s, s1, s2, s3, -⟩ := sqq_small ⟨x / 2 ^ k, h2⟩
        simp only at s2 s3
        have s3 := s3 h3
        rw [bind_some' s2]
        have hl4 : l < 4 := by
          rcases Nat.lt_or_ge l 4 with h | h
          · exact h
          · have := Nat.pow_le_pow_right (show 0 < 2 by omega) h
            omega
        have y0 : 256 ≤ s * 2 ^ z ∧ s * 2 ^ z < 1024 := by rcases h4 with h4 | h4 <;> subst h4 <;> omega
        simp only
        generalize s * 2 ^ z = y at *
        have n1 : (if 24 ≤ (16 + (l : Int)) then newton x y else some y) = some y := if_neg (by omega)
        have n2 : newton x y = some ((y + 1 + x / y) / 2) := by unfold newton; rw [if_neg (by omega)]
        rw [bind_some' n1, bind_some' n2]
        have : x / y ≤ x / 256 := Nat.div_le_div_left y0.1 (by omega)
        generalize x / y = w at *
        obtain ⟨t, t1, t2⟩ := sqrtEnd_spec (x := x) (y := (y + 1 + w) / 2) (by omega)
        exact ⟨t, t1, by omega, fun _ => by omega⟩
      have hl4 : l = 0 ∨ l = 1 ∨ l = 2 ∨ l = 3 := by
        have : l < 4 := by
          rcases Nat.lt_or_ge l 4 with h | h
          · exact h
          · have := Nat.pow_le_pow_right (show 0 < 2 by omega) h
            omega
        omega
      rcases hl4 with rfl | rfl | rfl | rfl
      · exact key 10 1 rfl rfl (by omega) (by omega) (by omega)
      · exact key 10 1 rfl rfl (by omega) (by omega) (by omega)
      · exact key 12 2 rfl rfl (by omega) (by omega) (by omega)
      · exact key 12 2 rfl rfl (by omega) (by omega) (by omega)
    · by_cases h2 : 256 ≤ x
      · obtain ⟨l, l8, hl⟩ := lg_cases ⟨x / 256, by omega⟩
        simp only at hl
        obtain ⟨e, q1, q2⟩ := hl (by omega)
        have hb : hiBit x = some (8 + (l : Int)) := by
          unfold hiBit
          rw [if_neg (by omega), if_pos (by omega), show x / 256 % 256 = x / 256 by omega, e]; rfl
        rw [bind_some' hb, if_neg (by omega), if_pos (by omega)]
        have key : ∀ k z : Nat, (8 + (l : Int) - 6 - (8 + (l : Int)) % 2).toNat = k → (7 - (8 + (l : Int)) / 2).toNat = z → x / 2 ^ k < 256 → (256 < x ∨ 1 ≤ z) →
            ∃ s, (do
              let s ← sqqTable[x / 2 ^ ((8 + (l : Int)) - 6 - (8 + (l : Int)) % 2).toNat]?
              sqrtEnd x (s / 2 ^ (7 - (8 + (l : Int)) / 2).toNat + 1)) = some s ∧ s ≤ x ∧ (2 ≤ x → s < x) := by
          intro k z ek ez h3 h4
          rw [ek, ez]
          obtain ⟨s, s1, s2, -, -⟩ := sqq_small ⟨x / 2 ^ k, h3⟩
          simp only at s2
          rw [bind_some' s2]
          obtain ⟨t, t1, t2⟩ := sqrtEnd_spec (x := x) (y := s / 2 ^ z + 1) (Nat.succ_pos _)
          have : s / 2 ^ z ≤ s := Nat.div_le_self _ _
          have h5 : 1 ≤ z → s / 2 ^ z ≤ s / 2 ^ 1 := fun h => Nat.div_le_div_left (Nat.pow_le_pow_right (by omega) h) (by omega)
          exact ⟨t, t1, by omega, fun _ => by omega⟩
        have hl8 : l = 0 ∨ l = 1 ∨ l = 2 ∨ l = 3 ∨ l = 4 ∨ l = 5 ∨ l = 6 ∨ l = 7 := by omega
        rcases hl8 with rfl | rfl | rfl | rfl | rfl | rfl | rfl | rfl
        · exact key 2 3 rfl rfl (by omega) (by omega)
        · exact key 2 3 rfl rfl (by omega) (by omega)
        · exact key 4 2 rfl rfl (by omega) (by omega)
        · exact key 4 2 rfl rfl (by omega) (by omega)
        · exact key 6 1 rfl rfl (by omega) (by omega)
        · exact key 6 1 rfl rfl (by omega) (by omega)
        · exact key 8 0 rfl rfl (by omega) (by omega)
        · exact key 8 0 rfl rfl (by omega) (by omega)
      · obtain ⟨l, l8, hl⟩ := lg_cases ⟨x, by omega⟩
        simp only at hl
        obtain ⟨e, q1, q2⟩ := hl hx
        have hb : hiBit x = some (l : Int) := by
          unfold hiBit
          rw [if_neg (by omega), if_neg (by omega), show x % 256 = x by omega, e]
        rw [bind_some' hb, if_neg (by omega), if_neg (by omega)]
        obtain ⟨s, s1, s2, -, s4, s5⟩ := sqq_small ⟨x, by omega⟩
        simp only at s2 s4 s5
        rw [bind_some' s2]
        exact ⟨_, rfl, s4, s5⟩

end Bwtc.Ss
