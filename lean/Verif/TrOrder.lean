import Verif.TrSorted

/-!
# The order of the members of a tandem repeat

The suffixes in the cells from `a` to `b` are ordered as the suffixes `D` later are, and these lie in the cells from `f` to `l`.
-/

set_option autoImplicit false

namespace Bwtc.Tr
open Induce (cnt cnt_lt cnt_true)
open Divsuf (inj_surj)

/-- The cells of the suffixes: `pos i` is the cell of `i`, and `D` after a suffix in the cells from `a` to `b` is one in those from `f` to `l`. -/
structure Nest (n D f a b l : Nat) (pos : Nat → Nat) : Prop where
  fa : f ≤ a
  bl : b ≤ l
  step : 0 < D
  inj : ∀ i j, i < n → j < n → f ≤ pos i → pos i < l → pos i = pos j → i = j
  onto : ∀ r, f ≤ r → r < l → ∃ i, i < n ∧ pos i = r
  par : ∀ i, i < n → a ≤ pos i → pos i < b → i + D < n ∧ f ≤ pos (i + D) ∧ pos (i + D) < l

/-- `i` comes before `j`. -/
inductive Prec (D a b : Nat) (pos : Nat → Nat) : Nat → Nat → Prop
  | base {i j : Nat} : ¬ ((a ≤ pos i ∧ pos i < b) ∧ a ≤ pos j ∧ pos j < b) → pos i < pos j → Prec D a b pos i j
  | deep {i j : Nat} : a ≤ pos i → pos i < b → a ≤ pos j → pos j < b → Prec D a b pos (i + D) (j + D) → Prec D a b pos i j

section
variable {n D f a b l : Nat} {pos : Nat → Nat}

theorem Prec.deep_iff {i j : Nat} (hi : a ≤ pos i ∧ pos i < b) (hj : a ≤ pos j ∧ pos j < b) : Prec D a b pos i j ↔ Prec D a b pos (i + D) (j + D) := by
  constructor
  · intro h
    cases h with
    | base h1 h2 => exact absurd ⟨hi, hj⟩ h1
    | deep h1 h2 h3 h4 h5 => exact h5
  · exact fun h => .deep hi.1 hi.2 hj.1 hj.2 h

theorem Prec.base_iff {i j : Nat} (h : ¬ ((a ≤ pos i ∧ pos i < b) ∧ a ≤ pos j ∧ pos j < b)) : Prec D a b pos i j ↔ pos i < pos j := by
  constructor
  · intro h'
    cases h' with
    | base h1 h2 => exact h2
    | deep h1 h2 h3 h4 h5 => exact absurd ⟨⟨h1, h2⟩, h3, h4⟩ h
  · exact fun h' => .base h h'

theorem Nest.irrefl (hN : Nest n D f a b l pos) : ∀ (k i : Nat), n - i ≤ k → i < n → ¬ Prec D a b pos i i := by
  intro k
  induction k with
  | zero => intro i h1 h2; omega
  | succ k ih =>
    intro i h1 h2 h3
    by_cases hi : a ≤ pos i ∧ pos i < b
    · have hp := hN.par i h2 hi.1 hi.2
      have := hN.step
      exact ih (i + D) (by omega) hp.1 ((Prec.deep_iff hi hi).1 h3)
    · rw [Prec.base_iff (fun h => hi h.1)] at h3
      omega

theorem Nest.total (hN : Nest n D f a b l pos) : ∀ (k i j : Nat), n - i ≤ k → i < n → j < n → f ≤ pos i → pos i < l → i ≠ j → Prec D a b pos i j ∨ Prec D a b pos j i := by
  intro k
  induction k with
  | zero => intro i j h1 h2; omega
  | succ k ih =>
    intro i j h1 h2 h3 h4 h5 hne
    by_cases hij : (a ≤ pos i ∧ pos i < b) ∧ a ≤ pos j ∧ pos j < b
    · have hp := hN.par i h2 hij.1.1 hij.1.2
      have hp' := hN.par j h3 hij.2.1 hij.2.2
      have := hN.step
      rw [Prec.deep_iff hij.1 hij.2, Prec.deep_iff hij.2 hij.1]
      exact ih (i + D) (j + D) (by omega) hp.1 hp'.1 hp.2.1 hp.2.2 (by omega)
    · rw [Prec.base_iff hij, Prec.base_iff (fun h => hij ⟨h.2, h.1⟩)]
      have : pos i ≠ pos j := fun h => hne (hN.inj i j h2 h3 h4 h5 h)
      omega

theorem Nest.trans (hN : Nest n D f a b l pos) : ∀ (k i j m : Nat), n - i ≤ k → i < n → j < n → m < n → Prec D a b pos i j → Prec D a b pos j m → Prec D a b pos i m := by
  intro k
  induction k with
  | zero => intro i j m h1 h2; omega
  | succ k ih =>
    intro i j m h1 h2 h3 h4 h5 h6
    by_cases hi : a ≤ pos i ∧ pos i < b
    · by_cases hj : a ≤ pos j ∧ pos j < b
      · by_cases hm : a ≤ pos m ∧ pos m < b
        · have hpi := hN.par i h2 hi.1 hi.2
          have hpj := hN.par j h3 hj.1 hj.2
          have hpm := hN.par m h4 hm.1 hm.2
          have := hN.step
          rw [Prec.deep_iff hi hj] at h5
          rw [Prec.deep_iff hj hm] at h6
          rw [Prec.deep_iff hi hm]
          exact ih _ _ _ (by omega) hpi.1 hpj.1 hpm.1 h5 h6
        · rw [Prec.base_iff (fun h => hm h.2)] at h6 ⊢
          omega
      · rw [Prec.base_iff (fun h => hj h.2)] at h5
        rw [Prec.base_iff (fun h => hj h.1)] at h6
        rw [Prec.base_iff (fun h => by omega)]
        omega
    · rw [Prec.base_iff (fun h => hi h.1)] at h5 ⊢
      by_cases hjm : (a ≤ pos j ∧ pos j < b) ∧ a ≤ pos m ∧ pos m < b
      · omega
      · rw [Prec.base_iff hjm] at h6
        omega

/-- The cells the suffixes belong to. -/
theorem Nest.place (hN : Nest n D f a b l pos) : ∃ p : Nat → Nat, (∀ i, i < n → ¬ (a ≤ pos i ∧ pos i < b) → p i = pos i) ∧
    (∀ i, i < n → a ≤ pos i → pos i < b → a ≤ p i ∧ p i < b) ∧ (∀ r, a ≤ r → r < b → ∃ i, i < n ∧ a ≤ pos i ∧ pos i < b ∧ p i = r) ∧
    (∀ i j, i < n → j < n → f ≤ pos i → pos i < l → f ≤ pos j → pos j < l → p i = p j → i = j) ∧
    (∀ i j, i < n → j < n → a ≤ pos i → pos i < b → a ≤ pos j → pos j < b → (p i < p j ↔ p (i + D) < p (j + D))) := by
  have hfa := hN.fa
  have hbl := hN.bl
  -- the suffixes in the cells
  obtain ⟨q, hq⟩ : ∃ q : Nat → Nat, ∀ r, f ≤ r → r < l → q r < n ∧ pos (q r) = r := by
    refine ⟨fun r => open Classical in if h : f ≤ r ∧ r < l then (hN.onto r h.1 h.2).choose else 0, fun r h1 h2 => ?_⟩
    dsimp only
    rw [dif_pos ⟨h1, h2⟩]
    exact (hN.onto r h1 h2).choose_spec
  have hqp : ∀ i, i < n → f ≤ pos i → pos i < l → q (pos i) = i := fun i h1 h2 h3 =>
    (hN.inj i (q (pos i)) h1 (hq _ h2 h3).1 h2 h3 (hq _ h2 h3).2.symm).symm
  obtain ⟨c, hc⟩ : ∃ c : Nat → Nat, ∀ i, c i = cnt (b - a) (fun k => Prec D a b pos (q (a + k)) i) := ⟨_, fun _ => rfl⟩
  have hclt : ∀ i, i < n → a ≤ pos i → pos i < b → c i < b - a := by
    intro i h1 h2 h3
    have h4 := cnt_lt (n := b - a) (P := fun k => Prec D a b pos (q (a + k)) i) (Q := fun _ => True) (a := pos i - a) (by omega)
      (by rw [show a + (pos i - a) = pos i by omega, hqp i h1 (by omega) (by omega)]; exact hN.irrefl _ i (Nat.le_refl _) h1) trivial (fun _ _ _ => trivial)
    rw [cnt_true (fun _ _ => trivial)] at h4
    rw [hc]; exact h4
  have hcmono : ∀ i j, i < n → j < n → a ≤ pos i → pos i < b → a ≤ pos j → pos j < b → Prec D a b pos i j → c i < c j := by
    intro i j h1 h2 h3 h4 h5 h6 h7
    rw [hc, hc]
    refine cnt_lt (a := pos i - a) (by omega) ?_ ?_ ?_
    · rw [show a + (pos i - a) = pos i by omega, hqp i h1 (by omega) (by omega)]; exact hN.irrefl _ i (Nat.le_refl _) h1
    · rw [show a + (pos i - a) = pos i by omega, hqp i h1 (by omega) (by omega)]; exact h7
    · intro k hk h8
      exact hN.trans _ _ _ _ (Nat.le_refl _) (hq (a + k) (by omega) (by omega)).1 h1 h2 h8 h7
  have hciff : ∀ i j, i < n → j < n → a ≤ pos i → pos i < b → a ≤ pos j → pos j < b → (c i < c j ↔ Prec D a b pos i j) := by
    intro i j h1 h2 h3 h4 h5 h6
    refine ⟨fun h7 => ?_, hcmono i j h1 h2 h3 h4 h5 h6⟩
    by_cases hij : i = j
    · subst hij; omega
    · rcases hN.total _ i j (Nat.le_refl _) h1 h2 (by omega) (by omega) hij with h8 | h8
      · exact h8
      · have := hcmono j i h2 h1 h5 h6 h3 h4 h8; omega
  have hcinj : ∀ i j, i < n → j < n → a ≤ pos i → pos i < b → a ≤ pos j → pos j < b → c i = c j → i = j := by
    intro i j h1 h2 h3 h4 h5 h6 h7
    rcases Nat.decEq i j with hij | hij
    · rcases hN.total _ i j (Nat.le_refl _) h1 h2 (by omega) (by omega) hij with h8 | h8
      · have := hcmono i j h1 h2 h3 h4 h5 h6 h8; omega
      · have := hcmono j i h2 h1 h5 h6 h3 h4 h8; omega
    · exact hij
  obtain ⟨p, hpM, hpO⟩ : ∃ p : Nat → Nat, (∀ i, a ≤ pos i ∧ pos i < b → p i = a + c i) ∧ (∀ i, ¬ (a ≤ pos i ∧ pos i < b) → p i = pos i) :=
    ⟨fun i => if a ≤ pos i ∧ pos i < b then a + c i else pos i, fun i h => if_pos h, fun i h => if_neg h⟩
  have hiff : ∀ i j, i < n → j < n → f ≤ pos i → pos i < l → f ≤ pos j → pos j < l → (p i < p j ↔ Prec D a b pos i j) := by
    intro i j h1 h2 h3 h4 h5 h6
    by_cases hi : a ≤ pos i ∧ pos i < b
    · have k1 := hclt i h1 hi.1 hi.2
      by_cases hj : a ≤ pos j ∧ pos j < b
      · rw [hpM i hi, hpM j hj, ← hciff i j h1 h2 hi.1 hi.2 hj.1 hj.2]; omega
      · rw [hpM i hi, hpO j hj, Prec.base_iff (fun h => hj h.2)]; omega
    · by_cases hj : a ≤ pos j ∧ pos j < b
      · have k2 := hclt j h2 hj.1 hj.2
        rw [hpO i hi, hpM j hj, Prec.base_iff (fun h => hi h.1)]; omega
      · rw [hpO i hi, hpO j hj, Prec.base_iff (fun h => hi h.1)]
  refine ⟨p, fun i _ h => hpO i h, ?_, ?_, ?_, ?_⟩
  · intro i h1 h2 h3
    have := hclt i h1 h2 h3
    rw [hpM i ⟨h2, h3⟩]; omega
  · intro r h1 h2
    obtain ⟨k, hk, ek⟩ := inj_surj (m := b - a) (fun k => c (q (a + k))) (fun k hk => by
        have := hq (a + k) (by omega) (by omega)
        exact hclt _ this.1 (by omega) (by omega))
      (fun k k' hk hk' he => by
        have h3 := hq (a + k) (by omega) (by omega)
        have h4 := hq (a + k') (by omega) (by omega)
        have h5 := hcinj _ _ h3.1 h4.1 (by omega) (by omega) (by omega) (by omega) he
        rw [h5] at h3
        omega) (r := r - a) (by omega)
    have h3 := hq (a + k) (by omega) (by omega)
    refine ⟨q (a + k), h3.1, by omega, by omega, ?_⟩
    have ek' : c (q (a + k)) = r - a := ek
    rw [hpM _ (by omega), ek']; omega
  · intro i j h1 h2 h3 h4 h5 h6 h7
    rcases Nat.decEq i j with hij | hij
    · rcases hN.total _ i j (Nat.le_refl _) h1 h2 h3 h4 hij with h8 | h8
      · have := (hiff i j h1 h2 h3 h4 h5 h6).2 h8; omega
      · have := (hiff j i h2 h1 h5 h6 h3 h4).2 h8; omega
    · exact hij
  · intro i j h1 h2 h3 h4 h5 h6
    have k1 := hN.par i h1 h3 h4
    have k2 := hN.par j h2 h5 h6
    rw [hiff i j h1 h2 (by omega) (by omega) (by omega) (by omega), hiff _ _ k1.1 k2.1 k1.2.1 k1.2.2 k2.2.1 k2.2.2]
    exact Prec.deep_iff ⟨h3, h4⟩ ⟨h5, h6⟩

end

end Bwtc.Tr
