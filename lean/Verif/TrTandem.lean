import Verif.TrPcopy

/-!
# The ranks after a copy
-/

set_option autoImplicit false

namespace Bwtc.Tr
open Sais (put inv put_spec bind_some')
open Ss (cel get_cel pop Perm Res Mov nat_of dec_nat' occ occ_pos)
open Suffix
open Divsuf (getI putI dec)

variable {T : List Nat} {cap isa h : Nat}

theorem Rk.mono {I q : Nat → Nat} (hR : Rk T h I q) {r r' : Nat} (h1 : r ≤ r') (h2 : r' < T.length) : I (q r) ≤ I (q r') := by
  rcases Nat.lt_or_ge (I (q r')) (I (q r)) with h3 | h3
  · have h4 := hR.up r' h2
    have := hR.blk r r' (by omega) h1 (by omega)
    omega
  · exact h3

theorem perm_of {f g : Nat → Int} {a b : Nat} (hf : ∀ r r', a ≤ r → r < b → a ≤ r' → r' < b → dec (f r) = dec (f r') → r = r')
    (hg : ∀ r r', a ≤ r → r < b → a ≤ r' → r' < b → dec (g r) = dec (g r') → r = r')
    (h1 : ∀ r, a ≤ r → r < b → ∃ r', a ≤ r' ∧ r' < b ∧ dec (g r') = dec (f r))
    (h2 : ∀ r, a ≤ r → r < b → ∃ r', a ≤ r' ∧ r' < b ∧ dec (f r') = dec (g r)) : Perm a b f g := by
  intro v
  have k1 := occ_inj hf v
  have k2 := occ_inj hg v
  have k3 : 0 < occ f a b v → 0 < occ g a b v := by
    intro h
    obtain ⟨r, a1, a2, a3⟩ := (occ_pos f a b v).1 h
    obtain ⟨r', b1, b2, b3⟩ := h1 r a1 a2
    exact (occ_pos g a b v).2 ⟨r', b1, b2, by rw [b3, a3]⟩
  have k4 : 0 < occ g a b v → 0 < occ f a b v := by
    intro h
    obtain ⟨r, a1, a2, a3⟩ := (occ_pos g a b v).1 h
    obtain ⟨r', b1, b2, b3⟩ := h2 r a1 a2
    exact (occ_pos f a b v).2 ⟨r', b1, b2, by rw [b3, a3]⟩
  omega

/-- The members of the group in the cells from `a` to `b` are followed, `D` later, by members of the cells from `f` to `l`. -/
theorem copied_state (hT : Alone T) {s : Sta} {D f a b l : Nat} (hC : Core T isa h s) (hg : IsGrp T s.I s.q a b) (hfa : f ≤ a) (hbl : b ≤ l) (hD : 0 < D) (hl : l ≤ T.length)
    (hcells : ∀ r, f ≤ r → r < l → cel s.sa r = (s.q r : Int))
    (hpar : ∀ r, a ≤ r → r < b → s.q r + D < T.length ∧ ∃ r', f ≤ r' ∧ r' < l ∧ s.q r' = s.q r + D)
    (hagr : ∀ r r', a ≤ r → r < b → a ≤ r' → r' < b → Agree T D (s.q r) (s.q r'))
    (hdeep : ∀ r r', f ≤ r → r < l → ¬ (a ≤ r ∧ r < b) → f ≤ r' → r' < l → ¬ (a ≤ r' ∧ r' < b) → s.I (s.q r) = s.I (s.q r') → Agree T (2 * h) (s.q r) (s.q r')) :
    ∃ p : Nat → Nat, Cp T.length D f a b l s.I p ∧ Base T.length f a b l s.I p ∧ (∀ r, f ≤ r → r < l → ¬ (a ≤ r ∧ r < b) → p (s.q r) = r) ∧
      (∀ i, i < T.length → ¬ (a ≤ p i ∧ p i < b) → s.q (p i) = i) ∧
      ∀ A I' bud st, Copied T.length isa D f a b s.I p s.sa A I' → ∃ s' : Sta, s'.sa = A ∧ s'.I = I' ∧ s'.bud = bud ∧ s'.st = st ∧ Core T isa h s' ∧
        Chg T isa (fun r => a ≤ r ∧ r < b) s s' ∧ (∀ r, a ≤ r → r < b → cel A r = (s'.q r : Int)) ∧ (∀ r, a ≤ r → r < b → p (s'.q r) = r) ∧
        (∀ r r', f ≤ r → r < l → f ≤ r' → r' < l → I' (s'.q r) = I' (s'.q r') → Agree T (2 * h) (s'.q r) (s'.q r')) := by
  have hlt := hg.lt
  have hR := hC.rk
  obtain ⟨pos, hpos⟩ : ∃ pos : Nat → Nat, ∀ i, i < T.length → pos i < T.length ∧ s.q (pos i) = i := by
    refine ⟨fun i => open Classical in if h : i < T.length then (hR.onto i h).choose else 0, fun i hi => ?_⟩
    dsimp only
    rw [dif_pos hi]
    exact (hR.onto i hi).choose_spec
  have hpq : ∀ r, r < T.length → pos (s.q r) = r := by
    intro r hr
    have := hpos (s.q r) (hR.cell r hr)
    exact hR.inj _ _ this.1 hr this.2
  have hN : Nest T.length D f a b l pos := by
    refine ⟨hfa, hbl, hD, ?_, ?_, ?_⟩
    · intro i j h1 h2 h3 h4 h5
      rw [← (hpos i h1).2, h5, (hpos j h2).2]
    · intro r h1 h2
      exact ⟨s.q r, hR.cell r (by omega), hpq r (by omega)⟩
    · intro i h1 h2 h3
      obtain ⟨k1, r', k2, k3, k4⟩ := hpar (pos i) h2 h3
      rw [(hpos i h1).2] at k1 k4
      rw [← k4, hpq r' (by omega)]
      exact ⟨hR.cell r' (by omega), k2, k3⟩
  obtain ⟨p, p1, p2, p3, p4, p5⟩ := hN.place
  -- the members of the group
  have hM : ∀ i, i < T.length → ((a ≤ p i ∧ p i < b) ↔ (a ≤ pos i ∧ pos i < b)) := by
    intro i hi
    by_cases h1 : a ≤ pos i ∧ pos i < b
    · exact ⟨fun _ => h1, fun _ => p2 i hi h1.1 h1.2⟩
    · rw [p1 i hi h1]
  have hG : ∀ i, i < T.length → ((f ≤ p i ∧ p i < l) ↔ (f ≤ pos i ∧ pos i < l)) := by
    intro i hi
    by_cases h1 : a ≤ pos i ∧ pos i < b
    · have := p2 i hi h1.1 h1.2
      omega
    · rw [p1 i hi h1]
  have hrank : ∀ i, i < T.length → (s.I i + 1 = b ↔ a ≤ pos i ∧ pos i < b) := by
    intro i hi
    have hi' := hpos i hi
    constructor
    · intro h1
      refine ⟨?_, ?_⟩
      · rcases Nat.lt_or_ge (pos i) a with h2 | h2
        · have := hg.low _ h2
          rw [hi'.2] at this; omega
        · exact h2
      · have := (hR.up _ hi'.1).1
        rw [hi'.2] at this; omega
    · intro h1
      have := hg.val _ h1.1 h1.2
      rwa [hi'.2] at this
  have hlow : ∀ i, i < T.length → pos i < a → s.I i < a := by
    intro i hi h1
    have := hg.low _ h1
    rwa [(hpos i hi).2] at this
  have hup : ∀ i, i < T.length → pos i ≤ s.I i := by
    intro i hi
    have := (hR.up _ (hpos i hi).1).1
    rwa [(hpos i hi).2] at this
  have hmono : ∀ i j, i < T.length → j < T.length → pos i ≤ pos j → s.I i ≤ s.I j := by
    intro i j hi hj h1
    have := hR.mono h1 (hpos j hj).1
    rwa [(hpos i hi).2, (hpos j hj).2] at this
  have hcase : ∀ i, i < T.length → (a ≤ p i ∧ p i < b ∧ a ≤ pos i ∧ pos i < b ∧ s.I i + 1 = b) ∨ (p i < a ∧ p i = pos i ∧ s.I i < a) ∨ (b ≤ p i ∧ p i = pos i ∧ b ≤ s.I i) := by
    intro i hi
    have h1 := hM i hi
    have h2 := hrank i hi
    by_cases h3 : a ≤ pos i ∧ pos i < b
    · exact Or.inl ⟨(h1.2 h3).1, (h1.2 h3).2, h3.1, h3.2, h2.2 h3⟩
    · have h4 := p1 i hi h3
      rcases Nat.lt_or_ge (pos i) a with h5 | h5
      · exact Or.inr (Or.inl ⟨by omega, h4, hlow i hi h5⟩)
      · have := hup i hi
        exact Or.inr (Or.inr ⟨by omega, h4, by omega⟩)
  have hCp : Cp T.length D f a b l s.I p := by
    refine ⟨hfa, by omega, hbl, hD, ?_, ?_, ?_, ?_, fun i hi => by rw [hrank i hi, hM i hi]⟩
    · intro i j h1 h2 h3 h4 h5
      have g1 := (hG i h1).1 ⟨h3, h4⟩
      have g2 := (hG j h2).1 ⟨by omega, by omega⟩
      exact p4 i j h1 h2 g1.1 g1.2 g2.1 g2.2 h5
    · intro r h1 h2
      by_cases h3 : a ≤ r ∧ r < b
      · obtain ⟨i, i1, _, _, i2⟩ := p3 r h3.1 h3.2
        exact ⟨i, i1, i2⟩
      · refine ⟨s.q r, hR.cell r (by omega), ?_⟩
        have := hpq r (by omega)
        rw [p1 _ (hR.cell r (by omega)) (by omega), this]
    · intro i h1 h2 h3
      have m := (hM i h1).1 ⟨h2, h3⟩
      have k := hN.par i h1 m.1 m.2
      exact ⟨k.1, ((hG _ k.1).2 k.2).1, ((hG _ k.1).2 k.2).2⟩
    · intro i j h1 h2 h3 h4 h5 h6
      have m := (hM i h1).1 ⟨h3, h4⟩
      have m' := (hM j h2).1 ⟨h5, h6⟩
      exact p5 i j h1 h2 m.1 m.2 m'.1 m'.2
  have hBase : Base T.length f a b l s.I p := by
    refine ⟨?_, ?_, ?_, ?_⟩
    · intro i h1 h2 h3
      rcases hcase i h1 with k | k | k <;> omega
    · intro i h1 h2 h3
      have := hup i h1
      rcases hcase i h1 with k | k | k <;> omega
    · intro i j h1 h2 h3 h4 h5
      have := hmono i j h1 h2
      rcases hcase i h1 with k | k | k <;> rcases hcase j h2 with k' | k' | k' <;> omega
    · intro i j h1 h2 h3 h4 h5 h6
      rcases hcase i h1 with k | k | k <;> rcases hcase j h2 with k' | k' | k' <;> try omega
      · have := hR.blk (pos i) (pos j) (hpos i h1).1 (by omega) (by rw [(hpos i h1).2]; omega)
        rwa [(hpos i h1).2, (hpos j h2).2] at this
      · have := hR.blk (pos i) (pos j) (hpos i h1).1 (by omega) (by rw [(hpos i h1).2]; omega)
        rwa [(hpos i h1).2, (hpos j h2).2] at this
  refine ⟨p, hCp, hBase, ?_, ?_, ?_⟩
  · intro r h1 h2 h3
    have := hpq r (by omega)
    rw [p1 _ (hR.cell r (by omega)) (by omega), this]
  · intro i h1 h2
    rw [hM i h1] at h2
    rw [p1 i h1 h2, (hpos i h1).2]
  intro A I' bud st hK
  -- the cells
  obtain ⟨x, hx⟩ : ∃ x : Nat → Nat, ∀ r, a ≤ r → r < b → x r < T.length ∧ cel A r = (x r : Int) ∧ p (x r) = r := by
    refine ⟨fun r => open Classical in if h : a ≤ r ∧ r < b then (hK.cells r h.1 h.2).choose else 0, fun r h1 h2 => ?_⟩
    dsimp only
    rw [dif_pos ⟨h1, h2⟩]
    exact (hK.cells r h1 h2).choose_spec
  have hxd : ∀ r, a ≤ r → r < b → dec (cel A r) = x r := fun r h1 h2 => by rw [(hx r h1 h2).2.1, dec_nat']
  have hdec : ∀ r, a ≤ r → r < b → dec (cel s.sa r) = s.q r := fun r h1 h2 => by rw [hcells r (by omega) (by omega), dec_nat']
  have hperm : Perm a b (cel s.sa) (cel A) := by
    refine perm_of ?_ ?_ ?_ ?_
    · intro r r' h1 h2 h3 h4 h5
      rw [hdec r h1 h2, hdec r' h3 h4] at h5
      exact hR.inj r r' (by omega) (by omega) h5
    · intro r r' h1 h2 h3 h4 h5
      rw [hxd r h1 h2, hxd r' h3 h4] at h5
      rw [← (hx r h1 h2).2.2, h5, (hx r' h3 h4).2.2]
    · intro r h1 h2
      have c := hR.cell r (by omega)
      have m := (hM _ c).2 (by rw [hpq r (by omega)]; exact ⟨h1, h2⟩)
      refine ⟨p (s.q r), m.1, m.2, ?_⟩
      rw [hxd _ m.1 m.2, hdec r h1 h2]
      exact hCp.inj _ _ (hx _ m.1 m.2).1 c (by rw [(hx _ m.1 m.2).2.2]; omega) (by rw [(hx _ m.1 m.2).2.2]; omega) (hx _ m.1 m.2).2.2
    · intro r h1 h2
      have c := hx r h1 h2
      have m := (hM _ c.1).1 (by rw [c.2.2]; exact ⟨h1, h2⟩)
      refine ⟨pos (x r), m.1, m.2, ?_⟩
      rw [hxd r h1 h2, hdec _ m.1 m.2, (hpos _ c.1).2]
  -- the ranks
  have hKM : ∀ i, i < T.length → (a ≤ p i ∧ p i < b ∧ a ≤ I' i ∧ I' i < b) ∨ (p i < a ∧ I' i = s.I i ∧ I' i < a) ∨ (b ≤ p i ∧ I' i = s.I i ∧ b ≤ I' i) := by
    intro i hi
    rcases hcase i hi with k | k | k
    · have := hK.up i hi k.1 k.2.1
      exact Or.inl ⟨k.1, k.2.1, by omega, this.2⟩
    · have := hK.keep i hi (by omega)
      exact Or.inr (Or.inl ⟨k.1, this, by omega⟩)
    · have := hK.keep i hi (by omega)
      exact Or.inr (Or.inr ⟨k.1, this, by omega⟩)
  have hmono' : ∀ i j, i < T.length → j < T.length → p i ≤ p j → I' i ≤ I' j := by
    intro i j h1 h2 h3
    have k0 := hmono i j h1 h2
    rcases hKM i h1 with k | k | k <;> rcases hKM j h2 with k' | k' | k' <;> try omega
    · rcases Nat.lt_or_ge (I' j) (I' i) with h4 | h4
      · have u := hK.up j h2 k'.1 k'.2.1
        have := hK.blk i j h1 h2 k.1 h3 k'.2.1 (by omega)
        omega
      · exact h4
    · have c1 := hcase i h1
      have c2 := hcase j h2
      omega
    · have c1 := hcase i h1
      have c2 := hcase j h2
      omega
  have hMagr : ∀ i j, i < T.length → j < T.length → a ≤ p i → p i < b → a ≤ p j → p j < b → Agree T D i j := by
    intro i j h1 h2 h3 h4 h5 h6
    have m := (hM i h1).1 ⟨h3, h4⟩
    have m' := (hM j h2).1 ⟨h5, h6⟩
    have := hagr _ _ m.1 m.2 m'.1 m'.2
    rwa [(hpos i h1).2, (hpos j h2).2] at this
  have hcons : ∀ k i j, T.length - i ≤ k → i < T.length → j < T.length → I' i < I' j → sless T i j := by
    intro k
    induction k with
    | zero => intro i j h0 h1; omega
    | succ k ih =>
      intro i j h0 h1 h2 h3
      by_cases hm : (a ≤ p i ∧ p i < b) ∧ a ≤ p j ∧ p j < b
      · have q1 := hCp.par i h1 hm.1.1 hm.1.2
        have q2 := hCp.par j h2 hm.2.1 hm.2.2
        have hpp : p i < p j := by
          rcases Nat.lt_or_ge (p i) (p j) with h | h
          · exact h
          · have := hmono' j i h2 h1 h
            omega
        have q3 := (hCp.ord i j h1 h2 hm.1.1 hm.1.2 hm.2.1 hm.2.2).1 hpp
        have q4 := hmono' (i + D) (j + D) q1.1 q2.1 (by omega)
        have q5 : I' (i + D) ≠ I' (j + D) := fun h => by
          have := (hK.eqv i j h1 h2 hm.1.1 hm.1.2 hm.2.1 hm.2.2).2 h
          omega
        exact ((hMagr i j h1 h2 hm.1.1 hm.1.2 hm.2.1 hm.2.2).less hT h1 h2).2 (ih _ _ (by omega) q1.1 q2.1 (by omega))
      · have c1 := hcase i h1
        have c2 := hcase j h2
        have d1 := hKM i h1
        have d2 := hKM j h2
        exact hR.cons i j h1 h2 (by omega)
  have hdeep' : ∀ k i j, T.length - i ≤ k → i < T.length → j < T.length → f ≤ p i → p i < l → f ≤ p j → p j < l → I' i = I' j → Agree T (2 * h) i j := by
    intro k
    induction k with
    | zero => intro i j h0 h1; omega
    | succ k ih =>
      intro i j h0 h1 h2 h3 h4 h5 h6 h7
      have c1 := hKM i h1
      have c2 := hKM j h2
      by_cases hm : a ≤ p i ∧ p i < b
      · have hm' : a ≤ p j ∧ p j < b := by omega
        have q1 := hCp.par i h1 hm.1 hm.2
        have q2 := hCp.par j h2 hm'.1 hm'.2
        have e1 := (hK.eqv i j h1 h2 hm.1 hm.2 hm'.1 hm'.2).1 h7
        have e2 := ih _ _ (by omega) q1.1 q2.1 q1.2.1 q1.2.2 q2.2.1 q2.2.2 e1
        exact ((hMagr i j h1 h2 hm.1 hm.2 hm'.1 hm'.2).add e2).mono (by omega)
      · have hm' : ¬ (a ≤ p j ∧ p j < b) := by omega
        have m := hM i h1
        have m' := hM j h2
        have g := (hG i h1).1 ⟨h3, h4⟩
        have g' := (hG j h2).1 ⟨h5, h6⟩
        have := hdeep (pos i) (pos j) g.1 g.2 (fun h => hm (m.2 h)) g'.1 g'.2 (fun h => hm' (m'.2 h))
        rw [(hpos i h1).2, (hpos j h2).2] at this
        exact this (by omega)
  obtain ⟨r1, r2⟩ := regroup bud st hC hg hdec hK.len hK.out hperm hK.ranks
    (by
      intro r h1 h2
      refine hK.keep _ (hR.cell r h1) ?_
      rw [hM _ (hR.cell r h1), hpq r h1]; omega)
    (by
      intro r h1 h2
      have c := hx r h1 h2
      rw [hxd r h1 h2]
      have := hK.up _ c.1 (by omega) (by omega)
      omega)
    (by
      intro r r' h1 h2 h3 h4 h5
      have c := hx r h1 h2
      have c' := hx r' (by omega) h4
      rw [hxd r h1 h2] at h5 ⊢
      rw [hxd r' (by omega) h4]
      exact hK.blk _ _ c.1 c'.1 (by omega) (by omega) (by omega) (by omega))
    (by
      intro r r' h1 h2 h3 h4 h5
      rw [hxd r h1 h2, hxd r' h3 h4] at h5 ⊢
      exact hcons _ _ _ (Nat.le_refl _) (hx r h1 h2).1 (hx r' h3 h4).1 h5)
  have hnp : ∀ r, f ≤ r → r < l → newq a b s.q A r < T.length ∧ p (newq a b s.q A r) = r := by
    intro r h1 h2
    by_cases h3 : a ≤ r ∧ r < b
    · rw [newq_in h3.1 h3.2, hxd r h3.1 h3.2]
      exact ⟨(hx r h3.1 h3.2).1, (hx r h3.1 h3.2).2.2⟩
    · rw [newq_out (by omega)]
      have := hpq r (by omega)
      exact ⟨hR.cell r (by omega), by rw [p1 _ (hR.cell r (by omega)) (by omega), this]⟩
  refine ⟨_, rfl, rfl, rfl, rfl, r1, r2, ?_, ?_, ?_⟩
  · intro r h1 h2
    show cel A r = ((newq a b s.q A r : Nat) : Int)
    rw [newq_in h1 h2, hxd r h1 h2, (hx r h1 h2).2.1]
  · intro r h1 h2
    exact (hnp r (by omega) (by omega)).2
  · intro r r' h1 h2 h3 h4 h5
    have k := hnp r h1 h2
    have k' := hnp r' h3 h4
    exact hdeep' _ (newq a b s.q A r) (newq a b s.q A r') (Nat.le_refl _) k.1 k'.1 (by omega) (by omega) (by omega) (by omega) h5

end Bwtc.Tr
