import Verif.TrCopy

/-!
# `tr_partialcopy`
-/

set_option autoImplicit false

namespace Bwtc.Tr
open Sais (put inv put_spec bind_some')
open Ss (cel get_cel cel_set_self cel_set_ne)
open Divsuf (getI putI)

/-- The ranks of the suffixes in the cells from `f` to `l`, where those from `a` to `b` are one group. -/
structure Base (n f a b l : Nat) (I p : Nat → Nat) : Prop where
  low : ∀ i, i < n → f ≤ p i → p i < a → I i < a
  up : ∀ i, i < n → f ≤ p i → p i < l → p i ≤ I i
  mono : ∀ i j, i < n → j < n → f ≤ p i → p i ≤ p j → p j < l → I i ≤ I j
  blk : ∀ i j, i < n → j < n → f ≤ p i → p i ≤ p j → p j < l → p j ≤ I i → I j = I i

section
variable {n isa D f a b l : Nat} {I p : Nat → Nat} {sa0 : List Int}

/-! ## From below -/

/-- The ranks given to the suffixes in the cells from `a` to `e`: the number of the first cell of the group. -/
structure Tmp (n D a e : Nat) (p I' : Nat → Nat) : Prop where
  mono : ∀ i j, i < n → j < n → a ≤ p i → p i ≤ p j → p j < e → I' i ≤ I' j
  eqv : ∀ i j, i < n → j < n → a ≤ p i → p i < e → a ≤ p j → p j < e → (I' i = I' j ↔ I' (i + D) = I' (j + D))
  bnd : ∀ i, i < n → a ≤ p i → p i < e → a ≤ I' i ∧ I' i ≤ p i

theorem mono_low (hB : Base n f a b l I p) {c e : Nat} {A : List Int} {I' : Nat → Nat} (hbl : b ≤ l) (hU : UpInv n isa D f a b l I p sa0 c e A I') (hT : Tmp n D a e p I') :
    ∀ i j, i < n → j < n → f ≤ p i → p i ≤ p j → p j < e → I' i ≤ I' j := by
  intro i j h1 h2 h3 h4 h5
  have heb := hU.eb
  rcases Nat.lt_or_ge (p i) a with h6 | h6
  · rw [hU.keep i h1 (by omega)]
    rcases Nat.lt_or_ge (p j) a with h7 | h7
    · rw [hU.keep j h2 (by omega)]
      exact hB.mono i j h1 h2 h3 h4 (by omega)
    · have := hB.low i h1 h3 h6
      have := hT.bnd j h2 h7 h5
      omega
  · exact hT.mono i j h1 h2 h6 h4 h5

theorem pcopyUp_spec (hP : Cp n D f a b l I p) (hB : Base n f a b l I p) (hl : l ≤ isa) (hroom : isa + n ≤ sa0.length) : ∀ (k c e : Nat) (A : List Int) (I' : Nat → Nat) (lr nr : Int), b - c ≤ k →
    UpInv n isa D f a b l I p sa0 c e A I' → Tmp n D a e p I' →
    ((e = a ∧ lr = -1) ∨ ∃ y, y < n ∧ a ≤ p y ∧ p y + 1 = e ∧ nr = (I' y : Int) ∧ lr = (I' (y + D) : Int)) →
    ∃ A' e' I1 nr', pcopyUp isa D ((b : Int) - 1) A c e lr nr = some (A', e', nr') ∧ UpInv n isa D f a b l I p sa0 e' e' A' I1 ∧ Tmp n D a e' p I1 := by
  intro k
  induction k with
  | zero =>
    intro c e A I' lr nr hk hU hR hL
    have := hU.eb
    have := hU.ce
    have hce : c = e := by omega
    rw [pcopyUp, if_neg (by omega)]
    subst hce
    exact ⟨A, c, I', nr, rfl, hU, hR⟩
  | succ k ih =>
    intro c e A I' lr nr hk hU hR hL
    have hfa := hP.fa
    have hbl := hP.bl
    have hD := hP.step
    have h1 := hU.eb
    have h2 := hU.ce
    have hlen := hU.len
    by_cases hce : c < e
    · have hk' : b - (c + 1) ≤ k := by omega
      rw [pcopyUp, if_pos hce]
      obtain ⟨x, hx, ex, px, h3⟩ := hU.step hP hl hroom hce
      rw [bind_some' (get_cel (by omega)), ex]
      rcases h3 with ⟨hU', h3⟩ | ⟨s, hs, hsn, has, hps, heb, hIs, hU'⟩
      · rcases h3 with h3 | ⟨s, hs, hIs⟩
        · simp only
          rw [if_neg (by omega)]
          exact ih _ _ _ _ _ _ hk' hU' hR hL
        · simp only
          rw [if_pos (by omega), bind_some' (rank_get (s := s) hU.ranks (by omega) (by omega) (by omega)), if_neg (by omega)]
          exact ih _ _ _ _ _ _ hk' hU' hR hL
      · simp only
        have hxs : (x : Int) - (D : Int) = (s : Int) := by omega
        have hrk : getI (A.set e (s : Int)) (isa + ((s : Int) + (D : Int))) = some (I' (s + D) : Int) :=
          rank_get (n := n) (s := s + D) (fun i hi => by rw [cel_set_ne _ (by omega)]; exact hU.ranks i hi) (by rw [List.length_set]; omega) (by omega) (by omega)
        rw [hxs, if_pos (by omega), bind_some' (rank_get (s := s) hU.ranks (by omega) hsn rfl), if_pos (by omega), bind_some' (put_spec (i := e) (by omega) (s : Int)),
          bind_some' hrk]
        -- the new rank
        have hmono := mono_low hB hbl hU hR
        obtain ⟨w, hw, hw1, hw2, hw3⟩ : ∃ w : Nat, (if lr ≠ (I' (s + D) : Int) then (e : Int) else nr) = (w : Int) ∧ a ≤ w ∧ w ≤ e ∧
            (∀ i, i < n → a ≤ p i → p i < e → I' i ≤ w ∧ (I' i = w ↔ I' (i + D) = I' (s + D))) := by
          have hae := hU.ae
          rcases hL with ⟨k1, k2⟩ | ⟨y, y1, y2, y3, y4, y5⟩
          · exact ⟨e, by rw [if_pos (by omega)], by omega, by omega, fun i _ _ _ => by omega⟩
          · have hyD := hP.par y y1 y2 (by omega)
            have hyc := (hU.upto y y1 y2 (by omega)).2 (by omega)
            by_cases hlr : lr ≠ (I' (s + D) : Int)
            · refine ⟨e, by rw [if_pos hlr], by omega, by omega, ?_⟩
              intro i i1 i2 i3
              have k1 := hR.bnd i i1 i2 i3
              refine ⟨by omega, by omega, fun k2 => ?_⟩
              have hiD := hP.par i i1 i2 (by omega)
              have hic := (hU.upto i i1 i2 (by omega)).2 i3
              have k3 : p (i + D) ≤ p (y + D) := by
                have := hP.ord y i y1 i1 y2 (by omega) i2 (by omega)
                omega
              have k4 := hmono (i + D) (y + D) hiD.1 hyD.1 hiD.2.1 k3 (by omega)
              have k5 := hmono (y + D) (s + D) hyD.1 (by omega) hyD.2.1 (by rw [← hs, px]; omega) (by rw [← hs, px]; omega)
              omega
            · refine ⟨I' y, by rw [if_neg hlr, y4], ?_, ?_, ?_⟩
              · have := hR.bnd y y1 y2 (by omega); omega
              · have := hR.bnd y y1 y2 (by omega); omega
              · intro i i1 i2 i3
                refine ⟨hR.mono i y i1 y1 i2 (by omega) (by omega), ?_⟩
                rw [hR.eqv i y i1 y1 i2 i3 y2 (by omega)]
                have : I' (y + D) = I' (s + D) := by omega
                rw [this]
        rw [hw, bind_some' (putI_rank (i := s) rfl (by rw [List.length_set]; omega))]
        have hne : ∀ i, i < n → a ≤ p i → p i < e + 1 → i ≠ s → p i < e := by
          intro i i1 i2 i3 i4
          have : p i ≠ p s := fun h => i4 (hP.inj i s i1 hsn (by omega) (by omega) h)
          omega
        have hparne : ∀ i, i < n → a ≤ p i → p i < e + 1 → upd I' s w (i + D) = I' (i + D) := by
          intro i i1 i2 i3
          refine upd_ne (fun h => ?_)
          by_cases his : i = s
          · omega
          · have := (hU.upto i i1 i2 (by omega)).2 (hne i i1 i2 i3 his)
            rw [h] at this; omega
        refine ih _ _ _ _ _ _ hk' (hU' w) ⟨?_, ?_, ?_⟩ (Or.inr ⟨s, hsn, has, by omega, by rw [upd_self], by rw [hparne s hsn has (by omega)]⟩)
        · intro i j i1 j1 i2 ij j2
          by_cases his : i = s
          · have : j = s := by
              by_cases hjs : j = s
              · exact hjs
              · have := hne j j1 (by omega) j2 hjs
                rw [his] at ij; omega
            rw [his, this]; exact Nat.le_refl _
          · rw [upd_ne his]
            have i3 := hne i i1 i2 (by omega) his
            by_cases hjs : j = s
            · rw [hjs, upd_self]; exact (hw3 i i1 i2 i3).1
            · rw [upd_ne hjs]
              exact hR.mono i j i1 j1 i2 ij (hne j j1 (by omega) j2 hjs)
        · intro i j i1 j1 i2 i3 j2 j3
          rw [hparne i i1 i2 i3, hparne j j1 j2 j3]
          by_cases his : i = s
          · by_cases hjs : j = s
            · rw [his, hjs]; exact ⟨fun _ => rfl, fun _ => rfl⟩
            · rw [his, upd_self, upd_ne hjs]
              have := (hw3 j j1 j2 (hne j j1 j2 j3 hjs)).2
              constructor
              · intro h; exact (this.1 h.symm).symm
              · intro h; exact (this.2 h.symm).symm
          · rw [upd_ne his]
            by_cases hjs : j = s
            · rw [hjs, upd_self]; exact (hw3 i i1 i2 (hne i i1 i2 i3 his)).2
            · rw [upd_ne hjs]
              exact hR.eqv i j i1 j1 i2 (hne i i1 i2 i3 his) j2 (hne j j1 j2 j3 hjs)
        · intro i i1 i2 i3
          by_cases his : i = s
          · rw [his, upd_self]; omega
          · rw [upd_ne his]; exact hR.bnd i i1 i2 (hne i i1 i2 i3 his)
    · have hce' : c = e := by omega
      rw [pcopyUp, if_neg hce]
      subst hce'
      exact ⟨A, c, I', nr, rfl, hU, hR⟩

/-! ## The ranks -/

/-- The ranks of the suffixes in the cells from `k` to `e` are the numbers of the last cells of the groups. -/
structure FixInv (n isa k e : Nat) (p I1 : Nat → Nat) (A1 A : List Int) (I2 : Nat → Nat) : Prop where
  len : A.length = A1.length
  out : ∀ r, r < isa ∨ isa + n ≤ r → cel A r = cel A1 r
  ranks : ∀ i, i < n → cel A (isa + i) = (I2 i : Int)
  keep : ∀ i, i < n → ¬ (k ≤ p i ∧ p i < e) → I2 i = I1 i
  bnd : ∀ i, i < n → k ≤ p i → p i < e → p i ≤ I2 i ∧ I2 i < e
  same : ∀ i j, i < n → j < n → k ≤ p i → p i < e → p i ≤ p j → p j ≤ I2 i → I1 j = I1 i
  stop : ∀ i j, i < n → j < n → k ≤ p i → p i < e → p j = I2 i + 1 → p j < e → I1 j ≠ I1 i

theorem pcopyFix_spec {e : Nat} {A1 : List Int} {I1 : Nat → Nat} (hinj : ∀ i j, i < n → j < n → f ≤ p i → p i < e → p i = p j → i = j) (hei : e ≤ isa) (hroom : isa + n ≤ A1.length)
    (hcells : ∀ r, f ≤ r → r < e → ∃ x, x < n ∧ cel A1 r = (x : Int) ∧ p x = r) : ∀ (k : Nat) (A : List Int) (I2 : Nat → Nat) (lr nr : Int), f ≤ k → k ≤ e →
    FixInv n isa k e p I1 A1 A I2 → ((k = e ∧ lr = -1) ∨ ∃ y, y < n ∧ p y = k ∧ k < e ∧ lr = (I1 y : Int) ∧ nr = (I2 y : Int)) →
    ∃ A' I3 nr', pcopyFix isa f k A lr nr = some (A', nr') ∧ FixInv n isa f e p I1 A1 A' I3 := by
  intro k
  induction k with
  | zero =>
    intro A I2 lr nr h1 h2 hF hL
    have : f = 0 := by omega
    rw [pcopyFix]
    rw [this]
    exact ⟨A, I2, nr, rfl, hF⟩
  | succ k ih =>
    intro A I2 lr nr h1 h2 hF hL
    rw [pcopyFix]
    by_cases hfk : f ≤ k
    · rw [if_pos hfk]
      have hlen := hF.len
      obtain ⟨x, hx, ex, px⟩ := hcells k hfk (by omega)
      have hIx : I2 x = I1 x := hF.keep x hx (by omega)
      rw [bind_some' (get_cel (by omega)), hF.out k (by omega), ex, bind_some' (rank_get (s := x) hF.ranks (by omega) hx rfl), hIx]
      simp only
      have hne : ∀ i, i < n → k ≤ p i → p i < e → i ≠ x → k + 1 ≤ p i := by
        intro i i1 i2 i3 i4
        have : p i ≠ p x := fun h => i4 (hinj i x i1 hx (by omega) i3 h)
        omega
      obtain ⟨w, hw, hw1, hw2, hw3, hw4⟩ : ∃ w : Nat, (if lr ≠ (I1 x : Int) then (k : Int) else nr) = (w : Int) ∧ k ≤ w ∧ w < e ∧
          (∀ j, j < n → p x ≤ p j → p j ≤ w → I1 j = I1 x) ∧ (∀ j, j < n → p j = w + 1 → p j < e → I1 j ≠ I1 x) := by
        rcases hL with ⟨k1, k2⟩ | ⟨y, y1, y2, y3, y4, y5⟩
        · refine ⟨k, by rw [if_pos (by omega)], by omega, by omega, ?_, fun j j1 j2 j3 => by omega⟩
          intro j j1 j2 j3
          have : x = j := hinj x j hx j1 (by omega) (by omega) (by omega)
          rw [this]
        · by_cases hlr : lr ≠ (I1 x : Int)
          · refine ⟨k, by rw [if_pos hlr], by omega, by omega, ?_, ?_⟩
            · intro j j1 j2 j3
              have : x = j := hinj x j hx j1 (by omega) (by omega) (by omega)
              rw [this]
            · intro j j1 j2 j3
              have : y = j := hinj y j y1 j1 (by omega) (by omega) (by omega)
              rw [← this]; omega
          · have hyb := hF.bnd y y1 (by omega) (by omega)
            have e1 : I1 y = I1 x := by omega
            refine ⟨I2 y, by rw [if_neg hlr, y5], by omega, hyb.2, ?_, ?_⟩
            · intro j j1 j2 j3
              by_cases hjx : j = x
              · rw [hjx]
              · have hj := hne j j1 (by omega) (by omega) hjx
                rw [← e1]
                exact hF.same y j y1 j1 (by omega) (by omega) (by omega) j3
            · intro j j1 j2 j3
              rw [← e1]
              exact hF.stop y j y1 j1 (by omega) (by omega) j2 j3
      rw [hw]
      -- the array
      have hranks : ∀ A' : List Int, A'.length = A.length → (∀ r, r ≠ isa + x → cel A' r = cel A r) → cel A' (isa + x) = (w : Int) →
          FixInv n isa k e p I1 A1 A' (upd I2 x w) := by
        intro A' a1 a2 a3
        refine ⟨by omega, fun r hr => by rw [a2 r (by omega)]; exact hF.out r hr, ?_, ?_, ?_, ?_, ?_⟩
        · intro i hi
          by_cases hix : i = x
          · rw [hix, a3, upd_self]
          · rw [a2 _ (by omega), upd_ne hix]; exact hF.ranks i hi
        · intro i i1 i2
          rw [upd_ne (fun h => by subst h; omega)]
          exact hF.keep i i1 (by omega)
        · intro i i1 i2 i3
          by_cases hix : i = x
          · rw [hix, upd_self]; omega
          · rw [upd_ne hix]; exact hF.bnd i i1 (hne i i1 i2 i3 hix) i3
        · intro i j i1 j1 i2 i3 ij j2
          by_cases hix : i = x
          · rw [hix, upd_self] at j2
            rw [hix] at ij ⊢
            exact hw3 j j1 ij j2
          · rw [upd_ne hix] at j2
            exact hF.same i j i1 j1 (hne i i1 i2 i3 hix) i3 ij j2
        · intro i j i1 j1 i2 i3 j2 j3
          by_cases hix : i = x
          · rw [hix, upd_self] at j2
            rw [hix]
            exact hw4 j j1 j2 j3
          · rw [upd_ne hix] at j2
            exact hF.stop i j i1 j1 (hne i i1 i2 i3 hix) i3 j2 j3
      obtain ⟨A', e2, hF'⟩ : ∃ A', (if (w : Int) ≠ (I1 x : Int) then putI A (isa + (x : Int)) (w : Int) else some A) = some A' ∧ FixInv n isa k e p I1 A1 A' (upd I2 x w) := by
        by_cases hwx : (w : Int) ≠ (I1 x : Int)
        · rw [if_pos hwx]
          exact ⟨_, putI_rank (i := x) rfl (by omega), hranks _ List.length_set (fun r hr => cel_set_ne _ hr) (cel_set_self (by omega) _)⟩
        · rw [if_neg hwx]
          exact ⟨A, rfl, hranks _ rfl (fun _ _ => rfl) (by rw [hF.ranks x hx, hIx]; omega)⟩
      rw [bind_some' e2]
      exact ih A' _ _ _ hfk (by omega) hF' (Or.inr ⟨x, hx, px, by omega, rfl, by rw [upd_self]⟩)
    · rw [if_neg hfk]
      have : f = k + 1 := by omega
      rw [this]
      exact ⟨A, I2, nr, rfl, hF⟩

/-! ## From above -/

/-- The ranks given to the suffixes in the cells from `d` to `b`. -/
structure Top (n D b d : Nat) (p I' : Nat → Nat) : Prop where
  mono : ∀ i j, i < n → j < n → d ≤ p i → p i ≤ p j → p j < b → I' i ≤ I' j
  eqv : ∀ i j, i < n → j < n → d ≤ p i → p i < b → d ≤ p j → p j < b → (I' i = I' j ↔ I' (i + D) = I' (j + D))
  bnd : ∀ i, i < n → d ≤ p i → p i < b → p i ≤ I' i ∧ I' i < b
  blk : ∀ i j, i < n → j < n → d ≤ p i → p i ≤ p j → p j < b → p j ≤ I' i → I' j = I' i

theorem mono_high (hB : Base n f a b l I p) {I1 : Nat → Nat} (hI1 : ∀ i, i < n → b ≤ p i → I1 i = I i) {sa1 : List Int} {e k d : Nat} {A : List Int} {I' : Nat → Nat} (hfd : f ≤ d)
    (hU : DnInv n isa D f a b l I1 p sa1 e k d A I') (hT : Top n D b d p I') :
    ∀ i j, i < n → j < n → d ≤ p i → p i ≤ p j → p j < l → I' i ≤ I' j := by
  intro i j h1 h2 h3 h4 h5
  have hdb := hU.db
  rcases Nat.lt_or_ge (p j) b with h6 | h6
  · exact hT.mono i j h1 h2 h3 h4 h6
  · rw [hU.keep j h2 (by omega), hI1 j h2 h6]
    rcases Nat.lt_or_ge (p i) b with h7 | h7
    · have := hT.bnd i h1 h3 h7
      have := hB.up j h2 (by omega) h5
      omega
    · rw [hU.keep i h1 (by omega), hI1 i h1 h7]
      exact hB.mono i j h1 h2 (by omega) h4 h5

theorem pcopyDown_spec (hP : Cp n D f a b l I p) (hB : Base n f a b l I p) {I1 : Nat → Nat} (hI1 : ∀ i, i < n → b ≤ p i → I1 i = I i) {sa1 : List Int} {e : Nat} (hM1 : Mid n D a b e I1 p)
    (hl : l ≤ isa) (hroom : isa + n ≤ sa1.length) :
    ∀ (k d : Nat) (A : List Int) (I' : Nat → Nat) (lr nr : Int), DnInv n isa D f a b l I1 p sa1 e k d A I' → Top n D b d p I' →
    ((d = b ∧ lr = -1) ∨ ∃ y, y < n ∧ p y = d ∧ d < b ∧ nr = (I' y : Int) ∧ lr = (I' (y + D) : Int)) →
    ∃ A' I3 k', pcopyDown isa D ((b : Int) - 1) e k A d lr nr = some A' ∧ DnInv n isa D f a b l I1 p sa1 e k' e A' I3 ∧ Top n D b e p I3 := by
  intro k
  induction k with
  | zero =>
    intro d A I' lr nr hU hR hL
    have h1 := hU.ed
    by_cases hed : e < d
    · obtain ⟨c, x, hc, _⟩ := hU.step hP hM1 hl hroom hed
      omega
    · have : d = e := by omega
      subst this
      rw [pcopyDown, if_neg hed]
      exact ⟨A, I', 0, rfl, hU, hR⟩
  | succ k ih =>
    intro d A I' lr nr hU hR hL
    have hfa := hP.fa
    have hbl := hP.bl
    have hD := hP.step
    have hae := hM1.ae
    have h1 := hU.ed
    have h2 := hU.db
    have h4 := hU.kl
    have hlen := hU.len
    by_cases hed : e < d
    · rw [pcopyDown, if_pos hed]
      obtain ⟨c, x, hc, hdc, hx, ex, px, h3⟩ := hU.step hP hM1 hl hroom hed
      have hc' : k = c := by omega
      subst hc'
      rw [bind_some' (get_cel (by omega)), ex]
      rcases h3 with ⟨hU', h3⟩ | ⟨s, hs, hsn, has, hps, hIs, hU'⟩
      · rcases h3 with h3 | ⟨s, hs, hIs⟩
        · simp only
          rw [if_neg (by omega)]
          exact ih _ _ _ _ _ hU' hR hL
        · simp only
          rw [if_pos (by omega), bind_some' (rank_get (s := s) hU.ranks (by omega) (by omega) (by omega)), if_neg (by omega)]
          exact ih _ _ _ _ _ hU' hR hL
      · simp only
        have hxs : (x : Int) - (D : Int) = (s : Int) := by omega
        have hrk : getI (A.set (d - 1) (s : Int)) (isa + ((s : Int) + (D : Int))) = some (I' (s + D) : Int) :=
          rank_get (n := n) (s := s + D) (fun i hi => by rw [cel_set_ne _ (by omega)]; exact hU.ranks i hi) (by rw [List.length_set]; omega) (by omega) (by omega)
        rw [hxs, if_pos (by omega), bind_some' (rank_get (s := s) hU.ranks (by omega) hsn rfl), if_pos (by omega), bind_some' (put_spec (i := d - 1) (by omega) (s : Int)),
          bind_some' hrk]
        have hmono := mono_high hB hI1 (by omega) hU hR
        obtain ⟨w, hw, hw1, hw2, hw3, hw4⟩ : ∃ w : Nat, (if lr ≠ (I' (s + D) : Int) then (d : Int) - 1 else nr) = (w : Int) ∧ p s ≤ w ∧ w < b ∧
            (∀ i, i < n → d ≤ p i → p i < b → w ≤ I' i ∧ (I' i = w ↔ I' (i + D) = I' (s + D))) ∧ (∀ i, i < n → d ≤ p i → p i < b → p i ≤ w → I' i = w) := by
          rcases hL with ⟨k1, k2⟩ | ⟨y, y1, y2, y3, y4, y5⟩
          · exact ⟨d - 1, by rw [if_pos (by omega)]; omega, by omega, by omega, fun i _ _ _ => by omega, fun i _ _ _ => by omega⟩
          · have hyD := hP.par y y1 (by omega) (by omega)
            have hyc := (hU.from' y y1 (by omega) (by omega)).2 (by omega)
            by_cases hlr : lr ≠ (I' (s + D) : Int)
            · refine ⟨d - 1, by rw [if_pos hlr]; omega, by omega, by omega, ?_, fun i _ _ _ => by omega⟩
              intro i i1 i2 i3
              have k1 := hR.bnd i i1 i2 i3
              refine ⟨by omega, by omega, fun k2 => ?_⟩
              have hiD := hP.par i i1 (by omega) i3
              have hic := (hU.from' i i1 (by omega) i3).2 i2
              have k3 : p (y + D) ≤ p (i + D) := by
                have := hP.ord i y i1 y1 (by omega) i3 (by omega) (by omega)
                omega
              have k4 := hmono (y + D) (i + D) hyD.1 hiD.1 (by omega) k3 hiD.2.2
              have k5 := hmono (s + D) (y + D) (by omega) hyD.1 (by rw [← hs, px]; omega) (by rw [← hs, px]; omega) hyD.2.2
              omega
            · have hyb := hR.bnd y y1 (by omega) (by omega)
              refine ⟨I' y, by rw [if_neg hlr, y4], by omega, hyb.2, ?_, ?_⟩
              · intro i i1 i2 i3
                refine ⟨hR.mono y i y1 i1 (by omega) (by omega) i3, ?_⟩
                rw [hR.eqv i y i1 y1 i2 i3 (by omega) (by omega)]
                have : I' (y + D) = I' (s + D) := by omega
                rw [this]
              · intro i i1 i2 i3 i4
                exact hR.blk y i y1 i1 (by omega) (by omega) i3 i4
        rw [hw, bind_some' (putI_rank (i := s) rfl (by rw [List.length_set]; omega))]
        have hne : ∀ i, i < n → d - 1 ≤ p i → p i < b → i ≠ s → d ≤ p i := by
          intro i i1 i2 i3 i4
          have : p i ≠ p s := fun h => i4 (hP.inj i s i1 hsn (by omega) (by omega) h)
          omega
        have hparne : ∀ i, i < n → d - 1 ≤ p i → p i < b → upd I' s w (i + D) = I' (i + D) := by
          intro i i1 i2 i3
          refine upd_ne (fun h => ?_)
          by_cases his : i = s
          · omega
          · have := (hU.from' i i1 (by omega) i3).2 (hne i i1 i2 i3 his)
            rw [h] at this; omega
        refine ih _ _ _ _ _ (hU' w) ⟨?_, ?_, ?_, ?_⟩ (Or.inr ⟨s, hsn, by omega, by omega, by rw [upd_self], by rw [hparne s hsn (by omega) (by omega)]⟩)
        · intro i j i1 j1 i2 ij j2
          by_cases his : i = s
          · rw [his, upd_self]
            by_cases hjs : j = s
            · rw [hjs, upd_self]; exact Nat.le_refl _
            · rw [upd_ne hjs]
              exact (hw3 j j1 (hne j j1 (by omega) j2 hjs) j2).1
          · rw [upd_ne his]
            have i3 := hne i i1 i2 (by omega) his
            have hjs : j ≠ s := fun h => by rw [h] at ij; omega
            rw [upd_ne hjs]
            exact hR.mono i j i1 j1 i3 ij j2
        · intro i j i1 j1 i2 i3 j2 j3
          rw [hparne i i1 i2 i3, hparne j j1 j2 j3]
          by_cases his : i = s
          · by_cases hjs : j = s
            · rw [his, hjs]; exact ⟨fun _ => rfl, fun _ => rfl⟩
            · rw [his, upd_self, upd_ne hjs]
              have := (hw3 j j1 (hne j j1 j2 j3 hjs) j3).2
              constructor
              · intro h; exact (this.1 h.symm).symm
              · intro h; exact (this.2 h.symm).symm
          · rw [upd_ne his]
            by_cases hjs : j = s
            · rw [hjs, upd_self]; exact (hw3 i i1 (hne i i1 i2 i3 his) i3).2
            · rw [upd_ne hjs]
              exact hR.eqv i j i1 j1 (hne i i1 i2 i3 his) i3 (hne j j1 j2 j3 hjs) j3
        · intro i i1 i2 i3
          by_cases his : i = s
          · rw [his, upd_self]; omega
          · rw [upd_ne his]; exact hR.bnd i i1 (hne i i1 i2 i3 his) i3
        · intro i j i1 j1 i2 ij j2 j3
          by_cases his : i = s
          · rw [his, upd_self] at j3 ⊢
            by_cases hjs : j = s
            · rw [hjs, upd_self]
            · rw [upd_ne hjs]
              exact hw4 j j1 (hne j j1 (by omega) j2 hjs) j2 j3
          · have i3 := hne i i1 i2 (by omega) his
            have hjs : j ≠ s := fun h => by rw [h] at ij; omega
            rw [upd_ne his] at j3 ⊢
            rw [upd_ne hjs]
            exact hR.blk i j i1 j1 i3 ij j2 j3
    · have : d = e := by omega
      subst this
      rw [pcopyDown, if_neg hed]
      exact ⟨A, I', k + 1, rfl, hU, hR⟩

theorem partialcopy_spec (hP : Cp n D f a b l I p) (hB : Base n f a b l I p) (hl : l ≤ isa) (hroom : isa + n ≤ sa0.length) (hI : ∀ i, i < n → cel sa0 (isa + i) = (I i : Int))
    (hlo : ∀ r, f ≤ r → r < a → ∃ x, x < n ∧ cel sa0 r = (x : Int) ∧ p x = r) (hhi : ∀ r, b ≤ r → r < l → ∃ x, x < n ∧ cel sa0 r = (x : Int) ∧ p x = r) :
    ∃ A I', partialcopy isa sa0 f a b l D = some A ∧ Copied n isa D f a b I p sa0 A I' := by
  have hfa := hP.fa
  have hbl := hP.bl
  have hab := hP.ab
  have hU0 : UpInv n isa D f a b l I p sa0 f a sa0 I := by
    refine ⟨rfl, fun _ _ _ => rfl, hI, hlo, Nat.le_refl _, hab, Nat.le_refl _, hfa, ?_, fun _ _ _ => rfl⟩
    intro i h1 h2 h3
    have := hP.par i h1 h2 h3
    omega
  obtain ⟨A1, e, I1, nr1, e1, hU, hR⟩ := pcopyUp_spec hP hB hl hroom _ f a sa0 I (-1) (-1) (Nat.le_refl _) hU0
    ⟨fun i j h1 h2 h3 h4 h5 => by omega, fun i j h1 h2 h3 h4 h5 h6 => by omega, fun i h1 h2 h3 => by omega⟩ (Or.inl ⟨rfl, rfl⟩)
  have hae := hU.ae
  have heb := hU.eb
  have hlen1 := hU.len
  have hmono1 := mono_low hB hbl hU hR
  obtain ⟨A2, I2, nr2, e2, hF⟩ := pcopyFix_spec (n := n) (isa := isa) (f := f) (p := p) (e := e) (A1 := A1) (I1 := I1) (fun i j h1 h2 h3 h4 h5 => hP.inj i j h1 h2 h3 (by omega) h5) (by omega) (by omega) hU.cells
    e A1 I1 (-1) nr1 (by omega) (Nat.le_refl _)
    ⟨rfl, fun _ _ => rfl, hU.ranks, fun _ _ _ => rfl, fun i h1 h2 h3 => by omega, fun i j h1 h2 h3 h4 => by omega, fun i j h1 h2 h3 h4 => by omega⟩ (Or.inl ⟨rfl, rfl⟩)
  have hlen2 := hF.len
  -- groups are the same as before
  have hsame : ∀ i j, i < n → j < n → f ≤ p i → p i ≤ p j → p j < e → (I2 i = I2 j ↔ I1 i = I1 j) := by
    intro i j h1 h2 h3 h4 h5
    have b1 := hF.bnd i h1 h3 (by omega)
    have b2 := hF.bnd j h2 (by omega) h5
    constructor
    · intro h6
      exact (hF.same i j h1 h2 h3 (by omega) h4 (by omega)).symm
    · intro h6
      have h7 : p j ≤ I2 i := by
        rcases Nat.lt_or_ge (I2 i) (p j) with h8 | h8
        · obtain ⟨x, x1, x2⟩ := hP.onto (I2 i + 1) (by omega) (by omega)
          have k1 := hF.stop i x h1 x1 h3 (by omega) x2 (by omega)
          have k2 := hmono1 i x h1 x1 h3 (by omega) (by omega)
          have k3 := hmono1 x j x1 h2 (by omega) (by omega) h5
          omega
        · exact h8
      rcases Nat.lt_trichotomy (I2 i) (I2 j) with h8 | h8 | h8
      · obtain ⟨x, x1, x2⟩ := hP.onto (I2 i + 1) (by omega) (by omega)
        have k1 := hF.stop i x h1 x1 h3 (by omega) x2 (by omega)
        have k2 := hF.same j x h2 x1 (by omega) h5 (by omega) (by omega)
        omega
      · exact h8
      · obtain ⟨x, x1, x2⟩ := hP.onto (I2 j + 1) (by omega) (by omega)
        have k1 := hF.stop j x h2 x1 (by omega) h5 x2 (by omega)
        have k2 := hF.same i x h1 x1 h3 (by omega) (by omega) (by omega)
        omega
  have hsame' : ∀ i j, i < n → j < n → f ≤ p i → p i < e → f ≤ p j → p j < e → (I2 i = I2 j ↔ I1 i = I1 j) := by
    intro i j h1 h2 h3 h4 h5 h6
    rcases Nat.le_total (p i) (p j) with h7 | h7
    · exact hsame i j h1 h2 h3 h7 h6
    · have := hsame j i h2 h1 h5 h7 h4
      constructor
      · intro h; exact (this.1 h.symm).symm
      · intro h; exact (this.2 h.symm).symm
  have hlowk : ∀ i, i < n → f ≤ p i → p i < a → I2 i = I i := by
    intro i h1 h2 h3
    have b1 := hF.bnd i h1 h2 (by omega)
    have c1 := hB.low i h1 h2 h3
    have c2 := hB.up i h1 h2 (by omega)
    have k1 : I1 i = I i := hU.keep i h1 (by omega)
    rcases Nat.lt_trichotomy (I2 i) (I i) with h8 | h8 | h8
    · obtain ⟨x, x1, x2⟩ := hP.onto (I2 i + 1) (by omega) (by omega)
      have k2 := hF.stop i x h1 x1 h2 (by omega) x2 (by omega)
      have k3 := hB.blk i x h1 x1 h2 (by omega) (by omega) (by omega)
      rw [hU.keep x x1 (by omega), k1] at k2
      exact absurd k3 k2
    · exact h8
    · obtain ⟨x, x1, x2⟩ := hP.onto (I i + 1) (by omega) (by omega)
      have k2 := hF.same i x h1 x1 h2 (by omega) (by omega) (by omega)
      rcases Nat.lt_or_ge (p x) a with h9 | h9
      · rw [hU.keep x x1 (by omega), k1] at k2
        have := hB.up x x1 (by omega) (by omega)
        omega
      · have := hR.bnd x x1 h9 (by omega)
        omega
  have hkeep2 : ∀ i, i < n → ¬ (a ≤ p i ∧ p i < e) → I2 i = I i := by
    intro i h1 h2
    by_cases h3 : f ≤ p i ∧ p i < a
    · exact hlowk i h1 h3.1 h3.2
    · rw [hF.keep i h1 (by omega), hU.keep i h1 h2]
  have hM : Mid n D a b e I2 p := by
    refine ⟨hae, heb, hU.upto, ?_, ?_⟩
    · intro i h1 h2 h3
      rw [hkeep2 i h1 (by omega)]; exact (hP.rank i h1).2 (by omega)
    · intro i h1 h2 h3
      rw [hkeep2 i h1 (by omega)] at h3
      exact h2 ((hP.rank i h1).1 h3)
  have hD0 : DnInv n isa D f a b l I2 p A2 e l b A2 I2 := by
    refine ⟨rfl, fun _ _ _ => rfl, hF.ranks, ?_, heb, Nat.le_refl _, Nat.le_refl _, ?_, fun _ _ _ => rfl⟩
    · intro r h1 h2
      rw [hF.out r (by omega), hU.out r (by omega) (by omega)]; exact hhi r h1 h2
    · intro i h1 h2 h3
      have := hP.par i h1 h2 h3
      omega
  obtain ⟨A, I', k', e3, hV, hS⟩ := pcopyDown_spec hP hB (fun i h1 h2 => hkeep2 i h1 (by omega)) hM hl (by omega) l b A2 I2 (-1) nr2 hD0
    ⟨fun i j h1 h2 h3 h4 h5 => by omega, fun i j h1 h2 h3 h4 h5 h6 => by omega, fun i h1 h2 h3 => by omega, fun i j h1 h2 h3 h4 h5 => by omega⟩ (Or.inl ⟨rfl, rfl⟩)
  have hkeep : ∀ i, i < n → ¬ (a ≤ p i ∧ p i < b) → I' i = I i := by
    intro i h1 h2
    rw [hV.keep i h1 (by omega), hkeep2 i h1 (by omega)]
  have hlowv : ∀ i, i < n → p i < e → I' i = I2 i := fun i h1 h2 => hV.keep i h1 (by omega)
  have hlt : ∀ i, i < n → f ≤ p i → p i < e → I' i < e := by
    intro i h1 h2 h3
    rw [hlowv i h1 h3]; exact (hF.bnd i h1 h2 h3).2
  have hge : ∀ i, i < n → e ≤ p i → p i < l → e ≤ I' i := by
    intro i h1 h2 h3
    rcases Nat.lt_or_ge (p i) b with h4 | h4
    · have := hS.bnd i h1 h2 h4; omega
    · rw [hkeep i h1 (by omega)]
      have := hB.up i h1 (by omega) h3; omega
  refine ⟨A, I', ?_, ⟨by rw [hV.len, hF.len, hU.len], ?_, hV.ranks, ?_, hkeep, ?_, ?_, ?_⟩⟩
  · unfold partialcopy
    simp only
    rw [bind_some' e1]
    simp only
    rw [bind_some' e2]
    exact e3
  · intro r h1 h2
    rw [hV.out r (by omega) h2, hF.out r h2, hU.out r (by omega) h2]
  · intro r h1 h2
    rcases Nat.lt_or_ge r e with h3 | h3
    · obtain ⟨x, x1, x2, x3⟩ := hU.cells r (by omega) h3
      exact ⟨x, x1, by rw [hV.out r (by omega) (by omega), hF.out r (by omega)]; exact x2, x3⟩
    · exact hV.cells r h3 (by omega)
  · intro i h1 h2 h3
    rcases Nat.lt_or_ge (p i) e with h4 | h4
    · rw [hlowv i h1 h4]
      have := hF.bnd i h1 (by omega) h4; omega
    · exact hS.bnd i h1 h4 h3
  · intro i j h1 h2 h3 h4 h5 h6
    rcases Nat.lt_or_ge (p i) e with h7 | h7
    · have h8 := hlt i h1 (by omega) h7
      have h9 : p j < e := by omega
      rw [hlowv i h1 h7] at h6 ⊢
      rw [hlowv j h2 (by omega)]
      have b1 := hF.bnd i h1 (by omega) h7
      have := hF.same i j h1 h2 (by omega) h7 h4 h6
      exact ((hsame i j h1 h2 (by omega) h4 (by omega)).2 this.symm).symm
    · exact hS.blk i j h1 h2 h7 h4 h5 h6
  · intro i j h1 h2 h3 h4 h5 h6
    have k1 := hP.par i h1 h3 h4
    have k2 := hP.par j h2 h5 h6
    have u1 := hU.upto i h1 h3 h4
    have u2 := hU.upto j h2 h5 h6
    rcases Nat.lt_or_ge (p i) e with h7 | h7
    · rcases Nat.lt_or_ge (p j) e with h8 | h8
      · rw [hlowv i h1 h7, hlowv j h2 h8, hlowv _ k1.1 (by omega), hlowv _ k2.1 (by omega), hsame' i j h1 h2 (by omega) h7 (by omega) h8,
          hsame' _ _ k1.1 k2.1 k1.2.1 (by omega) k2.2.1 (by omega)]
        exact hR.eqv i j h1 h2 h3 h7 h5 h8
      · have a1 := hlt i h1 (by omega) h7
        have a2 := hge j h2 h8 (by omega)
        have a3 := hlt _ k1.1 k1.2.1 (by omega)
        have a4 := hge _ k2.1 (by omega) k2.2.2
        omega
    · rcases Nat.lt_or_ge (p j) e with h8 | h8
      · have a1 := hlt j h2 (by omega) h8
        have a2 := hge i h1 h7 (by omega)
        have a3 := hlt _ k2.1 k2.2.1 (by omega)
        have a4 := hge _ k1.1 (by omega) k1.2.2
        omega
      · exact hS.eqv i j h1 h2 h7 h4 h8 h6

end

end Bwtc.Tr
