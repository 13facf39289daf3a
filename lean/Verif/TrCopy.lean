import Verif.TrOrder

/-!
# `tr_copy`
-/

set_option autoImplicit false

namespace Bwtc.Tr
open Sais (put inv put_spec bind_some')
open Ss (cel get_cel cel_set_self cel_set_ne)
open Divsuf (getI putI)

/-- The cells the suffixes belong to: those in the cells from `a` to `b` have rank `b - 1` and are ordered as the suffixes `D` later. -/
structure Cp (n D f a b l : Nat) (I p : Nat → Nat) : Prop where
  fa : f ≤ a
  ab : a ≤ b
  bl : b ≤ l
  step : 0 < D
  inj : ∀ i j, i < n → j < n → f ≤ p i → p i < l → p i = p j → i = j
  onto : ∀ r, f ≤ r → r < l → ∃ i, i < n ∧ p i = r
  par : ∀ i, i < n → a ≤ p i → p i < b → i + D < n ∧ f ≤ p (i + D) ∧ p (i + D) < l
  ord : ∀ i j, i < n → j < n → a ≤ p i → p i < b → a ≤ p j → p j < b → (p i < p j ↔ p (i + D) < p (j + D))
  rank : ∀ i, i < n → (I i + 1 = b ↔ a ≤ p i ∧ p i < b)

/-- The rank of `s` is set to `w`. -/
def upd (I : Nat → Nat) (s w : Nat) : Nat → Nat := fun i => if i = s then w else I i

theorem upd_self (I : Nat → Nat) (s w : Nat) : upd I s w s = w := if_pos rfl

theorem upd_ne {I : Nat → Nat} {s w i : Nat} (h : i ≠ s) : upd I s w i = I i := if_neg h

/-- The cells from `a` to `e` have been filled while those up to `c` have been read. -/
structure UpInv (n isa D f a b l : Nat) (I p : Nat → Nat) (sa0 : List Int) (c e : Nat) (A : List Int) (I' : Nat → Nat) : Prop where
  len : A.length = sa0.length
  out : ∀ r, r < a ∨ e ≤ r → r < isa ∨ isa + n ≤ r → cel A r = cel sa0 r
  ranks : ∀ i, i < n → cel A (isa + i) = (I' i : Int)
  cells : ∀ r, f ≤ r → r < e → ∃ x, x < n ∧ cel A r = (x : Int) ∧ p x = r
  ae : a ≤ e
  eb : e ≤ b
  fc : f ≤ c
  ce : c ≤ e
  upto : ∀ i, i < n → a ≤ p i → p i < b → (p (i + D) < c ↔ p i < e)
  keep : ∀ i, i < n → ¬ (a ≤ p i ∧ p i < e) → I' i = I i

section
variable {n isa D f a b l : Nat} {I p : Nat → Nat} {sa0 : List Int}

theorem rank_get {A : List Int} {I' : Nat → Nat} (hr : ∀ i, i < n → cel A (isa + i) = (I' i : Int)) (hroom : isa + n ≤ A.length) {s : Nat} {x : Int} (hs : s < n) (hx : x = (s : Int)) :
    getI A (isa + x) = some (I' s : Int) := by
  subst hx
  unfold getI
  rw [if_pos (by omega), show ((isa : Int) + (s : Int)).toNat = isa + s by omega, get_cel (by omega), hr s hs]

theorem set_ranks {A : List Int} {I' : Nat → Nat} (hr : ∀ i, i < n → cel A (isa + i) = (I' i : Int)) (hroom : isa + n ≤ A.length) {e s w : Nat} (he : e < isa) (hs : s < n) :
    ∀ i, i < n → cel ((A.set e (s : Int)).set (isa + s) (w : Int)) (isa + i) = (upd I' s w i : Int) := by
  intro i hi
  by_cases h : i = s
  · subst h
    rw [cel_set_self (by rw [List.length_set]; omega), upd_self]
  · rw [cel_set_ne _ (by omega), cel_set_ne _ (by omega), upd_ne h]
    exact hr i hi

theorem set_cell {A : List Int} {e s : Nat} {w : Int} (he : e < A.length) (hei : e < isa) : cel ((A.set e (s : Int)).set (isa + s) w) e = (s : Int) := by
  rw [cel_set_ne _ (by omega), cel_set_self he]

theorem set_out {A : List Int} {e s : Nat} {w : Int} (hs : s < n) {r : Nat} (hre : r ≠ e) (hr : r < isa ∨ isa + n ≤ r) :
    cel ((A.set e (s : Int)).set (isa + s) w) r = cel A r := by
  rw [cel_set_ne _ (by omega), cel_set_ne _ (by omega)]

theorem UpInv.step (hP : Cp n D f a b l I p) (hl : l ≤ isa) (hroom : isa + n ≤ sa0.length) {c e : Nat} {A : List Int} {I' : Nat → Nat}
    (hU : UpInv n isa D f a b l I p sa0 c e A I') (hce : c < e) : ∃ x, x < n ∧ cel A c = (x : Int) ∧ p x = c ∧
    ((UpInv n isa D f a b l I p sa0 (c + 1) e A I' ∧ (x < D ∨ ∃ s, x = s + D ∧ I' s + 1 ≠ b)) ∨
     (∃ s, x = s + D ∧ s < n ∧ a ≤ p s ∧ p s = e ∧ e < b ∧ I' s + 1 = b ∧
       ∀ w : Nat, UpInv n isa D f a b l I p sa0 (c + 1) (e + 1) ((A.set e (s : Int)).set (isa + s) (w : Int)) (upd I' s w))) := by
  have hfa := hP.fa
  have hbl := hP.bl
  have hlen := hU.len
  have hae := hU.ae
  have heb := hU.eb
  have hfc := hU.fc
  have hD := hP.step
  obtain ⟨x, hx, ex, px⟩ := hU.cells c hfc hce
  refine ⟨x, hx, ex, px, ?_⟩
  -- nothing to be done
  have skip : (∀ i, i < n → a ≤ p i → p i < b → i + D ≠ x) → UpInv n isa D f a b l I p sa0 (c + 1) e A I' := by
    intro h1
    refine ⟨hU.len, hU.out, hU.ranks, hU.cells, hae, heb, by omega, by omega, ?_, hU.keep⟩
    intro i h2 h3 h4
    rw [← hU.upto i h2 h3 h4]
    have h5 := hP.par i h2 h3 h4
    have h6 : p (i + D) ≠ c := fun h => h1 i h2 h3 h4 (hP.inj _ _ h5.1 hx h5.2.1 h5.2.2 (by omega))
    omega
  by_cases hxD : x < D
  · exact Or.inl ⟨skip (fun i _ _ _ => by omega), Or.inl hxD⟩
  · obtain ⟨s, hs⟩ : ∃ s, x = s + D := ⟨x - D, by omega⟩
    have hsn : s < n := by omega
    by_cases hM : a ≤ p s ∧ p s < b
    · have h1 := hU.upto s hsn hM.1 hM.2
      rw [← hs, px] at h1
      have hpe : p s = e := by
        rcases Nat.lt_or_ge e (p s) with h2 | h2
        · obtain ⟨t, t1, t2⟩ := hP.onto e (by omega) (by omega)
          have t3 := (hP.ord t s t1 hsn (by omega) (by omega) hM.1 hM.2).1 (by omega)
          have t4 := (hU.upto t t1 (by omega) (by omega)).1 (by rw [← hs, px] at t3; exact t3)
          omega
        · omega
      have hIs : I' s = I s := hU.keep s hsn (by omega)
      refine Or.inr ⟨s, hs, hsn, hM.1, hpe, by omega, by rw [hIs]; exact (hP.rank s hsn).2 hM, ?_⟩
      intro w
      refine ⟨by rw [List.length_set, List.length_set, hlen], ?_, set_ranks hU.ranks (by omega) (by omega) hsn, ?_, by omega, by omega, by omega, by omega, ?_, ?_⟩
      · intro r h2 h3
        rw [set_out hsn (by omega) h3]; exact hU.out r (by omega) h3
      · intro r h2 h3
        by_cases hre : r = e
        · exact ⟨s, hsn, by rw [hre]; exact set_cell (by omega) (by omega), by omega⟩
        · obtain ⟨y, y1, y2, y3⟩ := hU.cells r h2 (by omega)
          exact ⟨y, y1, by rw [set_out hsn hre (by omega)]; exact y2, y3⟩
      · intro i h2 h3 h4
        have h5 := hU.upto i h2 h3 h4
        by_cases his : i = s
        · subst his
          rw [← hs, px]; omega
        · have h6 := hP.par i h2 h3 h4
          have h7 : p (i + D) ≠ c := fun h => his (by have := hP.inj _ _ h6.1 hx h6.2.1 h6.2.2 (by omega); omega)
          have h8 : p i ≠ e := fun h => his (hP.inj _ _ h2 hsn (by omega) (by omega) (by omega))
          omega
      · intro i h2 h3
        rw [upd_ne (fun h => by subst h; omega)]
        exact hU.keep i h2 (by omega)
    · refine Or.inl ⟨skip (fun i h1 h2 h3 h4 => ?_), Or.inr ⟨s, hs, ?_⟩⟩
      · have : i = s := by omega
        subst this; exact hM ⟨h2, h3⟩
      · rw [hU.keep s hsn (by omega)]
        exact fun h => hM ((hP.rank s hsn).1 h)

/-- The cells from `d` to `b` have been filled while those from `k` on have been read. -/
structure DnInv (n isa D f a b l : Nat) (I1 p : Nat → Nat) (sa1 : List Int) (e k d : Nat) (A : List Int) (I' : Nat → Nat) : Prop where
  len : A.length = sa1.length
  out : ∀ r, r < d ∨ b ≤ r → r < isa ∨ isa + n ≤ r → cel A r = cel sa1 r
  ranks : ∀ i, i < n → cel A (isa + i) = (I' i : Int)
  cells : ∀ r, d ≤ r → r < l → ∃ x, x < n ∧ cel A r = (x : Int) ∧ p x = r
  ed : e ≤ d
  db : d ≤ b
  kl : k ≤ l
  from' : ∀ i, i < n → a ≤ p i → p i < b → (k ≤ p (i + D) ↔ d ≤ p i)
  keep : ∀ i, i < n → ¬ (d ≤ p i ∧ p i < b) → I' i = I1 i

/-- What is known after the cells up to `e` have been filled. -/
structure Mid (n D a b e : Nat) (I1 p : Nat → Nat) : Prop where
  ae : a ≤ e
  eb : e ≤ b
  half : ∀ i, i < n → a ≤ p i → p i < b → (p (i + D) < e ↔ p i < e)
  rest : ∀ i, i < n → e ≤ p i → p i < b → I1 i + 1 = b
  no : ∀ i, i < n → ¬ (a ≤ p i ∧ p i < b) → I1 i + 1 ≠ b

theorem no_cycle (hP : Cp n D f a b l I p) {e d k : Nat} (hae : a ≤ e) (hdb : d ≤ b)
    (h1 : ∀ i, i < n → e ≤ p i → p i < d → e ≤ p (i + D) ∧ p (i + D) < d) : ∀ i, i < n → n - i ≤ k → e ≤ p i → ¬ p i < d := by
  induction k with
  | zero => intro i h2 h3; omega
  | succ k ih =>
    intro i h2 h3 h4 h5
    have h6 := hP.par i h2 (by omega) (by omega)
    have h7 := h1 i h2 h4 h5
    have := hP.step
    exact ih (i + D) h6.1 (by omega) h7.1 h7.2

theorem DnInv.step (hP : Cp n D f a b l I p) {I1 : Nat → Nat} {sa1 : List Int} {e : Nat} (hM1 : Mid n D a b e I1 p) (hl : l ≤ isa) (hroom : isa + n ≤ sa1.length)
    {k d : Nat} {A : List Int} {I' : Nat → Nat} (hU : DnInv n isa D f a b l I1 p sa1 e k d A I') (hed : e < d) :
    ∃ c x, k = c + 1 ∧ d ≤ c ∧ x < n ∧ cel A c = (x : Int) ∧ p x = c ∧
    ((DnInv n isa D f a b l I1 p sa1 e c d A I' ∧ (x < D ∨ ∃ s, x = s + D ∧ I' s + 1 ≠ b)) ∨
     (∃ s, x = s + D ∧ s < n ∧ e ≤ p s ∧ p s + 1 = d ∧ I' s + 1 = b ∧
       ∀ w : Nat, DnInv n isa D f a b l I1 p sa1 e c (d - 1) ((A.set (d - 1) (s : Int)).set (isa + s) (w : Int)) (upd I' s w))) := by
  have hfa := hP.fa
  have hbl := hP.bl
  have hlen := hU.len
  have hae := hM1.ae
  have heb := hM1.eb
  have hdb := hU.db
  have hkl := hU.kl
  have hD := hP.step
  have hkd : d < k := by
    rcases Nat.lt_or_ge d k with h1 | h1
    · exact h1
    · obtain ⟨i, i1, i2⟩ := hP.onto e (by omega) (by omega)
      refine absurd (show p i < d by omega) (no_cycle hP hae hdb ?_ i i1 (Nat.le_refl _) (by omega))
      intro j j1 j2 j3
      have k1 := hM1.half j j1 (by omega) (by omega)
      have k2 := hU.from' j j1 (by omega) (by omega)
      omega
  obtain ⟨c, hc⟩ : ∃ c, k = c + 1 := ⟨k - 1, by omega⟩
  obtain ⟨x, hx, ex, px⟩ := hU.cells c (by omega) (by omega)
  refine ⟨c, x, hc, by omega, hx, ex, px, ?_⟩
  have skip : (∀ i, i < n → a ≤ p i → p i < b → i + D ≠ x) → DnInv n isa D f a b l I1 p sa1 e c d A I' := by
    intro h1
    refine ⟨hU.len, hU.out, hU.ranks, hU.cells, hU.ed, hU.db, by omega, ?_, hU.keep⟩
    intro i h2 h3 h4
    rw [← hU.from' i h2 h3 h4]
    have h5 := hP.par i h2 h3 h4
    have h6 : p (i + D) ≠ c := fun h => h1 i h2 h3 h4 (hP.inj _ _ h5.1 hx h5.2.1 h5.2.2 (by omega))
    omega
  by_cases hxD : x < D
  · exact Or.inl ⟨skip (fun i _ _ _ => by omega), Or.inl hxD⟩
  · obtain ⟨s, hs⟩ : ∃ s, x = s + D := ⟨x - D, by omega⟩
    have hsn : s < n := by omega
    by_cases hM : a ≤ p s ∧ p s < b
    · have h1 := hU.from' s hsn hM.1 hM.2
      have h1' := hM1.half s hsn hM.1 hM.2
      rw [← hs, px] at h1 h1'
      have hpe : p s + 1 = d := by
        rcases Nat.lt_or_ge (p s + 1) d with h2 | h2
        · obtain ⟨t, t1, t2⟩ := hP.onto (d - 1) (by omega) (by omega)
          have t3 := (hP.ord s t hsn t1 hM.1 hM.2 (by omega) (by omega)).1 (by omega)
          have t4 := (hU.from' t t1 (by omega) (by omega)).1 (by rw [← hs, px] at t3; omega)
          omega
        · omega
      have hIs : I' s = I1 s := hU.keep s hsn (by omega)
      refine Or.inr ⟨s, hs, hsn, by omega, hpe, by rw [hIs]; exact hM1.rest s hsn (by omega) hM.2, ?_⟩
      intro w
      refine ⟨by rw [List.length_set, List.length_set, hlen], ?_, set_ranks hU.ranks (by omega) (by omega) hsn, ?_, by omega, by omega, by omega, ?_, ?_⟩
      · intro r h2 h3
        rw [set_out hsn (by omega) h3]; exact hU.out r (by omega) h3
      · intro r h2 h3
        by_cases hre : r = d - 1
        · exact ⟨s, hsn, by rw [hre]; exact set_cell (by omega) (by omega), by omega⟩
        · obtain ⟨y, y1, y2, y3⟩ := hU.cells r (by omega) h3
          exact ⟨y, y1, by rw [set_out hsn hre (by omega)]; exact y2, y3⟩
      · intro i h2 h3 h4
        have h5 := hU.from' i h2 h3 h4
        by_cases his : i = s
        · subst his
          rw [← hs, px]; omega
        · have h6 := hP.par i h2 h3 h4
          have h7 : p (i + D) ≠ c := fun h => his (by have := hP.inj _ _ h6.1 hx h6.2.1 h6.2.2 (by omega); omega)
          have h8 : p i + 1 ≠ d := fun h => his (hP.inj _ _ h2 hsn (by omega) (by omega) (by omega))
          omega
      · intro i h2 h3
        rw [upd_ne (fun h => by subst h; omega)]
        exact hU.keep i h2 (by omega)
    · refine Or.inl ⟨skip (fun i h1 h2 h3 h4 => ?_), Or.inr ⟨s, hs, ?_⟩⟩
      · have : i = s := by omega
        subst this; exact hM ⟨h2, h3⟩
      · rw [hU.keep s hsn (by omega)]
        exact hM1.no s hsn hM

/-- What the copying leaves. -/
structure Copied (n isa D f a b : Nat) (I p : Nat → Nat) (sa0 A : List Int) (I' : Nat → Nat) : Prop where
  len : A.length = sa0.length
  out : ∀ r, r < a ∨ b ≤ r → r < isa ∨ isa + n ≤ r → cel A r = cel sa0 r
  ranks : ∀ i, i < n → cel A (isa + i) = (I' i : Int)
  cells : ∀ r, a ≤ r → r < b → ∃ x, x < n ∧ cel A r = (x : Int) ∧ p x = r
  keep : ∀ i, i < n → ¬ (a ≤ p i ∧ p i < b) → I' i = I i
  up : ∀ i, i < n → a ≤ p i → p i < b → p i ≤ I' i ∧ I' i < b
  blk : ∀ i j, i < n → j < n → a ≤ p i → p i ≤ p j → p j < b → p j ≤ I' i → I' j = I' i
  eqv : ∀ i j, i < n → j < n → a ≤ p i → p i < b → a ≤ p j → p j < b → (I' i = I' j ↔ I' (i + D) = I' (j + D))

/-! ## `tr_copy` -/

theorem copyUp_spec (hP : Cp n D f a b l I p) (hl : l ≤ isa) (hroom : isa + n ≤ sa0.length) : ∀ (k c e : Nat) (A : List Int) (I' : Nat → Nat), b - c ≤ k →
    UpInv n isa D f a b l I p sa0 c e A I' → (∀ i, i < n → a ≤ p i → p i < e → I' i = p i) →
    ∃ A' e' I1, copyUp isa D ((b : Int) - 1) A c e = some (A', e') ∧ UpInv n isa D f a b l I p sa0 e' e' A' I1 ∧ (∀ i, i < n → a ≤ p i → p i < e' → I1 i = p i) := by
  intro k
  induction k with
  | zero =>
    intro c e A I' hk hU hR
    have := hU.eb
    have := hU.ce
    have hce : c = e := by omega
    rw [copyUp, if_neg (by omega)]
    subst hce
    exact ⟨A, c, I', rfl, hU, hR⟩
  | succ k ih =>
    intro c e A I' hk hU hR
    have hbl := hP.bl
    have h1 := hU.eb
    have h2 := hU.ce
    have hlen := hU.len
    by_cases hce : c < e
    · rw [copyUp, if_pos hce]
      obtain ⟨x, hx, ex, px, h3⟩ := hU.step hP hl hroom hce
      rw [bind_some' (get_cel (by omega)), ex]
      rcases h3 with ⟨hU', h3⟩ | ⟨s, hs, hsn, has, hps, heb, hIs, hU'⟩
      · rcases h3 with h3 | ⟨s, hs, hIs⟩
        · simp only
          rw [if_neg (by omega)]
          exact ih _ _ _ _ (by omega) hU' hR
        · simp only
          rw [if_pos (by omega), bind_some' (rank_get (s := s) hU.ranks (by omega) (by omega) (by omega)), if_neg (by omega)]
          exact ih _ _ _ _ (by omega) hU' hR
      · simp only
        have hxs : (x : Int) - (D : Int) = (s : Int) := by omega
        rw [hxs, if_pos (by omega), bind_some' (rank_get (s := s) hU.ranks (by omega) hsn rfl), if_pos (by omega), bind_some' (put_spec (i := e) (by omega) (s : Int)),
          bind_some' (putI_rank (i := s) rfl (by rw [List.length_set]; omega))]
        refine ih _ _ _ _ (by omega) (hU' e) ?_
        intro i i1 i2 i3
        by_cases his : i = s
        · rw [his, upd_self, hps]
        · have : p i ≠ p s := fun h => his (hP.inj i s i1 hsn (by have := hP.fa; omega) (by omega) h)
          rw [upd_ne his]
          exact hR i i1 i2 (by omega)
    · have hce' : c = e := by omega
      rw [copyUp, if_neg hce]
      subst hce'
      exact ⟨A, c, I', rfl, hU, hR⟩

theorem copyDown_spec (hP : Cp n D f a b l I p) {I1 : Nat → Nat} {sa1 : List Int} {e : Nat} (hM1 : Mid n D a b e I1 p) (hl : l ≤ isa) (hroom : isa + n ≤ sa1.length) :
    ∀ (k d : Nat) (A : List Int) (I' : Nat → Nat), DnInv n isa D f a b l I1 p sa1 e k d A I' → (∀ i, i < n → d ≤ p i → p i < b → I' i = p i) →
    ∃ A' I3 k', copyDown isa D ((b : Int) - 1) e k A d = some A' ∧ DnInv n isa D f a b l I1 p sa1 e k' e A' I3 ∧ (∀ i, i < n → e ≤ p i → p i < b → I3 i = p i) := by
  intro k
  induction k with
  | zero =>
    intro d A I' hU hR
    have h1 := hU.ed
    by_cases hed : e < d
    · obtain ⟨c, x, hc, _⟩ := hU.step hP hM1 hl hroom hed
      omega
    · have : d = e := by omega
      subst this
      rw [copyDown, if_neg hed]
      exact ⟨A, I', 0, rfl, hU, hR⟩
  | succ k ih =>
    intro d A I' hU hR
    have hbl := hP.bl
    have h1 := hU.ed
    have h2 := hU.db
    have h4 := hU.kl
    have hlen := hU.len
    by_cases hed : e < d
    · rw [copyDown, if_pos hed]
      obtain ⟨c, x, hc, hdc, hx, ex, px, h3⟩ := hU.step hP hM1 hl hroom hed
      have hc' : k = c := by omega
      subst hc'
      rw [bind_some' (get_cel (by omega)), ex]
      rcases h3 with ⟨hU', h3⟩ | ⟨s, hs, hsn, has, hps, hIs, hU'⟩
      · rcases h3 with h3 | ⟨s, hs, hIs⟩
        · simp only
          rw [if_neg (by omega)]
          exact ih _ _ _ hU' hR
        · simp only
          rw [if_pos (by omega), bind_some' (rank_get (s := s) hU.ranks (by omega) (by omega) (by omega)), if_neg (by omega)]
          exact ih _ _ _ hU' hR
      · simp only
        have hxs : (x : Int) - (D : Int) = (s : Int) := by omega
        rw [hxs, if_pos (by omega), bind_some' (rank_get (s := s) hU.ranks (by omega) hsn rfl), if_pos (by omega), bind_some' (put_spec (i := d - 1) (by omega) (s : Int)),
          bind_some' (putI_rank (i := s) rfl (by rw [List.length_set]; omega)), show (d : Int) - 1 = ((d - 1 : Nat) : Int) by omega]
        refine ih _ _ _ (hU' (d - 1)) ?_
        intro i i1 i2 i3
        by_cases his : i = s
        · rw [his, upd_self]; omega
        · have := hM1.ae
          have hfa := hP.fa
          have : p i ≠ p s := fun h => his (hP.inj i s i1 hsn (by omega) (by omega) h)
          rw [upd_ne his]
          exact hR i i1 (by omega) i3
    · have : d = e := by omega
      subst this
      rw [copyDown, if_neg hed]
      exact ⟨A, I', k + 1, rfl, hU, hR⟩

theorem copy_spec (hP : Cp n D f a b l I p) (hl : l ≤ isa) (hroom : isa + n ≤ sa0.length) (hI : ∀ i, i < n → cel sa0 (isa + i) = (I i : Int))
    (hlo : ∀ r, f ≤ r → r < a → ∃ x, x < n ∧ cel sa0 r = (x : Int) ∧ p x = r) (hhi : ∀ r, b ≤ r → r < l → ∃ x, x < n ∧ cel sa0 r = (x : Int) ∧ p x = r)
    (hdone : ∀ i, i < n → f ≤ p i → p i < l → ¬ (a ≤ p i ∧ p i < b) → I i = p i) :
    ∃ A I', copy isa sa0 f a b l D = some A ∧ Copied n isa D f a b I p sa0 A I' ∧ ∀ i, i < n → a ≤ p i → p i < b → I' i = p i := by
  have hfa := hP.fa
  have hbl := hP.bl
  have hab := hP.ab
  have hU0 : UpInv n isa D f a b l I p sa0 f a sa0 I := by
    refine ⟨rfl, fun _ _ _ => rfl, hI, hlo, Nat.le_refl _, hab, Nat.le_refl _, hfa, ?_, fun _ _ _ => rfl⟩
    intro i h1 h2 h3
    have := hP.par i h1 h2 h3
    omega
  obtain ⟨A1, e, I1, e1, hU, hR⟩ := copyUp_spec hP hl hroom _ f a sa0 I (Nat.le_refl _) hU0 (fun i h1 h2 h3 => by omega)
  have hae := hU.ae
  have heb := hU.eb
  have hM : Mid n D a b e I1 p := by
    refine ⟨hU.ae, hU.eb, hU.upto, ?_, ?_⟩
    · intro i h1 h2 h3
      rw [hU.keep i h1 (by omega)]; exact (hP.rank i h1).2 (by omega)
    · intro i h1 h2 h3
      rw [hU.keep i h1 (by omega)] at h3
      exact h2 ((hP.rank i h1).1 h3)
  have hD0 : DnInv n isa D f a b l I1 p A1 e l b A1 I1 := by
    refine ⟨rfl, fun _ _ _ => rfl, hU.ranks, ?_, heb, Nat.le_refl _, Nat.le_refl _, ?_, fun _ _ _ => rfl⟩
    · intro r h1 h2
      rw [hU.out r (by omega) (by omega)]; exact hhi r h1 h2
    · intro i h1 h2 h3
      have := hP.par i h1 h2 h3
      omega
  obtain ⟨A, I', k', e2, hV, hS⟩ := copyDown_spec hP hM hl (by rw [hU.len]; exact hroom) l b A1 I1 hD0 (fun i h1 h2 h3 => by omega)
  have hall : ∀ i, i < n → a ≤ p i → p i < b → I' i = p i := by
    intro i h1 h2 h3
    rcases Nat.lt_or_ge (p i) e with h4 | h4
    · rw [hV.keep i h1 (by omega)]; exact hR i h1 h2 h4
    · exact hS i h1 h4 h3
  have hkeep : ∀ i, i < n → ¬ (a ≤ p i ∧ p i < b) → I' i = I i := by
    intro i h1 h2
    rw [hV.keep i h1 (by omega), hU.keep i h1 (by omega)]
  have hG : ∀ i, i < n → f ≤ p i → p i < l → I' i = p i := by
    intro i h1 h2 h3
    by_cases h4 : a ≤ p i ∧ p i < b
    · exact hall i h1 h4.1 h4.2
    · rw [hkeep i h1 h4]; exact hdone i h1 h2 h3 h4
  refine ⟨A, I', ?_, ⟨by rw [hV.len, hU.len], ?_, hV.ranks, ?_, hkeep, ?_, ?_, ?_⟩, hall⟩
  · unfold copy
    simp only
    rw [bind_some' e1]
    exact e2
  · intro r h1 h2
    rw [hV.out r (by omega) h2, hU.out r (by omega) h2]
  · intro r h1 h2
    rcases Nat.lt_or_ge r e with h3 | h3
    · obtain ⟨x, x1, x2, x3⟩ := hU.cells r (by omega) h3
      exact ⟨x, x1, by rw [hV.out r (by omega) (by omega)]; exact x2, x3⟩
    · exact hV.cells r h3 (by omega)
  · intro i h1 h2 h3
    rw [hall i h1 h2 h3]; omega
  · intro i j h1 h2 h3 h4 h5 h6
    rw [hall i h1 h3 (by omega)] at h6 ⊢
    rw [hall j h2 (by omega) h5]; omega
  · intro i j h1 h2 h3 h4 h5 h6
    have k1 := hP.par i h1 h3 h4
    have k2 := hP.par j h2 h5 h6
    have k3 := hP.ord i j h1 h2 h3 h4 h5 h6
    have k4 := hP.ord j i h2 h1 h5 h6 h3 h4
    rw [hall i h1 h3 h4, hall j h2 h5 h6, hG _ k1.1 k1.2.1 k1.2.2, hG _ k2.1 k2.2.1 k2.2.2]
    omega

end

end Bwtc.Tr
