import Verif.TrState

/-!
# Dividing a group
-/

set_option autoImplicit false

namespace Bwtc.Tr
open Sais (put inv put_spec bind_some' loopUp loopUp_spec)
open Ss (cel get_cel cel_set_self cel_set_ne pop Perm Res Mov occ occ_pos occ_split occ_one bit nat_of dec_nat')
open Suffix
open Divsuf (getI putI dec)

variable {T : List Nat} {isa h : Nat}

/-! ## Permutations -/

/-- The suffixes in the cells after those from `f` to `l` have been changed. -/
def newq (f l : Nat) (q : Nat → Nat) (sa : List Int) : Nat → Nat := fun r => if f ≤ r ∧ r < l then dec (cel sa r) else q r

theorem newq_in {f l : Nat} {q : Nat → Nat} {sa : List Int} {r : Nat} (h1 : f ≤ r) (h2 : r < l) : newq f l q sa r = dec (cel sa r) := if_pos ⟨h1, h2⟩

theorem newq_out {f l : Nat} {q : Nat → Nat} {sa : List Int} {r : Nat} (h1 : r < f ∨ l ≤ r) : newq f l q sa r = q r := if_neg (by omega)

theorem occ_two {f : Nat → Int} {a b r r' : Nat} (h1 : a ≤ r) (h2 : r < r') (h3 : r' < b) (h : dec (f r) = dec (f r')) : 2 ≤ occ f a b (dec (f r)) := by
  rw [occ_split f (c := r') (by omega) (by omega : r' ≤ b)]
  have k1 : 0 < occ f a r' (dec (f r)) := (occ_pos f a r' _).2 ⟨r, h1, h2, rfl⟩
  have k2 : 0 < occ f r' b (dec (f r)) := (occ_pos f r' b _).2 ⟨r', Nat.le_refl _, h3, h.symm⟩
  omega

theorem occ_inj {f : Nat → Int} {a : Nat} : ∀ {b : Nat}, (∀ r r', a ≤ r → r < b → a ≤ r' → r' < b → dec (f r) = dec (f r') → r = r') → ∀ v, occ f a b v ≤ 1 := by
  intro b
  induction b with
  | zero => intro _ v; exact Nat.zero_le _
  | succ b ih =>
    intro h v
    rw [occ]
    have k1 := ih (fun r r' h1 h2 h3 h4 => h r r' h1 (by omega) h3 (by omega)) v
    by_cases hb : a ≤ b
    · rw [if_pos hb]
      unfold bit
      by_cases hv : dec (f b) = v
      · rw [if_pos hv]
        by_cases h0 : 0 < occ f a b v
        · obtain ⟨r, h1, h2, h3⟩ := (occ_pos f a b v).1 h0
          have := h r b h1 (by omega) hb (by omega) (by rw [h3, hv])
          omega
        · omega
      · rw [if_neg hv]; omega
    · rw [if_neg hb]; omega

theorem Perm.inj {f g : Nat → Int} {a b : Nat} (h : Perm a b f g)
    (hf : ∀ r r', a ≤ r → r < b → a ≤ r' → r' < b → dec (f r) = dec (f r') → r = r') :
    ∀ r r', a ≤ r → r < b → a ≤ r' → r' < b → dec (g r) = dec (g r') → r = r' := by
  intro r r' h1 h2 h3 h4 h5
  have k := occ_inj hf
  rcases Nat.lt_trichotomy r r' with h6 | h6 | h6
  · have := occ_two h1 h6 h4 h5
    rw [← h] at this
    have := k (dec (g r)); omega
  · exact h6
  · have := occ_two h3 h6 h2 h5.symm
    rw [← h] at this
    have := k (dec (g r')); omega

/-- A group whose cells have been permuted, and whose members have got new ranks. -/
theorem regroup {s : Sta} {f l : Nat} {I' : Nat → Nat} {sa' : List Int} (bud : Budget) (st : List Frame)
    (hC : Core T isa h s) (hg : IsGrp T s.I s.q f l)
    (hdec : ∀ r, f ≤ r → r < l → dec (cel s.sa r) = s.q r) (hlen : sa'.length = s.sa.length)
    (hout : ∀ r, r < f ∨ l ≤ r → r < isa ∨ isa + T.length ≤ r → cel sa' r = cel s.sa r) (hp : Perm f l (cel s.sa) (cel sa'))
    (hI : ∀ i, i < T.length → cel sa' (isa + i) = (I' i : Int)) (hIout : ∀ r, r < T.length → r < f ∨ l ≤ r → I' (s.q r) = s.I (s.q r))
    (hup : ∀ r, f ≤ r → r < l → r ≤ I' (dec (cel sa' r)) ∧ I' (dec (cel sa' r)) < l)
    (hblk : ∀ r r', f ≤ r → r < l → r ≤ r' → r' < l → r' ≤ I' (dec (cel sa' r)) → I' (dec (cel sa' r')) = I' (dec (cel sa' r)))
    (hcons : ∀ r r', f ≤ r → r < l → f ≤ r' → r' < l → I' (dec (cel sa' r)) < I' (dec (cel sa' r')) →
      sless T (dec (cel sa' r)) (dec (cel sa' r'))) :
    Core T isa h ⟨I', newq f l s.q sa', sa', bud, st⟩ ∧ Chg T isa (fun r => f ≤ r ∧ r < l) s ⟨I', newq f l s.q sa', sa', bud, st⟩ := by
  have hlt := hg.lt
  have hle := hg.le
  have qin : ∀ r, f ≤ r → r < l → ∃ r', f ≤ r' ∧ r' < l ∧ dec (cel sa' r) = s.q r' := by
    intro r h1 h2
    obtain ⟨r', h3, h4, h5⟩ := hp.symm.ex h1 h2
    exact ⟨r', h3, h4, by rw [← h5, hdec r' h3 h4]⟩
  have hL : Local T f l s.I s.q I' (newq f l s.q sa') := by
    refine ⟨fun r hr => newq_out hr, ?_, ?_, ?_, hIout, ?_, ?_, ?_⟩
    · intro r h1 h2
      rw [newq_in h1 h2]; exact qin r h1 h2
    · intro r h1 h2
      obtain ⟨r', h3, h4, h5⟩ := hp.ex h1 h2
      exact ⟨r', h3, h4, by rw [newq_in h3 h4, h5, hdec r h1 h2]⟩
    · intro r r' h1 h2 h3 h4 h5
      rw [newq_in h1 h2, newq_in h3 h4] at h5
      refine Perm.inj hp ?_ r r' h1 h2 h3 h4 h5
      intro x y k1 k2 k3 k4 k5
      rw [hdec x k1 k2, hdec y k3 k4] at k5
      exact hC.rk.inj x y (by omega) (by omega) k5
    · intro r h1 h2
      rw [newq_in h1 h2]; exact hup r h1 h2
    · intro r r' h1 h2 h3 h4
      rw [newq_in h1 h2] at h4 ⊢
      have := hup r h1 h2
      rw [newq_in (by omega) (by omega)]
      exact hblk r r' h1 h2 h3 (by omega) h4
    · intro r r' h1 h2 h3 h4 h5
      rw [newq_in h1 h2, newq_in h3 h4] at h5 ⊢
      exact hcons r r' h1 h2 h3 h4 h5
  refine ⟨⟨hC.apart, by show _ ≤ sa'.length; rw [hlen]; exact hC.room, hL.rk hC.rk hg, hI⟩, fun r hr => by omega, hlen, ?_, ?_, ?_, ?_, ?_⟩
  · intro r h1 h2; exact hout r (by omega) h2
  · intro r h1; exact newq_out (by omega)
  · intro r h1
    obtain ⟨r', h2, h3, h4⟩ := hL.qin r h1.1 h1.2
    exact ⟨r', ⟨h2, h3⟩, h4⟩
  · intro r h1 h2; exact hIout r h1 (by omega)
  · intro r h1
    have := hL.up r h1.1 h1.2
    exact ⟨by show f ≤ I' (newq f l s.q sa' r); omega, this.2⟩

/-! ## New ranks -/

/-- The ranks after the suffixes in the cells from `a` to `b` have got the rank `w`. -/
noncomputable def setI (I q : Nat → Nat) (a b w : Nat) : Nat → Nat := fun i =>
  open Classical in if ∃ c, a ≤ c ∧ c < b ∧ q c = i then w else I i

theorem setI_in {I q : Nat → Nat} {a b w c : Nat} (h1 : a ≤ c) (h2 : c < b) : setI I q a b w (q c) = w := by
  unfold setI; rw [if_pos ⟨c, h1, h2, rfl⟩]

theorem setI_out {I q : Nat → Nat} {a b w i : Nat} (h : ∀ c, a ≤ c → c < b → q c ≠ i) : setI I q a b w i = I i := by
  unfold setI; rw [if_neg (fun ⟨c, h1, h2, h3⟩ => h c h1 h2 h3)]

theorem setRanks_spec {I q : Nat → Nat} {a b w : Nat} {v : Int} {sa : List Int} (hv : a < b → v = (w : Int)) (hb : b ≤ isa)
    (hroom : isa + T.length ≤ sa.length) (hcell : ∀ r, a ≤ r → r < b → cel sa r = (q r : Int)) (hq : ∀ r, a ≤ r → r < b → q r < T.length)
    (hI : ∀ i, i < T.length → cel sa (isa + i) = (I i : Int)) :
    ∃ sa', setRanks isa a b v sa = some sa' ∧ sa'.length = sa.length ∧ (∀ r, r < isa ∨ isa + T.length ≤ r → cel sa' r = cel sa r) ∧
      ∀ i, i < T.length → cel sa' (isa + i) = (setI I q a b w i : Int) := by
  by_cases hab : a < b
  · have hv := hv hab
    subst hv
    unfold setRanks
    obtain ⟨sa', e, h1, h2, h3⟩ := loopUp_spec (f := fun sa c => do
        let x ← sa[c]?
        putI sa (isa + x) (w : Int))
      (fun c (s : List Int) => s.length = sa.length ∧ (∀ r, r < isa ∨ isa + T.length ≤ r → cel s r = cel sa r) ∧
        ∀ i, i < T.length → cel s (isa + i) = (setI I q a c w i : Int)) (b - a) a sa
      (by
        intro c s hc1 hc2 ⟨k1, k2, k3⟩
        have hqc := hq c hc1 (by omega)
        have hput : putI s (isa + (q c : Int)) (w : Int) = some (s.set (isa + q c) (w : Int)) := by
          unfold putI
          rw [if_pos (by omega), show ((isa : Int) + (q c : Int)).toNat = isa + q c by omega, put_spec (by omega)]
        refine ⟨s.set (isa + q c) (w : Int), ?_, by rw [List.length_set, k1], ?_, ?_⟩
        · show (s[c]? >>= fun x => putI s (isa + x) (w : Int)) = _
          rw [bind_some' (get_cel (by omega)), k2 c (by omega), hcell c hc1 (by omega), hput]
        · intro r hr
          rw [cel_set_ne _ (by omega), k2 r hr]
        · intro i hi
          by_cases hiq : i = q c
          · subst hiq
            rw [cel_set_self (by omega), setI_in hc1 (by omega)]
          · rw [cel_set_ne _ (by omega), k3 i hi]
            congr 1
            unfold setI
            by_cases hex : ∃ x, a ≤ x ∧ x < c ∧ q x = i
            · obtain ⟨x, x1, x2, x3⟩ := hex
              rw [if_pos ⟨x, x1, x2, x3⟩, if_pos ⟨x, x1, by omega, x3⟩]
            · rw [if_neg hex, if_neg]
              intro ⟨x, x1, x2, x3⟩
              by_cases hx : x = c
              · subst hx; exact hiq x3.symm
              · exact hex ⟨x, x1, by omega, x3⟩)
      ⟨rfl, fun _ _ => rfl, fun i hi => by
        rw [hI i hi, setI_out (fun c h1 h2 => by omega)]⟩
    rw [show a + (b - a) = b by omega] at h3
    exact ⟨sa', e, h1, h2, h3⟩
  · unfold setRanks
    rw [show b - a = 0 by omega]
    exact ⟨sa, rfl, rfl, fun _ _ => rfl, fun i hi => by rw [hI i hi, setI_out (fun c h1 h2 => by omega)]⟩

/-! ## Three parts -/

theorem Core.env {s : Sta} (hC : Core T isa h s) (D : Nat) : Env (fun i => i + D < T.length) (fun i => (s.I (i + D) : Int)) (isa + D) s.sa := by
  intro i hi
  have := hC.room
  refine ⟨by omega, ?_⟩
  rw [show isa + D + i = isa + (i + D) by omega]
  exact hC.ranks _ hi

theorem Raw.key_room (hT : Alone T) {s : Sta} {d D f l : Nat} (hC : Core T isa h s) (hr : Raw T d f l s) (hD : D ≤ d) {r : Nat} (h1 : f ≤ r) (h2 : r < l) :
    s.q r + D < T.length := by
  have hle := hr.grp.le
  have h2' := hr.two
  obtain ⟨r', h3, h4, h5⟩ : ∃ r', f ≤ r' ∧ r' < l ∧ r' ≠ r := by
    by_cases hrf : r = f
    · exact ⟨f + 1, by omega, by omega, by omega⟩
    · exact ⟨f, by omega, by omega, by omega⟩
  have hne : s.q r ≠ s.q r' := fun he => h5 (hC.rk.inj r r' (by omega) (by omega) he).symm
  exact (((hr.agree r r' h1 h2 h3 h4).mono hD).room hT (hC.rk.cell r (by omega)) (hC.rk.cell r' (by omega)) hne).1

theorem Raw.deep (hT : Alone T) {s : Sta} {d f l : Nat} (hC : Core T isa h s) (hr : Raw T d f l s) : d < T.length := by
  have := hr.key_room hT hC (Nat.le_refl _) (Nat.le_refl f) (by have := hr.two; omega)
  omega

theorem Raw.toGrp (hT : Alone T) {s : Sta} {d D f l : Nat} (hC : Core T isa h s) (hr : Raw T d f l s) (hD : D ≤ d) :
    Grp (fun i => i + D < T.length) (fun i => (s.I (i + D) : Int)) (isa + D) f l s.sa := by
  have hle := hr.grp.le
  have hap := hC.apart
  have hroom := hC.room
  refine ⟨hC.env D, by omega, by omega, fun r h1 h2 => by rw [hr.cells r h1 h2]; omega, fun r h1 h2 => ?_⟩
  rw [hr.cells r h1 h2, dec_nat']
  exact hr.key_room hT hC hD h1 h2

/-- A permutation of the cells of a group. -/
theorem Raw.move {s : Sta} {d f l : Nat} {sa' : List Int} (bud : Budget) (st : List Frame) (hC : Core T isa h s) (hr : Raw T d f l s) (hm : Res f l s.sa sa') :
    Core T isa h ⟨s.I, newq f l s.q sa', sa', bud, st⟩ ∧ Chg T isa (fun r => f ≤ r ∧ r < l) s ⟨s.I, newq f l s.q sa', sa', bud, st⟩ ∧
      (∀ r, f ≤ r → r < l → ∃ r', f ≤ r' ∧ r' < l ∧ dec (cel sa' r) = s.q r') := by
  have hle := hr.grp.le
  have hap := hC.apart
  have hdec : ∀ r, f ≤ r → r < l → dec (cel s.sa r) = s.q r := fun r h1 h2 => by rw [hr.cells r h1 h2, dec_nat']
  have hex : ∀ r, f ≤ r → r < l → ∃ r', f ≤ r' ∧ r' < l ∧ dec (cel sa' r) = s.q r' := by
    intro r h1 h2
    obtain ⟨r', h3, h4, h5⟩ := hm.perm.symm.ex h1 h2
    exact ⟨r', h3, h4, by rw [← h5, hdec r' h3 h4]⟩
  have hval : ∀ r, f ≤ r → r < l → s.I (dec (cel sa' r)) + 1 = l := by
    intro r h1 h2
    obtain ⟨r', h3, h4, h5⟩ := hex r h1 h2
    rw [h5]; exact hr.grp.val r' h3 h4
  obtain ⟨k1, k2⟩ := regroup (I' := s.I) (sa' := sa') bud st hC hr.grp hdec hm.len (fun r h1 _ => hm.frame r h1) hm.perm
    (fun i hi => by rw [hm.frame _ (by omega)]; exact hC.ranks i hi) (fun _ _ _ => rfl)
    (fun r h1 h2 => by have := hval r h1 h2; omega) (fun r r' h1 h2 h3 h4 h5 => by have := hval r h1 h2; have := hval r' (by omega) h4; omega)
    (fun r r' h1 h2 h3 h4 h5 => by have := hval r h1 h2; have := hval r' h3 h4; omega)
  exact ⟨k1, k2, hex⟩

/-- A group divided into three: the keys at depth `D` are smaller, equal and greater than `v`. -/
theorem tri (hT : Alone T) {s : Sta} {d D f l a b : Nat} {v : Int} {sa2 : List Int} (bud : Budget) (st : List Frame) (c1 : Prop) [Decidable c1]
    (hC : Core T isa h s) (hr : Raw T d f l s) (hD : D ≤ d) (hm : Mov f l s.sa sa2) (hfa : f ≤ a) (hab : a ≤ b) (hbl : b ≤ l)
    (hlo : ∀ r, f ≤ r → r < a → (s.I (dec (cel sa2 r) + D) : Int) < v) (hmi : ∀ r, a ≤ r → r < b → (s.I (dec (cel sa2 r) + D) : Int) = v)
    (hhi : ∀ r, b ≤ r → r < l → v < (s.I (dec (cel sa2 r) + D) : Int)) (hc1 : c1 ∨ a = l) :
    ∃ sa3 s1, (if c1 then setRanks isa f a ((a : Int) - 1) sa2 else some sa2) = some sa3 ∧
      (if b < l then setRanks isa a b ((b : Int) - 1) sa3 else some sa3) = some s1.sa ∧ s1.bud = bud ∧ s1.st = st ∧
      Core T isa h s1 ∧ Chg T isa (fun r => f ≤ r ∧ r < l) s s1 ∧ (∀ r, f ≤ r → r < l → cel s1.sa r = (s1.q r : Int)) ∧
      (∀ r, f ≤ r → r < a → s1.I (s1.q r) + 1 = a) ∧ (∀ r, a ≤ r → r < b → s1.I (s1.q r) + 1 = b) ∧ (∀ r, b ≤ r → r < l → s1.I (s1.q r) + 1 = l) ∧
      (∀ r r', f ≤ r → r < l → f ≤ r' → r' < l → Agree T d (s1.q r) (s1.q r')) ∧
      (∀ r r', a ≤ r → r < b → a ≤ r' → r' < b → Agree T (D + h) (s1.q r) (s1.q r')) ∧ (∀ r, f ≤ r → r < l → s1.q r = dec (cel sa2 r)) := by
  have hle := hr.grp.le
  have hap := hC.apart
  have hroom := hC.room
  have hlen2 := hm.res.len
  have hfl : f < l := hr.grp.lt
  obtain ⟨-, -, hex⟩ := hr.move bud st hC hm.res
  have hpos : ∀ r, f ≤ r → r < l → cel sa2 r = (dec (cel sa2 r) : Int) := fun r h1 h2 =>
    nat_of (hm.pos (fun r h1 h2 => by rw [hr.cells r h1 h2]; omega) r h1 h2)
  have hdec : ∀ r, f ≤ r → r < l → dec (cel s.sa r) = s.q r := fun r h1 h2 => by rw [hr.cells r h1 h2, dec_nat']
  have hinj : ∀ r r', f ≤ r → r < l → f ≤ r' → r' < l → dec (cel sa2 r) = dec (cel sa2 r') → r = r' :=
    Perm.inj hm.res.perm (fun x y k1 k2 k3 k4 k5 => hC.rk.inj x y (by omega) (by omega) (by rwa [hdec x k1 k2, hdec y k3 k4] at k5))
  have hlt : ∀ r, f ≤ r → r < l → dec (cel sa2 r) < T.length := by
    intro r h1 h2
    obtain ⟨r', h3, h4, h5⟩ := hex r h1 h2
    rw [h5]; exact hC.rk.cell r' (by omega)
  have hIl : ∀ r, f ≤ r → r < l → s.I (dec (cel sa2 r)) + 1 = l := by
    intro r h1 h2
    obtain ⟨r', h3, h4, h5⟩ := hex r h1 h2
    rw [h5]; exact hr.grp.val r' h3 h4
  have hnotin : ∀ r c, r < T.length → r < f ∨ l ≤ r → f ≤ c → c < l → dec (cel sa2 c) ≠ s.q r := by
    intro r c h1 h2 h3 h4 h5
    obtain ⟨c', h6, h7, h8⟩ := hex c h3 h4
    rw [h8] at h5
    have := hC.rk.inj _ _ (by omega) h1 h5
    omega
  have hI2 : ∀ i, i < T.length → cel sa2 (isa + i) = (s.I i : Int) := fun i hi => by
    rw [hm.res.frame _ (by omega)]; exact hC.ranks i hi
  -- the first part
  obtain ⟨sa3, I3, e3, l3, o3, i3, a3, b3, z3⟩ : ∃ (sa3 : List Int) (I3 : Nat → Nat), (if c1 then setRanks isa f a ((a : Int) - 1) sa2 else some sa2) = some sa3 ∧ sa3.length = sa2.length ∧
      (∀ r, r < isa ∨ isa + T.length ≤ r → cel sa3 r = cel sa2 r) ∧ (∀ i, i < T.length → cel sa3 (isa + i) = (I3 i : Int)) ∧
      (∀ r, f ≤ r → r < a → I3 (dec (cel sa2 r)) + 1 = a) ∧ (∀ r, a ≤ r → r < l → I3 (dec (cel sa2 r)) + 1 = l) ∧
      (∀ r, r < T.length → r < f ∨ l ≤ r → I3 (s.q r) = s.I (s.q r)) := by
    by_cases hc : c1
    · rw [if_pos hc]
      obtain ⟨sa3, e, k1, k2, k3⟩ := setRanks_spec (T := T) (isa := isa) (I := s.I) (q := fun r => dec (cel sa2 r)) (a := f) (b := a) (w := a - 1)
        (v := (a : Int) - 1) (sa := sa2) (fun _ => by omega) (by omega) (by omega) (fun r h1 h2 => hpos r h1 (by omega)) (fun r h1 h2 => hlt r h1 (by omega)) hI2
      refine ⟨sa3, _, e, k1, k2, k3, ?_, ?_, ?_⟩
      · intro r h1 h2
        have := setI_in (I := s.I) (q := fun r => dec (cel sa2 r)) (w := a - 1) h1 h2
        rw [this]; omega
      · intro r h1 h2
        rw [setI_out (fun c h3 h4 h5 => by have := hinj c r (by omega) (by omega) (by omega) (by omega) h5; omega)]
        exact hIl r (by omega) h2
      · intro r h1 h2
        exact setI_out (fun c h3 h4 => hnotin r c h1 h2 h3 (by omega))
    · rw [if_neg hc]
      have hal : a = l := hc1.resolve_left hc
      refine ⟨sa2, s.I, rfl, rfl, fun _ _ => rfl, hI2, fun r h1 h2 => by rw [hIl r h1 (by omega), hal], fun r h1 h2 => hIl r (by omega) h2, fun _ _ _ => rfl⟩
  -- the second part
  obtain ⟨sa4, I4, e4, l4, o4, i4, a4, b4, c4, z4⟩ : ∃ (sa4 : List Int) (I4 : Nat → Nat), (if b < l then setRanks isa a b ((b : Int) - 1) sa3 else some sa3) = some sa4 ∧ sa4.length = sa3.length ∧
      (∀ r, r < isa ∨ isa + T.length ≤ r → cel sa4 r = cel sa3 r) ∧ (∀ i, i < T.length → cel sa4 (isa + i) = (I4 i : Int)) ∧
      (∀ r, f ≤ r → r < a → I4 (dec (cel sa2 r)) + 1 = a) ∧ (∀ r, a ≤ r → r < b → I4 (dec (cel sa2 r)) + 1 = b) ∧
      (∀ r, b ≤ r → r < l → I4 (dec (cel sa2 r)) + 1 = l) ∧
      (∀ r, r < T.length → r < f ∨ l ≤ r → I4 (s.q r) = s.I (s.q r)) := by
    by_cases hc : b < l
    · rw [if_pos hc]
      obtain ⟨sa4, e, k1, k2, k3⟩ := setRanks_spec (T := T) (isa := isa) (I := I3) (q := fun r => dec (cel sa2 r)) (a := a) (b := b) (w := b - 1)
        (v := (b : Int) - 1) (sa := sa3) (fun _ => by omega) (by omega) (by omega) (fun r h1 h2 => by rw [o3 r (by omega)]; exact hpos r (by omega) (by omega))
        (fun r h1 h2 => hlt r (by omega) (by omega)) i3
      refine ⟨sa4, _, e, k1, k2, k3, ?_, ?_, ?_, ?_⟩
      · intro r h1 h2
        rw [setI_out (fun c h3 h4 h5 => by have := hinj c r (by omega) (by omega) (by omega) (by omega) h5; omega)]
        exact a3 r h1 h2
      · intro r h1 h2
        have := setI_in (I := I3) (q := fun r => dec (cel sa2 r)) (w := b - 1) h1 h2
        rw [this]; omega
      · intro r h1 h2
        rw [setI_out (fun c h3 h4 h5 => by have := hinj c r (by omega) (by omega) (by omega) (by omega) h5; omega)]
        exact b3 r (by omega) h2
      · intro r h1 h2
        rw [setI_out (fun c h3 h4 => hnotin r c h1 h2 (by omega) (by omega))]
        exact z3 r h1 h2
    · rw [if_neg hc]
      have hbl' : b = l := by omega
      exact ⟨sa3, I3, rfl, rfl, fun _ _ => rfl, i3, a3, fun r h1 h2 => by rw [b3 r h1 (by omega), hbl'], fun r h1 h2 => by omega, z3⟩
  have hcel4 : ∀ r, r < isa ∨ isa + T.length ≤ r → cel sa4 r = cel sa2 r := fun r hr => by rw [o4 r hr, o3 r hr]
  have hv : ∀ r, f ≤ r → r < l → (r < a ∧ I4 (dec (cel sa2 r)) + 1 = a) ∨ (a ≤ r ∧ r < b ∧ I4 (dec (cel sa2 r)) + 1 = b) ∨ (b ≤ r ∧ I4 (dec (cel sa2 r)) + 1 = l) := by
    intro r h1 h2
    rcases Nat.lt_or_ge r a with h3 | h3
    · exact Or.inl ⟨h3, a4 r h1 h3⟩
    · rcases Nat.lt_or_ge r b with h4 | h4
      · exact Or.inr (Or.inl ⟨h3, h4, b4 r h3 h4⟩)
      · exact Or.inr (Or.inr ⟨h4, c4 r h4 h2⟩)
  have hag : ∀ r r', f ≤ r → r < l → f ≤ r' → r' < l → Agree T d (dec (cel sa2 r)) (dec (cel sa2 r')) := by
    intro r r' h1 h2 h3 h4
    obtain ⟨x, h5, h6, h7⟩ := hex r h1 h2
    obtain ⟨y, k5, k6, k7⟩ := hex r' h3 h4
    rw [h7, k7]; exact hr.agree x y h5 h6 k5 k6
  have hkr : ∀ r, f ≤ r → r < l → dec (cel sa2 r) + D < T.length := by
    intro r h1 h2
    obtain ⟨x, h5, h6, h7⟩ := hex r h1 h2
    rw [h7]; exact hr.key_room hT hC hD h5 h6
  have hkey : ∀ r r', f ≤ r → r < l → f ≤ r' → r' < l → s.I (dec (cel sa2 r) + D) < s.I (dec (cel sa2 r') + D) → sless T (dec (cel sa2 r)) (dec (cel sa2 r')) := by
    intro r r' h1 h2 h3 h4 h5
    exact (((hag r r' h1 h2 h3 h4).mono hD).less hT (hlt r h1 h2) (hlt r' h3 h4)).2 (hC.rk.cons _ _ (hkr r h1 h2) (hkr r' h3 h4) h5)
  obtain ⟨k1, k2⟩ := regroup (I' := I4) (sa' := sa4) bud st hC hr.grp hdec (by omega)
    (fun r h1 h2 => by rw [hcel4 r h2]; exact hm.res.frame r h1)
    (hm.res.perm.trans (Perm.congr (fun r h1 h2 => by rw [hcel4 r (by omega)]))) i4 z4
    (fun r h1 h2 => by rw [hcel4 r (by omega)]; have := hv r h1 h2; omega)
    (fun r r' h1 h2 h3 h4 h5 => by
      rw [hcel4 r (by omega)] at h5 ⊢
      rw [hcel4 r' (by omega)]
      have := hv r h1 h2
      have := hv r' (by omega) h4
      omega)
    (fun r r' h1 h2 h3 h4 h5 => by
      rw [hcel4 r (by omega), hcel4 r' (by omega)] at h5 ⊢
      refine hkey r r' h1 h2 h3 h4 ?_
      rcases hv r h1 h2 with k | k | k
      · have := hlo r h1 k.1
        rcases hv r' h3 h4 with k' | k' | k'
        · omega
        · have := hmi r' k'.1 k'.2.1; omega
        · have := hhi r' k'.1 h4; omega
      · have := hmi r k.1 k.2.1
        rcases hv r' h3 h4 with k' | k' | k'
        · omega
        · omega
        · have := hhi r' k'.1 h4; omega
      · rcases hv r' h3 h4 with k' | k' | k' <;> omega)
  have hq : ∀ r, f ≤ r → r < l → newq f l s.q sa4 r = dec (cel sa2 r) := fun r h1 h2 => by rw [newq_in h1 h2, hcel4 r (by omega)]
  refine ⟨sa3, ⟨I4, newq f l s.q sa4, sa4, bud, st⟩, e3, e4, rfl, rfl, k1, k2, ?_, ?_, ?_, ?_, ?_, ?_, hq⟩
  · intro r h1 h2
    show cel sa4 r = (newq f l s.q sa4 r : Int)
    rw [hq r h1 h2, hcel4 r (by omega)]; exact hpos r h1 h2
  · intro r h1 h2
    show I4 (newq f l s.q sa4 r) + 1 = a
    rw [hq r h1 (by omega)]; exact a4 r h1 h2
  · intro r h1 h2
    show I4 (newq f l s.q sa4 r) + 1 = b
    rw [hq r (by omega) (by omega)]; exact b4 r h1 h2
  · intro r h1 h2
    show I4 (newq f l s.q sa4 r) + 1 = l
    rw [hq r (by omega) h2]; exact c4 r h1 h2
  · intro r r' h1 h2 h3 h4
    show Agree T d (newq f l s.q sa4 r) (newq f l s.q sa4 r')
    rw [hq r h1 h2, hq r' h3 h4]; exact hag r r' h1 h2 h3 h4
  · intro r r' h1 h2 h3 h4
    show Agree T (D + h) (newq f l s.q sa4 r) (newq f l s.q sa4 r')
    rw [hq r (by omega) (by omega), hq r' (by omega) (by omega)]
    refine ((hag r r' (by omega) (by omega) (by omega) (by omega)).mono hD).add (hC.rk.eqh _ _ (hkr r (by omega) (by omega)) (hkr r' (by omega) (by omega)) ?_)
    have := hmi r h1 h2
    have := hmi r' h3 h4
    omega

end Bwtc.Tr
