import Verif.TrTandem

/-!
# A tandem repeat
-/

set_option autoImplicit false

namespace Bwtc.Tr
open Sais (put inv put_spec bind_some')
open Ss (cel get_cel pop Perm Res Mov nat_of dec_nat')
open Suffix
open Divsuf (getI putI dec)

variable {T : List Nat} {cap isa h : Nat}

/-- The members with smaller keys and those with larger keys are counted. -/
theorem rep_room (hT : Alone T) {s : Sta} {d D f l a b : Nat} {sa2 : List Int} (hC : Core T isa h s) (hr : Raw T d f l s) (hD : D ≤ d) (hm : Mov f l s.sa sa2)
    (hfa : f ≤ a) (hab : a ≤ b) (hbl : b ≤ l)
    (klo : ∀ r, f ≤ r → r < a → (s.I (dec (cel sa2 r) + D) : Int) < (l : Int) - 1) (khi : ∀ r, b ≤ r → r < l → (l : Int) - 1 < (s.I (dec (cel sa2 r) + D) : Int)) :
    a - f ≤ repLo T s D f l ∧ l - b ≤ repHi T s D l := by
  have hle := hr.grp.le
  obtain ⟨k1, -, hex⟩ := hr.move s.bud s.st hC hm.res
  have hinj := k1.rk.inj
  have hmem : ∀ r, f ≤ r → r < l → s.I (newq f l s.q sa2 r) + 1 = l ∧ newq f l s.q sa2 r + D < T.length ∧ newq f l s.q sa2 r < T.length := by
    intro r h1 h2
    obtain ⟨x, x1, x2, x3⟩ := hex r h1 h2
    rw [newq_in h1 h2, x3]
    exact ⟨hr.grp.val x x1 x2, hr.key_room hT hC hD x1 x2, hC.rk.cell x (by omega)⟩
  constructor
  · rw [← cnt_range T.length f a hfa (by omega)]
    refine cnt_inj (newq f l s.q sa2) ?_ ?_
    · intro r _ ⟨h1, h2⟩
      obtain ⟨m1, m2, m3⟩ := hmem r h1 (by omega)
      refine ⟨m3, m1, m2, ?_⟩
      have h3 := klo r h1 h2
      rw [← newq_in (q := s.q) h1 (show r < l by omega)] at h3
      obtain ⟨w, w1, w2⟩ := hC.rk.onto _ m2
      rw [← w2] at h3 ⊢
      have w3 := (hC.rk.up w w1).1
      rcases Nat.lt_or_ge w f with h4 | h4
      · exact hr.grp.low w h4
      · rcases Nat.lt_or_ge w l with h5 | h5
        · have := hr.grp.val w h4 h5; omega
        · omega
    · intro i j h1 h2 _ _ h3
      exact hinj i j h1 h2 h3
  · rw [← cnt_range T.length b l hbl hle]
    refine cnt_inj (newq f l s.q sa2) ?_ ?_
    · intro r _ ⟨h1, h2⟩
      obtain ⟨m1, m2, m3⟩ := hmem r (by omega) h2
      refine ⟨m3, m1, m2, ?_⟩
      have h3 := khi r h1 h2
      rw [← newq_in (q := s.q) (show f ≤ r by omega) h2] at h3
      omega
    · intro i j h1 h2 _ _ h3
      exact hinj i j h1 h2 h3

theorem outer_le {f a b l : Nat} (h1 : f ≤ a) (h2 : a ≤ b) (h3 : b ≤ l) : a - f + (l - b) ≤ l - f := by omega

theorem outer_lt {f a b l : Nat} (h1 : f ≤ a) (h2 : 1 < b - a) (h3 : b ≤ l) : a - f + (l - b) + 2 ≤ l - f := by omega

theorem FitTwo.one {A B room n cap : Nat} (h : FitTwo A B room) (hc : n + room ≤ cap) (h1 : 1 < A) (h2 : 1 < B) : n < cap := by
  have := (h.2.2 h1 h2).1; omega

/-- The frames of a tandem repeat. -/
theorem rep_ready {μ : Nat} {gs : List Frame} {x y tl : Int} {room' : Nat} {g : Frame} {d a b : Nat} (s1 : Sta) (hisad : g.isad = isa + d) (hd : h ≤ d) (hn : g.last < 2 ^ 32)
    (hle : g.last ≤ T.length) (hmu : mu T.length d g.first g.last 1 ≤ μ) (hfa : g.first ≤ a) (hab : a ≤ b) (hbl : b ≤ g.last)
    (t7 : ∀ r, g.first ≤ r → r < g.last → cel s1.sa r = (s1.q r : Int))
    (t11 : ∀ r r', g.first ≤ r → r < g.last → g.first ≤ r' → r' < g.last → Agree T d (s1.q r) (s1.q r'))
    (g1 : g.first < a → IsGrp T s1.I s1.q g.first a) (g3 : b < g.last → IsGrp T s1.I s1.q b g.last) (hx : 0 < a - g.first → a - g.first < 2 ^ 32 → 0 ≤ x)
    (hy : 0 < g.last - b → g.last - b < 2 ^ 32 → 0 ≤ y) (hp : Pick gs [⟨g.isad, g.first, a, x, tl⟩, ⟨g.isad, b, g.last, y, tl⟩])
    (hfit : FitTwo (a - g.first) (g.last - b) room') : Ready T isa h s1 μ g.first room' tl gs := by
  obtain ⟨q2, q3, q4⟩ := hfit
  have hlow : ∀ (x : Frame), x.isad = isa + d → 0 ≤ x.limit → x.first + 1 < x.last → IsGrp T s1.I s1.q x.first x.last → g.first ≤ x.first → x.last ≤ g.last →
      ∀ room', Fits (x.last - x.first) room' → Valid T isa h s1 μ g.first room' x := by
    intro x x1 x2 x3 x4 x5 x6 room' y1
    exact .raw d x1 hd x2 ⟨by omega, x4, fun r k1 k2 => t7 r (by omega) (by omega), fun r r' k1 k2 k3 k4 => t11 r r' (by omega) (by omega) (by omega) (by omega)⟩ (by
      unfold mu at hmu ⊢; omega) y1
  have hpl := hp.len
  refine ready_of (total := (a - g.first) + (g.last - b)) (N := 2) gs (by simp only [List.length_cons, List.length_nil] at hpl; omega) hp.asc (Nat.le_trans hp.tot (by simp)) ?_
  intro z hz k z1 z2
  obtain ⟨x1, x2⟩ := hp.sub z hz
  simp only [List.mem_cons, List.not_mem_nil, or_false] at x1
  have hk : k = 0 ∨ k = 1 := by omega
  rcases x1 with x1 | x1
  · subst x1
    simp only at x2 z2
    have hv := hlow ⟨g.isad, g.first, a, x, tl⟩ hisad (hx (by omega) (by omega)) x2 (g1 (by omega)) (Nat.le_refl _) (by show a ≤ _; omega)
    refine ⟨?_, Nat.le_refl _, rfl⟩
    rcases hk with rfl | rfl
    · exact ⟨by omega, hv _ q2⟩
    · exact ⟨(q4 (by omega) (by omega)).1, hv _ ((q4 (by omega) (by omega)).2.1 (by omega))⟩
  · subst x1
    simp only at x2 z2
    have hv := hlow ⟨g.isad, b, g.last, y, tl⟩ hisad (hy (by omega) (by omega)) x2 (g3 (by omega)) (by show _ ≤ b; omega) (Nat.le_refl _)
    refine ⟨?_, by show _ ≤ b; omega, rfl⟩
    rcases hk with rfl | rfl
    · exact ⟨by omega, hv _ q3⟩
    · exact ⟨(q4 (by omega) (by omega)).1, hv _ ((q4 (by omega) (by omega)).2.2 (by omega))⟩

theorem mark_second (c nl : Frame) (st : List Frame) : mark (c :: nl :: st) (st.length : Int) = some (c :: { nl with limit := -1 } :: st) := by
  unfold mark
  rw [if_pos (by omega), if_pos (by simp only [List.length_cons]; omega)]
  have : (c :: nl :: st).length - 1 - (st.length : Int).toNat = 1 := by
    simp only [List.length_cons]; omega
  rw [this]
  rfl

/-- A tandem repeat: the groups with other keys are sorted first, the rest is copied. -/
theorem rep_goal (hT : Alone T) (hn : T.length < 2 ^ 32) {μ room : Nat} (hrun : Runs' T cap isa h μ) {s : Sta} {g : Frame} {d : Nat} (hh : 0 < h) (hC : Core T isa h s)
    (hr : Raw T d g.first g.last s) (hisad : g.isad = isa + d) (hd : h < d) (hmu : mu T.length d g.first g.last 2 ≤ μ + 1) (ht : TlOk g.trlink s.st)
    (hcap : s.st.length + room ≤ cap) (hfit : FitRep (g.last - g.first) (repLo T s (d - h) g.first g.last) (repHi T s (d - h) g.last) room) (hlim : g.limit = -1) : Goal T cap isa h s g := by
  have hle := hr.grp.le
  have h2 := hr.two
  have hap := hC.apart
  obtain ⟨D, hDd⟩ : ∃ D, D = d - h := ⟨_, rfl⟩
  have hG := hr.toGrp hT hC (D := D) (by omega)
  obtain ⟨sa2, a, b, ep, hm, hfa, hab, hbl, klo, kmi, khi⟩ := partition_spec hG (middle := g.first) (by omega) (by omega) (by omega) ((g.last : Int) - 1) (by
    intro r h3 h4; omega)
  have e : step cap isa h s.sa s.bud s.st g = tandemStep cap isa h s.sa s.bud s.st g := by
    unfold step
    rw [if_pos (by omega), if_pos hlim]
  have hlh := rep_room hT (D := D) hC hr (by omega) hm hfa hab hbl klo khi
  rw [← hDd] at hfit
  obtain ⟨f1, f2⟩ := hfit _ _ hlh.1 hlh.2
  unfold tandemStep at e
  rw [if_neg (by omega), show g.isad - h = isa + D by omega, bind_some' ep] at e
  simp only at e
  have htri := fun st1 => tri hT (s := s) (d := d) (D := D) (f := g.first) (l := g.last) (a := a) (b := b) (v := (g.last : Int) - 1) (sa2 := sa2) s.bud st1 (a < g.last) hC hr (by omega) hm hfa hab hbl klo kmi khi (by omega)
  have hready := fun {gs : List Frame} {x y tl : Int} {room' : Nat} (s1 : Sta) => rep_ready (T := T) (isa := isa) (h := h) (μ := μ) (gs := gs) (x := x) (y := y) (tl := tl) (room' := room') (g := g) (d := d) (a := a) (b := b) s1 hisad (by omega) (by omega) hle (by unfold mu at hmu ⊢; omega) hfa hab hbl
  by_cases hbig : 1 < b - a
  · obtain ⟨f3, f4⟩ := f1 (outer_lt hfa hbig hbl)
    obtain ⟨sa3, s1, t1, t2, t3, t4, t5, t6, t7, t8, t9, t10, t11, t12, t13⟩ := htri (⟨isa + D, g.first, g.last, -2, g.trlink⟩ :: ⟨0, a, b, 0, 0⟩ :: s.st)
    obtain ⟨g1, g2, g3⟩ := three_groups hr t6 hfa hab hbl t8 t9 t10
    have epush : tandemPush cap (isa + D) g.first a b g.last g.trlink s.st = some (⟨isa + D, g.first, g.last, -2, g.trlink⟩ :: ⟨0, a, b, 0, 0⟩ :: s.st, (s.st.length : Int)) := by
      unfold tandemPush
      rw [if_pos hbig, bind_some' (push_spec (by omega)), bind_some' (push_spec (by rw [List.length_cons]; omega))]
      show some (_, _) = some (_, _)
      congr 2
      simp only [List.length_cons]
      omega
    obtain ⟨gs, x, y, eg, hx, hy, hp⟩ := tandemGo_spec (cap := cap) (isad := g.isad) (first := g.first) (a := a) (b := b) (last := g.last) (tl := (s.st.length : Int))
      (st := ⟨isa + D, g.first, g.last, -2, g.trlink⟩ :: ⟨0, a, b, 0, 0⟩ :: s.st) (f4.one (by simp only [List.length_cons]; omega)) hfa hab hbl
    rw [bind_some' t1, bind_some' t2, bind_some' epush] at e
    simp only at e
    rw [bind_some' eg] at e
    have e0 : after cap isa h { s with st := g :: s.st } = after cap isa h { s1 with st := gs ++ s1.st } := by
      rw [after_step (stk := gs ++ (⟨isa + D, g.first, g.last, -2, g.trlink⟩ :: ⟨0, a, b, 0, 0⟩ :: s.st)) s1.I s1.q e rfl]
      exact after_congr rfl t3.symm (by show gs ++ _ = gs ++ s1.st; rw [t4])
    have hpl := hp.len
    obtain ⟨s2, e2, p2⟩ := runs_list (tl := (s.st.length : Int)) (lo := g.first) (room := room - 2) hrun gs s1 t5 (by unfold TlOk; rw [t4]; simp only [List.length_cons]; omega)
      (by rw [t4]; simp only [List.length_cons, List.length_nil] at hpl ⊢; omega)
      (hready s1 t7 t11 g1 g3 hx hy hp f4) hp.pair
    have hS := pick_cells2 hp
    have htl : TlOk (s.st.length : Int) s1.st := by unfold TlOk; rw [t4]; simp only [List.length_cons]; omega
    -- the cells besides the group
    have hwid : Chg T isa (fun r => (g.first ≤ r ∧ r < g.last) ∧ ¬ (a ≤ r ∧ r < b)) s1 s1 := by
      refine (Chg.refl (fun _ => False) s1 (fun _ h => h)).widen (fun _ h => h.elim) (fun r hr => by omega) (fun r hr _ => ?_)
      rcases Nat.lt_or_ge r a with k | k
      · have := t8 r hr.1.1 k; omega
      · have := t10 r (by omega) hr.1.2; omega
    have p3 : Post T isa h (fun r => (g.first ≤ r ∧ r < g.last) ∧ ¬ (a ≤ r ∧ r < b)) (s.st.length : Int) s1 s2 := by
      refine finish htl hwid (fun r hr => by rw [hS] at hr; omega) (Or.inl ⟨rfl, rfl, fun r hr hs => ?_⟩) p2 (fun r hr _ => t7 r hr.1.1 hr.1.2) (fun r r' hr hs hr' hs' he => ?_) (fun r hr hs hs' => ?_)
      · rw [hS] at hs
        rcases Nat.lt_or_ge r a with k | k
        · have := t8 r hr.1.1 k; omega
        · have := t10 r (by omega) hr.1.2; omega
      · rw [hS] at hs hs'
        have : r = r' := by
          rcases Nat.lt_or_ge r a with k | k
          · have := t8 r hr.1.1 k
            rcases Nat.lt_or_ge r' a with k' | k'
            · omega
            · have := t10 r' (by omega) hr'.1.2; omega
          · have := t10 r (by omega) hr.1.2
            rcases Nat.lt_or_ge r' a with k' | k'
            · have := t8 r' hr'.1.1 k'; omega
            · omega
        rw [this]; exact Agree.refl _ _
      · rw [hS] at hs hs'
        rcases Nat.lt_or_ge r a with k | k
        · have := t8 r hr.1.1 k; omega
        · have := t10 r (by omega) hr.1.2; omega
    have hC2 := p3.core
    have c12 := p3.chg
    have c02 : Chg T isa (fun r => g.first ≤ r ∧ r < g.last) s s2 := (t6.trans c12).congr (fun r => ⟨fun h => h.elim id And.left, Or.inl⟩)
    have hg2 : IsGrp T s2.I s2.q a b := (g2 (by omega)).chg c12 hC2.rk (fun r hr => by omega)
    have hq2 : ∀ r, a ≤ r → r < b → s2.q r = s1.q r := fun r k1 k2 => c12.qout r (by omega)
    have hcells : ∀ r, g.first ≤ r → r < g.last → cel s2.sa r = (s2.q r : Int) := by
      intro r k1 k2
      by_cases k3 : a ≤ r ∧ r < b
      · rw [hq2 r k3.1 k3.2, c12.out r (by omega) (by omega)]; exact t7 r k1 k2
      · exact p3.cells r ⟨⟨k1, k2⟩, k3⟩
    obtain ⟨p, hCp, hB, pq, qp, hst⟩ := copied_state hT (D := D) (f := g.first) (l := g.last) hC2 hg2 hfa hbl (by omega) hle hcells
      (by
        intro r k1 k2
        rw [hq2 r k1 k2, t13 r (by omega) (by omega)]
        have k3 := kmi r k1 k2
        obtain ⟨-, -, hex⟩ := hr.move s.bud s.st hC hm.res
        obtain ⟨x, x1, x2, x3⟩ := hex r (by omega) (by omega)
        have k4 := hr.key_room hT hC (D := D) (by omega) x1 x2
        rw [x3] at k3 ⊢
        refine ⟨k4, ?_⟩
        obtain ⟨w, w1, w2⟩ := hC.rk.onto _ k4
        have w3 : g.first ≤ w ∧ w < g.last := by
          have hup := hC.rk.up w w1
          rw [w2] at hup
          refine ⟨?_, by omega⟩
          rcases Nat.lt_or_ge w g.first with k5 | k5
          · have := hr.grp.low w k5
            rw [w2] at this; omega
          · exact k5
        obtain ⟨z, z1, z2⟩ := c02.back hC hC2 w3
        exact ⟨z, z1.1, z1.2, by rw [z2, w2]⟩)
      (by
        intro r r' k1 k2 k3 k4
        rw [hq2 r k1 k2, hq2 r' k3 k4]
        exact (t12 r r' k1 k2 k3 k4).mono (by omega))
      (fun r r' k1 k2 k3 k4 k5 k6 => p3.deep r r' ⟨⟨k1, k2⟩, k3⟩ ⟨⟨k4, k5⟩, k6⟩)
    have hlo : ∀ r, g.first ≤ r → r < a → ∃ x, x < T.length ∧ cel s2.sa r = (x : Int) ∧ p x = r := fun r k1 k2 =>
      ⟨s2.q r, hC2.rk.cell r (by omega), hcells r k1 (by omega), pq r k1 (by omega) (by omega)⟩
    have hhi : ∀ r, b ≤ r → r < g.last → ∃ x, x < T.length ∧ cel s2.sa r = (x : Int) ∧ p x = r := fun r k1 k2 =>
      ⟨s2.q r, hC2.rk.cell r (by omega), hcells r (by omega) k2, pq r (by omega) k2 (by omega)⟩
    have hl2 : g.last ≤ isa := by omega
    -- what follows from the state after the copy
    have hend : ∀ s3 : Sta, Core T isa h s3 → Chg T isa (fun r => a ≤ r ∧ r < b) s2 s3 → (∀ r, a ≤ r → r < b → cel s3.sa r = (s3.q r : Int)) →
        (∀ r r', g.first ≤ r → r < g.last → g.first ≤ r' → r' < g.last → s3.I (s3.q r) = s3.I (s3.q r') → Agree T (2 * h) (s3.q r) (s3.q r')) →
        Out g.trlink (∀ r, g.first ≤ r ∧ r < g.last → s3.I (s3.q r) = r) s s3 → Post T isa h (fun r => g.first ≤ r ∧ r < g.last) g.trlink s s3 := by
      intro s3 a1 a2 a3 a4 a5
      refine ⟨a1, (c02.trans a2).congr (fun r => by omega), ?_, fun r r' k1 k2 => a4 r r' k1.1 k1.2 k2.1 k2.2, a5⟩
      intro r k
      by_cases k3 : a ≤ r ∧ r < b
      · exact a3 r k3.1 k3.2
      · rw [a2.out r k3 (by omega), a2.qout r k3]; exact hcells r k.1 k.2
    rcases p3.out with ⟨o1, o2, o3⟩ | ⟨o1, o2⟩
    · obtain ⟨A, I', ec, hK, hI'⟩ := copy_spec hCp hl2 hC2.room hC2.ranks hlo hhi (by
        intro i k1 k2 k3 k4
        have k5 := qp i k1 k4
        have k6 := o3 (p i) ⟨⟨k2, k3⟩, k4⟩
        rwa [k5] at k6)
      obtain ⟨s3, b1, b2, b3, b4, b5, b6, b7, b8, b9⟩ := hst A I' s2.bud s.st hK
      refine ⟨s3, ?_, hend s3 b5 b6 (by rw [b1]; exact b7) (by rw [b2]; exact b9) (Or.inl ⟨b4, by rw [b3, o2, t3], ?_⟩)⟩
      · have estep : step cap isa h s2.sa s2.bud (⟨0, a, b, 0, 0⟩ :: s.st) ⟨isa + D, g.first, g.last, -2, g.trlink⟩ = some (A, s2.bud, pop s.st) := by
          unfold step
          rw [if_pos (show (-2 : Int) < 0 by decide), if_neg (show ¬ (-2 : Int) = -1 by decide), if_pos rfl]
          unfold copyStep
          simp only
          rw [if_neg (by omega), if_pos trivial, show isa + D - isa = D by omega, ec]
          rfl
        rw [e0, e2, show after cap isa h s2 = after cap isa h { s2 with st := (⟨isa + D, g.first, g.last, -2, g.trlink⟩ : Frame) :: (⟨0, a, b, 0, 0⟩ :: s.st) } from after_congr rfl rfl (by rw [o1, t4])]
        rw [after_step (s := { s2 with st := ⟨0, a, b, 0, 0⟩ :: s.st }) (stk := s.st) s3.I s3.q estep rfl]
        exact after_congr b1.symm b3.symm b4.symm
      · intro r k
        by_cases k3 : a ≤ r ∧ r < b
        · have k4 := b8 r k3.1 k3.2
          rw [b2, hI' _ (b5.rk.cell r (by omega)) (by omega) (by omega), k4]
        · rw [b6.qout r k3, b6.iout r (by omega) k3]
          exact o3 r ⟨k, k3⟩
    · rw [t4, mark_second] at o1
      have o1' := (Option.some.inj o1).symm
      obtain ⟨st1, em, hlen, -⟩ := mark_some ht
      obtain ⟨A, I', ec, hK⟩ := partialcopy_spec hCp hB hl2 hC2.room hC2.ranks hlo hhi
      obtain ⟨s3, b1, b2, b3, b4, b5, b6, b7, b8, b9⟩ := hst A I' s2.bud st1 hK
      refine ⟨s3, ?_, hend s3 b5 b6 (by rw [b1]; exact b7) (by rw [b2]; exact b9) (Or.inr ⟨by rw [b4]; exact em, by rw [b3]; rw [t3] at o2; exact o2⟩)⟩
      have estep : step cap isa h s2.sa s2.bud (⟨0, a, b, -1, 0⟩ :: s.st) ⟨isa + D, g.first, g.last, -2, g.trlink⟩ = some (A, s2.bud, pop st1) := by
        unfold step
        rw [if_pos (show (-2 : Int) < 0 by decide), if_neg (show ¬ (-2 : Int) = -1 by decide), if_pos rfl]
        unfold copyStep
        simp only
        rw [if_neg (by omega), if_neg (by decide), em, show isa + D - isa = D by omega]
        simp only [Option.bind_eq_bind, Option.bind_some]
        rw [ec]
        rfl
      rw [e0, e2, show after cap isa h s2 = after cap isa h { s2 with st := (⟨isa + D, g.first, g.last, -2, g.trlink⟩ : Frame) :: (⟨0, a, b, -1, 0⟩ :: s.st) } from after_congr rfl rfl (by rw [o1'])]
      rw [after_step (s := { s2 with st := ⟨0, a, b, -1, 0⟩ :: s.st }) (stk := st1) s3.I s3.q estep rfl]
      exact after_congr b1.symm b3.symm b4.symm
  · obtain ⟨sa3, s1, t1, t2, t3, t4, t5, t6, t7, t8, t9, t10, t11, t12, t13⟩ := htri s.st
    obtain ⟨g1, g2, g3⟩ := three_groups hr t6 hfa hab hbl t8 t9 t10
    have epush : tandemPush cap (isa + D) g.first a b g.last g.trlink s.st = some (s.st, g.trlink) := by
      unfold tandemPush
      rw [if_neg hbig]
    obtain ⟨gs, x, y, eg, hx, hy, hp⟩ := tandemGo_spec (cap := cap) (isad := g.isad) (first := g.first) (a := a) (b := b) (last := g.last) (tl := g.trlink)
      (st := s.st) ((f2 (outer_le hfa hab hbl)).one hcap) hfa hab hbl
    rw [bind_some' t1, bind_some' t2, bind_some' epush] at e
    simp only at e
    rw [bind_some' eg] at e
    have hpl := hp.len
    refine three_goal (s1 := s1) (gs := gs) hrun False ht hcap t5 t6 hfa hab hbl t8 t9 t10 t7 (fun r r' k1 k2 k3 k4 => ?_) (fun h => h.elim)
      (fun r => by rw [pick_cells2 hp]; simp) ?_ hp.pair (Or.inl ⟨t4, by rw [t3], Or.inr (by omega)⟩) ?_
    · have : r = r' := by omega
      rw [this]; exact Agree.refl _ _
    · exact hready s1 t7 t11 g1 g3 hx hy hp (f2 (outer_le hfa hab hbl))
    · rw [after_step (stk := gs ++ s.st) s1.I s1.q e rfl]
      exact after_congr rfl t3.symm (by show gs ++ s.st = gs ++ s1.st; rw [t4])

/-- Every frame is done. -/
theorem runs_all (hT : Alone T) (hn : T.length < 2 ^ 32) (hh : 0 < h) : ∀ μ, Runs' T cap isa h μ := by
  intro μ
  induction μ with
  | zero =>
    intro s g lo room hC hv ht hcap
    cases hv with
    | raw d a1 a2 a3 a4 a5 => have := a4.two; unfold mu at a5; omega
    | rep d a1 a2 a3 a4 a5 => have := a4.two; unfold mu at a5; omega
    | srt d a1 a2 a3 a4 a5 => have := a4.two; unfold mu at a5; omega
  | succ μ ih =>
    intro s g lo room hC hv ht hcap
    cases hv with
    | raw d a1 a2 a3 a4 a5 a6 => exact raw_goal hT hn ih hh hC a4 a1 a2 a5 ht hcap a6 a3
    | rep d a1 a2 a3 a4 a5 a6 => exact rep_goal hT hn ih hh hC a4 a1 a2 a5 ht hcap a6 a3
    | srt d a1 a2 a3 a4 a5 a6 a7 => exact srt_goal hT hn ih hh hC a4 a1 a2 a5 ht hcap a6 a7 a3

end Bwtc.Tr
