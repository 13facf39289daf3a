import Verif.TrRaw

/-!
# A group that has been sorted by keys
-/

set_option autoImplicit false

namespace Bwtc.Tr
open Sais (put inv put_spec bind_some')
open Ss (cel get_cel pop Perm Res Mov nat_of dec_nat' dec_inv inv_nonneg_iff flip flip_spec cel_set_self cel_set_ne)
open Suffix
open Divsuf (getI putI dec)

variable {T : List Nat} {cap isa h : Nat}

/-! ## Marks -/

theorem Mrk.mono {K : Nat → Int} {f l : Nat} {sa : List Int} (hm : Mrk K f l sa) {r r' : Nat} (h1 : f ≤ r) (h2 : r ≤ r') (h3 : r' < l) :
    K (dec (cel sa r)) ≤ K (dec (cel sa r')) := by
  induction h2 with
  | refl => exact Int.le_refl _
  | @step r' h4 ih =>
    have h4 : r ≤ r' := h4
    have h3 : r' + 1 < l := h3
    show _ ≤ K (dec (cel sa (r' + 1)))
    have := ih (by omega)
    rcases hm.step r' (by omega) h3 with ⟨_, k⟩ | ⟨_, k⟩ <;> omega

theorem Mrk.lt {K : Nat → Int} {f l : Nat} {sa : List Int} (hm : Mrk K f l sa) {r x r' : Nat} (h1 : f ≤ r) (h2 : r ≤ x) (h3 : x < r') (h4 : r' < l)
    (hx : 0 ≤ cel sa x) : K (dec (cel sa r)) < K (dec (cel sa r')) := by
  have k1 := hm.mono h1 h2 (by omega)
  have k2 := hm.mono (r := x + 1) (r' := r') (by omega) (by omega) h4
  rcases hm.step x (by omega) (by omega) with ⟨k, _⟩ | ⟨_, k⟩ <;> omega

theorem Mrk.eq {K : Nat → Int} {f l : Nat} {sa : List Int} (hm : Mrk K f l sa) {r r' : Nat} (h1 : f ≤ r) (h2 : r ≤ r') (h3 : r' < l)
    (hx : ∀ x, r ≤ x → x < r' → cel sa x < 0) : K (dec (cel sa r)) = K (dec (cel sa r')) := by
  induction h2 with
  | refl => rfl
  | @step r' h4 ih =>
    have h4 : r ≤ r' := h4
    have h3 : r' + 1 < l := h3
    show _ = K (dec (cel sa (r' + 1)))
    have := ih (by omega) (fun x k1 k2 => hx x k1 (by omega))
    have := hx r' h4 (by omega)
    rcases hm.step r' (by omega) h3 with ⟨_, k⟩ | ⟨_, k⟩ <;> omega

/-! ## `ISA[*a] = a - SA` and `*a = ~*a` -/

theorem putI_rank {sa : List Int} {i : Nat} {x v : Int} (hx : x = (i : Int)) (hi : isa + i < sa.length) : putI sa (isa + x) v = some (sa.set (isa + i) v) := by
  unfold putI
  subst hx
  rw [if_pos (by omega), show ((isa : Int) + (i : Int)).toNat = isa + i by omega, put_spec hi]

theorem singles_spec {l : Nat} {q : Nat → Nat} (hl : l ≤ isa) : ∀ (k : Nat) (a : Nat) (sa : List Int) (I : Nat → Nat), l - a = k → a < l → isa + T.length ≤ sa.length →
    (∀ r, a ≤ r → r < l → dec (cel sa r) = q r) → (∀ r, a ≤ r → r < l → q r < T.length) → (∀ r r', a ≤ r → r < l → a ≤ r' → r' < l → q r = q r' → r = r') →
    (∀ i, i < T.length → cel sa (isa + i) = (I i : Int)) → 0 ≤ cel sa a →
    ∃ (sa' : List Int) (c : Nat) (I' : Nat → Nat), singles isa l sa a = some (sa', c) ∧ sa'.length = sa.length ∧ a < c ∧ c ≤ l ∧ (∀ r, a ≤ r → r < c → 0 ≤ cel sa r) ∧
      (c < l → cel sa c < 0) ∧ (∀ r, r < isa ∨ isa + T.length ≤ r → cel sa' r = cel sa r) ∧ (∀ i, i < T.length → cel sa' (isa + i) = (I' i : Int)) ∧
      (∀ r, a ≤ r → r < c → I' (q r) = r) ∧ (∀ i, (∀ r, a ≤ r → r < c → q r ≠ i) → I' i = I i) := by
  intro k
  induction k with
  | zero => intro a sa I h1 h2; omega
  | succ k ih =>
    intro a sa I hk hal hroom hdec hq hinj hI h0
    have hqa := hq a (Nat.le_refl _) hal
    have hca : cel sa a = (q a : Int) := by rw [← hdec a (Nat.le_refl _) hal]; exact nat_of h0
    have e1 : putI sa (isa + cel sa a) (a : Int) = some (sa.set (isa + q a) (a : Int)) := putI_rank hca (by omega)
    have hlen : (sa.set (isa + q a) (a : Int)).length = sa.length := List.length_set
    have hsame : ∀ r, r < isa ∨ isa + T.length ≤ r → cel (sa.set (isa + q a) (a : Int)) r = cel sa r := fun r hr => cel_set_ne _ (by omega)
    have hI1 : ∀ i, i < T.length → cel (sa.set (isa + q a) (a : Int)) (isa + i) = (((fun i => if i = q a then a else I i) i : Nat) : Int) := by
      intro i hi
      by_cases hiq : i = q a
      · simp only [hiq, if_true]; rw [cel_set_self (by omega)]
      · simp only [hiq, if_false]; rw [cel_set_ne _ (by omega)]; exact hI i hi
    rw [singles, bind_some' (get_cel (by omega)), bind_some' e1]
    by_cases c1 : a + 1 < l
    · rw [if_pos c1, bind_some' (get_cel (by omega)), hsame _ (by omega)]
      by_cases c2 : 0 ≤ cel sa (a + 1)
      · rw [if_pos c2]
        obtain ⟨sa', c, I', e, k1, k2, k3, k4, k5, k6, k7, k8, k9⟩ := ih (a + 1) _ _ (by omega) c1 (by omega) (fun r h1 h2 => by rw [hsame r (by omega)]; exact hdec r (by omega) h2)
          (fun r h1 h2 => hq r (by omega) h2) (fun r r' h1 h2 h3 h4 => hinj r r' (by omega) h2 (by omega) h4) hI1 (by rw [hsame _ (by omega)]; exact c2)
        refine ⟨sa', c, I', e, by omega, by omega, k3, ?_, ?_, ?_, k7, ?_, ?_⟩
        · intro r h1 h2
          by_cases hra : r = a
          · rw [hra]; exact h0
          · have := k4 r (by omega) h2
            rwa [hsame r (by omega)] at this
        · intro h1
          have := k5 h1
          rwa [hsame c (by omega)] at this
        · intro r hr; rw [k6 r hr, hsame r hr]
        · intro r h1 h2
          by_cases hra : r = a
          · subst hra
            rw [k9 _ (fun r' h3 h4 h5 => by have := hinj r' r (by omega) (by omega) (by omega) (by omega) h5; omega)]
            exact if_pos rfl
          · exact k8 r (by omega) h2
        · intro i hi
          rw [k9 i (fun r h1 h2 => hi r (by omega) h2)]
          exact if_neg (fun h => hi a (Nat.le_refl _) (by omega) h.symm)
      · rw [if_neg c2]
        exact ⟨_, a + 1, _, rfl, hlen, by omega, by omega, fun r h1 h2 => by rw [show r = a by omega]; exact h0, fun _ => by omega, hsame, hI1,
          fun r h1 h2 => by rw [show r = a by omega]; exact if_pos rfl, fun i hi => if_neg (fun h => hi a (Nat.le_refl _) (by omega) h.symm)⟩
    · rw [if_neg c1]
      exact ⟨_, a + 1, _, rfl, hlen, by omega, by omega, fun r h1 h2 => by rw [show r = a by omega]; exact h0, fun _ => by omega, hsame, hI1,
        fun r h1 h2 => by rw [show r = a by omega]; exact if_pos rfl, fun i hi => if_neg (fun h => hi a (Nat.le_refl _) (by omega) h.symm)⟩

theorem unmark_spec {l : Nat} : ∀ (k : Nat) (a : Nat) (sa : List Int), l - a = k → a < l → l ≤ sa.length → cel sa a < 0 → 0 ≤ cel sa (l - 1) →
    ∃ (sa' : List Int) (e : Nat), unmark sa a = some (sa', e) ∧ sa'.length = sa.length ∧ a < e ∧ e < l ∧ (∀ r, a ≤ r → r < e → cel sa r < 0) ∧ 0 ≤ cel sa e ∧
      (∀ r, a ≤ r → r < e → cel sa' r = inv (cel sa r)) ∧ (∀ r, r < a ∨ e ≤ r → cel sa' r = cel sa r) := by
  intro k
  induction k with
  | zero => intro a sa h1 h2; omega
  | succ k ih =>
    intro a sa hk hal hlen h0 h1
    have hne : a + 1 < l := by
      rcases Nat.lt_or_ge (a + 1) l with h2 | h2
      · exact h2
      · rw [show l - 1 = a by omega] at h1; omega
    have hlen' : (sa.set a (inv (cel sa a))).length = sa.length := List.length_set
    have hc1 : ∀ r, r ≠ a → cel (sa.set a (inv (cel sa a))) r = cel sa r := fun r hr => cel_set_ne _ (by omega)
    rw [unmark, bind_some' (flip_spec (by omega)), bind_some' (get_cel (by omega)), hc1 _ (by omega)]
    by_cases c1 : cel sa (a + 1) < 0
    · rw [if_pos c1]
      obtain ⟨sa', e, k0, k1, k2, k3, k4, k5, k6, k7⟩ := ih (a + 1) (sa.set a (inv (cel sa a))) (by omega) hne (by omega) (by rw [hc1 _ (by omega)]; exact c1)
        (by rw [hc1 _ (by omega)]; exact h1)
      refine ⟨sa', e, k0, by omega, by omega, k3, ?_, ?_, ?_, ?_⟩
      · intro r h2 h3
        by_cases hra : r = a
        · rw [hra]; exact h0
        · have := k4 r (by omega) h3
          rwa [hc1 r hra] at this
      · rwa [hc1 e (by omega)] at k5
      · intro r h2 h3
        by_cases hra : r = a
        · rw [k7 r (by omega), hra, cel_set_self (by omega)]
        · rw [k6 r (by omega) h3, hc1 r hra]
      · intro r h2
        rw [k7 r (by omega), hc1 r (by omega)]
    · rw [if_neg c1]
      refine ⟨_, a + 1, rfl, hlen', by omega, hne, fun r h2 h3 => by rw [show r = a by omega]; exact h0, by omega, ?_, fun r h2 => hc1 r (by omega)⟩
      intro r h2 h3
      rw [show r = a by omega, cel_set_self (by omega)]

/-! ## Dividing -/

theorem Srt.key_room (hT : Alone T) {s : Sta} {d f l : Nat} (hC : Core T isa h s) (hr : Srt T h d f l s) {r : Nat} (h1 : f ≤ r) (h2 : r < l) :
    s.q r + d < T.length := by
  have hle := hr.grp.le
  have h2' := hr.two
  obtain ⟨r', h3, h4, h5⟩ : ∃ r', f ≤ r' ∧ r' < l ∧ r' ≠ r := by
    by_cases hrf : r = f
    · exact ⟨f + 1, by omega, by omega, by omega⟩
    · exact ⟨f, by omega, by omega, by omega⟩
  have hne : s.q r ≠ s.q r' := fun he => h5 (hC.rk.inj r r' (by omega) (by omega) he).symm
  exact ((hr.agree r r' h1 h2 h3 h4).room hT (hC.rk.cell r (by omega)) (hC.rk.cell r' (by omega)) hne).1

/-- The group consists of single suffixes, a run of suffixes with equal keys, and the rest. -/
theorem sorted_div {s : Sta} {d f l c m : Nat} {sa' : List Int} {I' : Nat → Nat} (bud : Budget) (st : List Frame) (hC : Core T isa h s) (hs : Srt T h d f l s)
    (hfc : f ≤ c) (hcm : c ≤ m) (hml : m ≤ l)
    (h1 : ∀ r, f ≤ r → r < c → 0 ≤ cel s.sa r) (h2 : ∀ r, c ≤ r → r + 1 < m → cel s.sa r < 0) (h3 : c < m → 0 ≤ cel s.sa (m - 1))
    (hlen : sa'.length = s.sa.length) (hdec : ∀ r, f ≤ r → r < l → dec (cel sa' r) = s.q r) (hrest : ∀ r, m ≤ r → r < l → cel sa' r = cel s.sa r)
    (hpos : ∀ r, f ≤ r → r < m → 0 ≤ cel sa' r)
    (hout : ∀ r, r < f ∨ l ≤ r → r < isa ∨ isa + T.length ≤ r → cel sa' r = cel s.sa r) (hI : ∀ i, i < T.length → cel sa' (isa + i) = (I' i : Int))
    (hIout : ∀ r, r < T.length → r < f ∨ l ≤ r → I' (s.q r) = s.I (s.q r))
    (i1 : ∀ r, f ≤ r → r < c → I' (s.q r) = r) (i2 : ∀ r, c ≤ r → r < m → I' (s.q r) + 1 = m) (i3 : ∀ r, m ≤ r → r < l → I' (s.q r) + 1 = l) :
    ∃ s1 : Sta, s1.sa = sa' ∧ s1.bud = bud ∧ s1.st = st ∧ s1.I = I' ∧ (∀ r, f ≤ r → r < l → s1.q r = s.q r) ∧ Core T isa h s1 ∧
      Chg T isa (fun r => f ≤ r ∧ r < l) s s1 ∧ (c + 2 ≤ m → Raw T (d + h) c m s1) ∧ (m + 2 ≤ l → Srt T h d m l s1) ∧
      (∀ r r', c ≤ r → r < m → c ≤ r' → r' < m → Agree T (d + h) (s1.q r) (s1.q r')) ∧ (∀ r, f ≤ r → r < m → cel s1.sa r = (s1.q r : Int)) := by
  have hle := hs.grp.le
  have hlt := hs.grp.lt
  have hap := hC.apart
  obtain ⟨K, hM, hK1, hK2⟩ := hs.keys
  have hval : ∀ r, f ≤ r → r < l → (r < c ∧ I' (s.q r) = r) ∨ (c ≤ r ∧ r < m ∧ I' (s.q r) + 1 = m) ∨ (m ≤ r ∧ I' (s.q r) + 1 = l) := by
    intro r h4 h5
    rcases Nat.lt_or_ge r c with h6 | h6
    · exact Or.inl ⟨h6, i1 r h4 h6⟩
    · rcases Nat.lt_or_ge r m with h7 | h7
      · exact Or.inr (Or.inl ⟨h6, h7, i2 r h6 h7⟩)
      · exact Or.inr (Or.inr ⟨h7, i3 r h7 h5⟩)
  have hlt' : ∀ r x r', f ≤ r → r ≤ x → x < r' → r' < l → 0 ≤ cel s.sa x → sless T (s.q r) (s.q r') := by
    intro r x r' k1 k2 k3 k4 k5
    refine hK1 r r' k1 (by omega) (by omega) k4 ?_
    rw [← hs.cells r k1 (by omega), ← hs.cells r' (by omega) k4]
    exact hM.lt k1 k2 k3 k4 k5
  obtain ⟨g1, g2⟩ := regroup (I' := I') (sa' := sa') bud st hC hs.grp hs.cells hlen hout
    (Perm.congr (fun r k1 k2 => by rw [hdec r k1 k2, hs.cells r k1 k2])) hI hIout
    (fun r k1 k2 => by rw [hdec r k1 k2]; have := hval r k1 k2; omega)
    (fun r r' k1 k2 k3 k4 k5 => by
      rw [hdec r k1 k2] at k5 ⊢
      rw [hdec r' (by omega) k4]
      have := hval r k1 k2
      have := hval r' (by omega) k4
      omega)
    (fun r r' k1 k2 k3 k4 k5 => by
      rw [hdec r k1 k2, hdec r' k3 k4] at k5 ⊢
      have v1 := hval r k1 k2
      have v2 := hval r' k3 k4
      rcases Nat.lt_or_ge r c with h6 | h6
      · exact hlt' r r r' k1 (Nat.le_refl _) (by omega) k4 (h1 r k1 h6)
      · rcases Nat.lt_or_ge r m with h7 | h7
        · exact hlt' r (m - 1) r' k1 (by omega) (by omega) k4 (h3 (by omega))
        · omega)
  have hq : ∀ r, f ≤ r → r < l → newq f l s.q sa' r = s.q r := fun r k1 k2 => by rw [newq_in k1 k2, hdec r k1 k2]
  have hlow : ∀ r, r < f → I' (newq f l s.q sa' r) < f := by
    intro r k1
    rw [newq_out (Or.inl k1), hIout r (by omega) (Or.inl k1)]
    exact hs.grp.low r k1
  have hcel : ∀ r, f ≤ r → r < m → cel sa' r = (newq f l s.q sa' r : Int) := by
    intro r k1 k2
    rw [newq_in k1 (by omega)]
    exact nat_of (hpos r k1 k2)
  have hrun : ∀ r r', c ≤ r → r < m → c ≤ r' → r' < m → Agree T (d + h) (newq f l s.q sa' r) (newq f l s.q sa' r') := by
    intro r r' k1 k2 k3 k4
    rw [hq r (by omega) (by omega), hq r' (by omega) (by omega)]
    refine hK2 r r' (by omega) (by omega) (by omega) (by omega) ?_
    rw [← hs.cells r (by omega) (by omega), ← hs.cells r' (by omega) (by omega)]
    rw [hM.eq (r := r) (r' := m - 1) (by omega) (by omega) (by omega) (fun x x1 x2 => h2 x (by omega) (by omega)),
      hM.eq (r := r') (r' := m - 1) (by omega) (by omega) (by omega) (fun x x1 x2 => h2 x (by omega) (by omega))]
  refine ⟨⟨I', newq f l s.q sa', sa', bud, st⟩, rfl, rfl, rfl, rfl, hq, g1, g2, ?_, ?_, hrun, hcel⟩
  · intro hc
    refine ⟨hc, ⟨by omega, by omega, ?_, ?_⟩, fun r k1 k2 => hcel r (by omega) k2, hrun⟩
    · intro r k1 k2
      show I' (newq f l s.q sa' r) + 1 = m
      rw [hq r (by omega) (by omega)]; exact i2 r k1 k2
    · intro r k1
      show I' (newq f l s.q sa' r) < c
      rcases Nat.lt_or_ge r f with k2 | k2
      · have := hlow r k2; omega
      · rw [hq r k2 (by omega), i1 r k2 k1]; exact k1
  · intro hc
    refine ⟨hc, ⟨by omega, by omega, ?_, ?_⟩, fun r k1 k2 => (newq_in (by omega) k2).symm, ?_, K, ⟨?_, ?_⟩, ?_, ?_⟩
    · intro r k1 k2
      show I' (newq f l s.q sa' r) + 1 = l
      rw [hq r (by omega) (by omega)]; exact i3 r k1 k2
    · intro r k1
      show I' (newq f l s.q sa' r) < m
      rcases Nat.lt_or_ge r f with k2 | k2
      · have := hlow r k2; omega
      · rw [hq r k2 (by omega)]
        have := hval r k2 (by omega)
        omega
    · intro r r' k1 k2 k3 k4
      show Agree T d (newq f l s.q sa' r) (newq f l s.q sa' r')
      rw [hq r (by omega) (by omega), hq r' (by omega) (by omega)]
      exact hs.agree r r' (by omega) k2 (by omega) k4
    · intro r k1 k2
      show (cel sa' r < 0 ∧ _) ∨ (0 ≤ cel sa' r ∧ K (dec (cel sa' r)) < K (dec (cel sa' (r + 1))))
      rw [hrest r k1 (by omega), hrest (r + 1) (by omega) k2]
      exact hM.step r (by omega) k2
    · intro r k1 k2
      show 0 ≤ cel sa' r
      rw [hrest r k1 (by omega)]
      exact hM.fin r (by omega) k2
    · intro r r' k1 k2 k3 k4 k5
      have k5' : K (newq f l s.q sa' r) < K (newq f l s.q sa' r') := k5
      show sless T (newq f l s.q sa' r) (newq f l s.q sa' r')
      rw [hq r (by omega) (by omega), hq r' (by omega) (by omega)] at k5' ⊢
      exact hK1 r r' (by omega) k2 (by omega) k4 k5'
    · intro r r' k1 k2 k3 k4 k5
      have k5' : K (newq f l s.q sa' r) = K (newq f l s.q sa' r') := k5
      show Agree T (d + h) (newq f l s.q sa' r) (newq f l s.q sa' r')
      rw [hq r (by omega) (by omega), hq r' (by omega) (by omega)] at k5' ⊢
      exact hK2 r r' (by omega) k2 (by omega) k4 k5'

/-! ## The step -/

theorem sorted_three {μ lo room : Nat} (hrun : Runs' T cap isa h μ) {s s1 : Sta} {g : Frame} {c m : Nat} {gs : List Frame} (runIn : Prop)
    (ht : TlOk g.trlink s.st) (hcap : s.st.length + room ≤ cap) (hC1 : Core T isa h s1)
    (hc : Chg T isa (fun r => g.first ≤ r ∧ r < g.last) s s1) (hfc : g.first ≤ c) (hcm : c ≤ m) (hml : m ≤ g.last)
    (v1 : ∀ r, g.first ≤ r → r < c → s1.I (s1.q r) = r) (v2 : ∀ r, c ≤ r → r < m → s1.I (s1.q r) + 1 = m) (v3 : ∀ r, m ≤ r → r < g.last → s1.I (s1.q r) + 1 = g.last)
    (hcel : ∀ r, g.first ≤ r → r < m → cel s1.sa r = (s1.q r : Int)) (hlast : ∀ r, m ≤ r → r < g.last → m + 1 = g.last → cel s1.sa r = (s1.q r : Int))
    (hmid : ∀ r r', c ≤ r → r < m → c ≤ r' → r' < m → Agree T (2 * h) (s1.q r) (s1.q r'))
    (hS : ∀ r, (∃ g ∈ gs, g.first ≤ r ∧ r < g.last) ↔ (runIn ∧ c ≤ r ∧ r < m) ∨ (m + 1 < g.last ∧ m ≤ r ∧ r < g.last))
    (hval : Ready T isa h s1 μ lo room g.trlink gs) (hpair : gs.Pairwise Apart)
    (ho : (s1.st = s.st ∧ s1.bud.count = s.bud.count ∧ (runIn ∨ m ≤ c)) ∨ (mark s.st g.trlink = some s1.st ∧ s.bud.count < s1.bud.count))
    (e : after cap isa h { s with st := g :: s.st } = after cap isa h { s1 with st := gs ++ s1.st }) : Goal T cap isa h s g := by
  have hsl : s1.st.length = s.st.length := by
    rcases ho with ⟨h1, _⟩ | ⟨h1, _⟩
    · rw [h1]
    · obtain ⟨x, k1, k2, _⟩ := mark_some ht
      rw [k1] at h1
      rw [← Option.some.inj h1, k2]
  have ht1 : TlOk g.trlink s1.st := by unfold TlOk at ht ⊢; rw [hsl]; exact ht
  obtain ⟨s2, e2, p2⟩ := runs_list hrun gs s1 hC1 ht1 (by omega) hval hpair
  refine ⟨s2, e.trans e2, finish ht hc (S := fun r => ∃ g ∈ gs, g.first ≤ r ∧ r < g.last) ?_ ?_ p2 ?_ ?_ ?_⟩
  · intro r hr
    rw [hS] at hr
    omega
  · rcases ho with ⟨h1, h2, h3⟩ | ⟨h1, h2⟩
    · refine Or.inl ⟨h1, h2, fun r hr hs => ?_⟩
      rw [hS] at hs
      rcases Nat.lt_or_ge r c with k1 | k1
      · exact v1 r hr.1 k1
      · rcases Nat.lt_or_ge r m with k2 | k2
        · have := v2 r k1 k2
          rcases h3 with h3 | h3
          · exact absurd (Or.inl ⟨h3, k1, k2⟩) hs
          · omega
        · have := v3 r k2 hr.2; omega
    · exact Or.inr ⟨h1, h2⟩
  · intro r hr hs
    rw [hS] at hs
    rcases Nat.lt_or_ge r m with k1 | k1
    · exact hcel r hr.1 k1
    · exact hlast r k1 hr.2 (by omega)
  · intro r r' h1 h2 h3 h4 h5
    rw [hS] at h2 h4
    have key : ∀ r, g.first ≤ r → r < g.last → ¬ ((runIn ∧ c ≤ r ∧ r < m) ∨ (m + 1 < g.last ∧ m ≤ r ∧ r < g.last)) →
        s1.I (s1.q r) = r ∧ (r < c ∨ m ≤ r) ∨ (c ≤ r ∧ r < m ∧ s1.I (s1.q r) + 1 = m) := by
      intro r k1 k2 k3
      rcases Nat.lt_or_ge r c with j1 | j1
      · exact Or.inl ⟨v1 r k1 j1, Or.inl j1⟩
      · rcases Nat.lt_or_ge r m with j2 | j2
        · exact Or.inr ⟨j1, j2, v2 r j1 j2⟩
        · have := v3 r j2 k2
          exact Or.inl ⟨by omega, Or.inr j2⟩
    have a1 := key r h1.1 h1.2 h2
    have a2 := key r' h3.1 h3.2 h4
    by_cases hb : (c ≤ r ∧ r < m) ∧ c ≤ r' ∧ r' < m
    · exact hmid r r' hb.1.1 hb.1.2 hb.2.1 hb.2.2
    · have : r = r' := by omega
      rw [this]; exact Agree.refl _ _
  · intro r h1 h2 h3
    rw [hS] at h2 h3
    rcases Nat.lt_or_ge r c with k1 | k1
    · have e1 := v1 r h1.1 k1
      rcases h3 with ⟨_, h3⟩ | h3 <;> omega
    · rcases Nat.lt_or_ge r m with k2 | k2
      · have e1 := v2 r k1 k2
        rcases h3 with ⟨h3, _⟩ | h3
        · exact h2 (Or.inl ⟨h3, k1, k2⟩)
        · omega
      · have e1 := v3 r k2 h1.2
        rcases h3 with ⟨_, h3⟩ | h3 <;> omega

theorem sortedGo_spec {isad incr first a last : Nat} {next tl : Int} {bud : Budget} {st : List Frame} (hcap : st.length + 2 ≤ cap) (ht : TlOk tl st) (h1 : first + 1 < a) (h2 : a ≤ last) :
    ∃ gs bud' st', sortedGo cap isad incr first a last next tl bud st = some (bud', pop (gs ++ st')) ∧
      ((Pick gs [⟨isad + incr, first, a, next, tl⟩, ⟨isad, a, last, -3, tl⟩] ∧ st' = st ∧ bud'.count = bud.count) ∨
       (Pick gs [⟨isad, a, last, -3, tl⟩] ∧ mark st tl = some st' ∧ bud.count < bud'.count)) := by
  unfold sortedGo
  have hpush : ∀ f : Frame, push cap st f = some (f :: st) := fun f => push_spec (by omega)
  obtain ⟨ok, bud1, ec, hok⟩ := check_spec bud (size := a - first) (by omega)
  rw [ec]
  simp only [hpush]
  rcases hok with ⟨hok, hcnt⟩ | ⟨hok, hcnt⟩
  · rw [hok, if_pos rfl]
    by_cases c1 : a - first ≤ last - a
    · rw [if_pos c1]
      refine ⟨[⟨isad + incr, first, a, next, tl⟩, ⟨isad, a, last, -3, tl⟩], bud1, st, rfl, Or.inl ⟨?_, rfl, hcnt⟩⟩
      pick
    · rw [if_neg c1]
      by_cases c2 : 1 < last - a
      · rw [if_pos c2]
        refine ⟨[⟨isad, a, last, -3, tl⟩, ⟨isad + incr, first, a, next, tl⟩], bud1, st, rfl, Or.inl ⟨?_, rfl, hcnt⟩⟩
        pick
      · rw [if_neg c2]
        refine ⟨[⟨isad + incr, first, a, next, tl⟩], bud1, st, rfl, Or.inl ⟨?_, rfl, hcnt⟩⟩
        pick
  · rw [hok, if_neg (by simp)]
    obtain ⟨st1, em, -, -⟩ := mark_some ht
    rw [bind_some' em]
    by_cases c2 : 1 < last - a
    · rw [if_pos c2]
      refine ⟨[⟨isad, a, last, -3, tl⟩], bud1, st1, rfl, Or.inr ⟨?_, em, hcnt⟩⟩
      pick
    · rw [if_neg c2]
      refine ⟨[], bud1, st1, rfl, Or.inr ⟨?_, em, hcnt⟩⟩
      pick

/-- A group that has been sorted by keys is done. -/
theorem srt_goal (hT : Alone T) (hn : T.length < 2 ^ 32) {μ lo room : Nat} (hrun : Runs' T cap isa h μ) {s : Sta} {g : Frame} {d : Nat} (hh : 0 < h) (hC : Core T isa h s)
    (hs : Srt T h d g.first g.last s) (hisad : g.isad = isa + d) (hd : h ≤ d) (hmu : mu T.length d g.first g.last 0 ≤ μ + 1) (ht : TlOk g.trlink s.st)
    (hcap : s.st.length + room ≤ cap) (hb : Band T lo d g.first g.last s) (hfit : FitSrt lo g.first g.last room) (hlim : g.limit = -3) : Goal T cap isa h s g := by
  have hle := hs.grp.le
  have h2 := hs.two
  have hap := hC.apart
  have hroom := hC.room
  have hbl := hb.below
  have hr3 := hfit.two h2 hbl
  obtain ⟨K, hM, -, -⟩ := hs.keys
  have hfin := hM.fin (g.last - 1) (by omega) (by omega)
  have hqlt : ∀ r, g.first ≤ r → r < g.last → s.q r < T.length := fun r h1 h2 => hC.rk.cell r (by omega)
  have hinj : ∀ r r', g.first ≤ r → r < g.last → g.first ≤ r' → r' < g.last → s.q r = s.q r' → r = r' := fun r r' h1 h2 h3 h4 => hC.rk.inj r r' (by omega) (by omega)
  have e : step cap isa h s.sa s.bud s.st g = sortedStep cap isa h s.sa s.bud s.st g := by
    unfold step
    rw [if_pos (by omega), if_neg (by omega), if_neg (by omega)]
  unfold sortedStep at e
  rw [bind_some' (get_cel (by omega))] at e
  -- the single ones
  obtain ⟨sa1, c, I1, e1, k1, k2, k3, k4, k5, k6, k7, k8, k9⟩ : ∃ (sa1 : List Int) (c : Nat) (I1 : Nat → Nat),
      (if 0 ≤ cel s.sa g.first then singles isa g.last s.sa g.first else some (s.sa, g.first)) = some (sa1, c) ∧ sa1.length = s.sa.length ∧ g.first ≤ c ∧ c ≤ g.last ∧
      (∀ r, g.first ≤ r → r < c → 0 ≤ cel s.sa r) ∧ (c < g.last → cel s.sa c < 0) ∧ (∀ r, r < isa ∨ isa + T.length ≤ r → cel sa1 r = cel s.sa r) ∧
      (∀ i, i < T.length → cel sa1 (isa + i) = (I1 i : Int)) ∧ (∀ r, g.first ≤ r → r < c → I1 (s.q r) = r) ∧
      (∀ i, (∀ r, g.first ≤ r → r < c → s.q r ≠ i) → I1 i = s.I i) := by
    by_cases c0 : 0 ≤ cel s.sa g.first
    · rw [if_pos c0]
      obtain ⟨sa', c, I', e, k1, k2, k3⟩ := singles_spec (T := T) (isa := isa) (l := g.last) (q := s.q) (by omega) _ g.first s.sa s.I rfl (by omega) hroom hs.cells hqlt hinj hC.ranks c0
      exact ⟨sa', c, I', e, k1, by omega, k3⟩
    · rw [if_neg c0]
      exact ⟨s.sa, g.first, s.I, rfl, rfl, Nat.le_refl _, by omega, fun r h1 h2 => by omega, fun _ => by omega, fun _ _ => rfl, hC.ranks, fun r h1 h2 => by omega, fun _ _ => rfl⟩
  rw [bind_some' e1] at e
  simp only at e
  have hI1 : ∀ r, c ≤ r → r < g.last → I1 (s.q r) + 1 = g.last := by
    intro r h3 h4
    rw [k9 _ (fun r' h5 h6 h7 => by have := hinj r' r h5 (by omega) (by omega) h4 h7; omega)]
    exact hs.grp.val r (by omega) h4
  have hI1o : ∀ r, r < T.length → r < g.first ∨ g.last ≤ r → I1 (s.q r) = s.I (s.q r) := by
    intro r h3 h4
    exact k9 _ (fun r' h5 h6 h7 => by have := hC.rk.inj r' r (by omega) h3 h7; omega)
  by_cases hcl : c < g.last
  · rw [if_pos hcl] at e
    obtain ⟨sa2, a, e2, u1, u2, u3, u4, u5, u6, u7⟩ := unmark_spec (l := g.last) _ c sa1 rfl hcl (by omega) (by rw [k6 c (by omega)]; exact k5 hcl) (by rw [k6 _ (by omega)]; exact hfin)
    rw [bind_some' e2] at e
    simp only at e
    have hcel2 : ∀ r, r < c ∨ a ≤ r → r < isa ∨ isa + T.length ≤ r → cel sa2 r = cel s.sa r := fun r h3 h4 => by rw [u7 r h3, k6 r h4]
    have hdec2 : ∀ r, g.first ≤ r → r < g.last → dec (cel sa2 r) = s.q r := by
      intro r h3 h4
      by_cases h5 : c ≤ r ∧ r < a
      · rw [u6 r h5.1 h5.2, dec_inv, k6 r (by omega)]; exact hs.cells r h3 h4
      · rw [hcel2 r (by omega) (by omega)]; exact hs.cells r h3 h4
    have hpos2 : ∀ r, g.first ≤ r → r < a + 1 → 0 ≤ cel sa2 r := by
      intro r h3 h4
      by_cases h5 : c ≤ r ∧ r < a
      · rw [u6 r h5.1 h5.2, inv_nonneg_iff]; exact u4 r h5.1 h5.2
      · by_cases h6 : r = a
        · rw [h6, u7 a (by omega)]; exact u5
        · rw [hcel2 r (by omega) (by omega)]; exact k4 r h3 (by omega)
    have hI2 : ∀ i, i < T.length → cel sa2 (isa + i) = (I1 i : Int) := fun i hi => by rw [u7 _ (by omega)]; exact k7 i hi
    have hca : cel sa2 a = (s.q a : Int) := by rw [← hdec2 a (by omega) u3]; exact nat_of (hpos2 a (by omega) (by omega))
    have hqa := hqlt a (by omega) u3
    have hkr := hs.key_room hT hC (r := a) (by omega) u3
    have hkey : ∀ D, s.q a + D < T.length → keyCell sa2 (isa + D) a = some (I1 (s.q a + D) : Int) := by
      intro D hD
      unfold keyCell keyAt getI
      rw [bind_some' (get_cel (by omega)), hca, if_pos (by omega), show (((isa + D : Nat) : Int) + (s.q a : Int)).toNat = isa + (s.q a + D) by omega, get_cel (by omega), hI2 _ hD]
    have hkey0 := hkey 0 (by omega)
    rw [Nat.add_zero] at hkey0
    rw [bind_some' hkey0, hisad, bind_some' (hkey d hkr)] at e
    obtain ⟨next, en, hnext⟩ : ∃ next : Int, (if (I1 (s.q a + 0) : Int) ≠ (I1 (s.q a + d) : Int) then ilg (a + 1 - c) else some (-1)) = some next ∧
        (0 ≤ next ∨ (next = -1 ∧ ∀ r, c ≤ r → r < a + 1 → InR s lo g.last (s.q r + d))) := by
      by_cases hpk : (I1 (s.q a + 0) : Int) ≠ (I1 (s.q a + d) : Int)
      · rw [if_pos hpk]
        obtain ⟨l, el, -, hl⟩ := ilg_spec (a + 1 - c)
        exact ⟨l, el, Or.inl (hl (by omega) (by omega))⟩
      · rw [if_neg hpk]
        refine ⟨-1, rfl, Or.inr ⟨rfl, ?_⟩⟩
        rw [Nat.add_zero] at hpk
        have j1 := hI1 a (by omega) u3
        have j2 : InR s lo g.last (s.q a + d) := by
          by_cases j3 : ∀ r, g.first ≤ r → r < c → s.q r ≠ s.q a + d
          · have j4 := k9 _ j3
            unfold InR
            omega
          · obtain ⟨r, j4, j5, j6⟩ : ∃ r, g.first ≤ r ∧ r < c ∧ s.q r = s.q a + d := by
              apply Classical.byContradiction
              intro j7
              exact j3 (fun r x1 x2 x3 => j7 ⟨r, x1, x2, x3⟩)
            have j7 := k8 r j4 j5
            rw [j6] at j7
            omega
        have j3 : ∀ k r, a - r = k → c ≤ r → r < a + 1 → InR s lo g.last (s.q r + d) := by
          intro k
          induction k with
          | zero =>
            intro r x1 x2 x3
            rw [show r = a by omega]; exact j2
          | succ k ih =>
            intro r x1 x2 x3
            have x4 := u4 r x2 (by omega)
            rw [k6 r (by omega)] at x4
            exact (hb.run r (by omega) (by omega) x4 (hs.key_room hT hC (by omega) (by omega)) (hs.key_room hT hC (by omega) (by omega))).2 (ih (r + 1) (by omega) (by omega) (by omega))
        exact fun r => j3 _ r rfl
    rw [bind_some' en] at e
    obtain ⟨sa3, I3, e3, l3, o3, i3, a3, b3, c3, z3⟩ : ∃ (sa3 : List Int) (I3 : Nat → Nat), (if a + 1 < g.last then setRanks isa c (a + 1) a sa2 else some sa2) = some sa3 ∧ sa3.length = sa2.length ∧
        (∀ r, r < isa ∨ isa + T.length ≤ r → cel sa3 r = cel sa2 r) ∧ (∀ i, i < T.length → cel sa3 (isa + i) = (I3 i : Int)) ∧
        (∀ r, g.first ≤ r → r < c → I3 (s.q r) = r) ∧ (∀ r, c ≤ r → r < a + 1 → I3 (s.q r) + 1 = a + 1) ∧
        (∀ r, a + 1 ≤ r → r < g.last → I3 (s.q r) + 1 = g.last) ∧ (∀ r, r < T.length → r < g.first ∨ g.last ≤ r → I3 (s.q r) = s.I (s.q r)) := by
      by_cases hc : a + 1 < g.last
      · rw [if_pos hc]
        obtain ⟨sa3, e, k1, k2, k3⟩ := setRanks_spec (T := T) (isa := isa) (I := I1) (q := s.q) (a := c) (b := a + 1) (w := a)
          (v := (a : Int)) (sa := sa2) (fun _ => rfl) (by omega) (by omega)
          (fun r h1 h2 => by rw [← hdec2 r (by omega) (by omega)]; exact nat_of (hpos2 r (by omega) h2))
          (fun r h1 h2 => hqlt r (by omega) (by omega)) hI2
        refine ⟨sa3, _, e, k1, k2, k3, ?_, ?_, ?_, ?_⟩
        · intro r h1 h2
          rw [setI_out (fun c h3 h4 h5 => by have := hinj c r (by omega) (by omega) (by omega) (by omega) h5; omega)]
          exact k8 r h1 h2
        · intro r h1 h2
          rw [setI_in h1 h2]
        · intro r h1 h2
          rw [setI_out (fun c h3 h4 h5 => by have := hinj c r (by omega) (by omega) (by omega) (by omega) h5; omega)]
          exact hI1 r (by omega) h2
        · intro r h1 h2
          rw [setI_out (fun c h3 h4 h5 => by have := hC.rk.inj c r (by omega) h1 h5; omega)]
          exact hI1o r h1 h2
      · rw [if_neg hc]
        exact ⟨sa2, I1, rfl, rfl, fun _ _ => rfl, hI2, k8, fun r h1 h2 => by rw [hI1 r h1 (by omega)]; omega, fun r h1 h2 => by omega, hI1o⟩
    rw [bind_some' e3] at e
    obtain ⟨gs, bud1, st1, eg, hcase⟩ := sortedGo_spec (cap := cap) (isad := isa + d) (incr := h) (first := c) (a := a + 1) (last := g.last) (next := next) (tl := g.trlink) (bud := s.bud) (st := s.st)
      (by omega) ht (by omega) (by omega)
    rw [bind_some' eg] at e
    obtain ⟨s1, t1, t2, t3, t4, t5, t6, t7, t8, t9, t10, t11⟩ := sorted_div (m := a + 1) (c := c) (sa' := sa3) (I' := I3) bud1 st1 hC hs k2 (by omega) (by omega) k4
      (fun r h1 h2 => by rw [← k6 r (by omega)]; exact u4 r h1 (by omega)) (fun _ => by rw [show a + 1 - 1 = a by omega, ← k6 a (by omega)]; exact u5)
      (by omega) (fun r h1 h2 => by rw [o3 r (by omega)]; exact hdec2 r h1 h2) (fun r h1 h2 => by rw [o3 r (by omega), hcel2 r (by omega) (by omega)])
      (fun r h1 h2 => by rw [o3 r (by omega)]; exact hpos2 r h1 h2)
      (fun r h1 h2 => by rw [o3 r h2, hcel2 r (by omega) h2]) i3 z3 a3 b3 c3
    have hdn : d < T.length := by omega
    have hm2 : ∀ k, (k = 0 ∨ k = 1 ∧ 2 * (a + 1 - c) ≤ g.last - c) → k ≤ room ∧ Valid T isa h s1 μ lo (room - k) ⟨isa + d + h, c, a + 1, next, g.trlink⟩ := by
      intro k hk
      have hraw := t8 (by omega)
      have hmu2 : mu T.length (d + h) c (a + 1) 2 ≤ μ := by
        have := mu_deep (n := T.length) (d := d) (d' := d + h) (f := g.first) (l := g.last) (f' := c) (l' := a + 1) (k := 0) (k' := 2) (by omega) hdn (by omega) (by omega)
        omega
      rcases hnext with hn0 | ⟨hn1, hin⟩
      · have hf := hfit.run (c := c) (m := a + 1) hbl k2 (by omega) (by omega)
        have hz : k ≤ room ∧ Fits (a + 1 - c) (room - k) := by
          rcases hk with rfl | ⟨rfl, hk⟩
          · exact ⟨by omega, hf.1⟩
          · exact hf.2 (by omega)
        exact ⟨hz.1, .raw (d + h) (by show isa + d + h = _; omega) (by omega) hn0 hraw (by show mu T.length (d + h) c (a + 1) 1 ≤ μ; unfold mu at hmu2 ⊢; omega) hz.2⟩
      · obtain ⟨w1, w2, w3⟩ := rep_bound (D := d) (f := lo) (l := g.last) t6.rk hraw.grp (by omega) (by omega) hle (by
          intro r x1 x2 x3
          have x4 := hin r x1 x2
          rw [t5 r (by omega) (by omega)] at x3 ⊢
          obtain ⟨w, w1, w2⟩ := hC.rk.onto _ x3
          have w3 := (hC.rk.up w w1).1
          have w4 : lo ≤ w := by
            rcases Nat.lt_or_ge w lo with w5 | w5
            · have := hb.edge w w5
              unfold InR at x4
              rw [w2] at this; omega
            · exact w5
          rw [w2] at w3
          unfold InR at x4
          refine ⟨w, w4, by omega, ?_⟩
          rw [← w2]
          by_cases w5 : g.first ≤ w ∧ w < g.last
          · exact t5 w w5.1 w5.2
          · exact t7.qout w w5)
        have hf := hfit.rep (c := c) (m := a + 1) hbl k2 (by omega) (by omega) w1 w2
        have hz : k ≤ room ∧ FitRep (a + 1 - c) (repLo T s1 d c (a + 1)) (repHi T s1 d (a + 1)) (room - k) := by
          rcases hk with rfl | ⟨rfl, hk⟩
          · exact ⟨by omega, hf.1⟩
          · exact hf.2 (by omega)
        exact ⟨hz.1, .rep (d + h) (by show isa + d + h = _; omega) (by omega) hn1 hraw hmu2 (by rw [show d + h - h = d by omega]; exact hz.2)⟩
    have hrestv : a + 1 + 1 < g.last → ∀ k, (k = 0 ∨ k = 1 ∧ 2 * (g.last - (a + 1)) ≤ g.last - c) → k ≤ room ∧ Valid T isa h s1 μ lo (room - k) ⟨isa + d, a + 1, g.last, -3, g.trlink⟩ := by
      intro hx k hk
      have hf := hfit.rest (c := c) (m := a + 1) hbl k2 (by omega) (by omega)
      have hz : k ≤ room ∧ FitSrt lo (a + 1) g.last (room - k) := by
        rcases hk with rfl | ⟨rfl, hk⟩
        · exact ⟨by omega, hf.1⟩
        · exact hf.2 (by omega)
      have hsrt := t9 (by omega)
      have hedge : ∀ r, r < lo → s1.I (s1.q r) < lo := by
        intro r hr
        rw [t7.qout r (by omega), t7.iout r (by omega) (by omega)]
        exact hb.edge r hr
      have hinr : ∀ x, x < T.length → (InR s lo g.last x ↔ InR s1 lo g.last x) := fun x hx =>
        InR.chg hC.rk t6.rk t7 hx hle hb.edge hs.grp.top hedge hsrt.grp.top (Or.inl (fun r hr => by omega))
      refine ⟨hz.1, .srt d rfl hd rfl hsrt ?_ ⟨by show lo ≤ a + 1; omega, hedge, ?_⟩ hz.2⟩
      · have := mu_part (n := T.length) (d := d) (f := g.first) (l := g.last) (f' := a + 1) (l' := g.last) (k := 0) (k' := 0) (by omega) (by omega)
        show mu T.length d (a + 1) g.last 0 ≤ μ
        omega
      · intro r x1 x2 x3 x4 x5
        simp only at x1 x2
        rw [t1, o3 r (by omega), hcel2 r (by omega) (by omega)] at x3
        rw [t5 r (by omega) (by omega)] at x4 ⊢
        rw [t5 (r + 1) (by omega) (by omega)] at x5 ⊢
        show InR s1 lo g.last _ ↔ InR s1 lo g.last _
        rw [← hinr _ x4, ← hinr _ x5]
        exact hb.run r (by omega) x2 x3 x4 x5
    have eA := after_step (stk := gs ++ st1) s1.I s1.q e rfl
    have eB : after cap isa h { s with st := g :: s.st } = after cap isa h { s1 with st := gs ++ s1.st } := by
      rw [eA]; exact after_congr t1.symm t2.symm (by show gs ++ st1 = gs ++ s1.st; rw [t3])
    have hq : ∀ r, g.first ≤ r → r < g.last → s1.I (s1.q r) = I3 (s.q r) := fun r h1 h2 => by rw [t4, t5 r h1 h2]
    have hlast : ∀ r, a + 1 ≤ r → r < g.last → a + 1 + 1 = g.last → cel s1.sa r = (s1.q r : Int) := by
      intro r h1 h2 h3
      rw [t5 r (by omega) h2, ← hs.cells r (by omega) h2, t1, o3 r (by omega), hcel2 r (by omega) (by omega)]
      refine nat_of ?_
      rw [show r = g.last - 1 by omega]; exact hfin
    rcases hcase with ⟨hp, hst, hcnt⟩ | ⟨hp, hmk, hcnt⟩
    · have hpl := hp.len
      refine sorted_three (lo := lo) (s1 := s1) (gs := gs) (c := c) (m := a + 1) hrun True ht hcap t6 t7 k2 (by omega) (by omega) (fun r h1 h2 => by rw [hq r h1 (by omega)]; exact a3 r h1 h2)
        (fun r h1 h2 => by rw [hq r (by omega) (by omega)]; exact b3 r h1 h2) (fun r h1 h2 => by rw [hq r (by omega) (by omega)]; exact c3 r h1 h2) t11 hlast
        (fun r r' x1 x2 x3 x4 => (t10 r r' x1 x2 x3 x4).mono (by omega)) ?_ ?_ hp.pair
        (Or.inl ⟨by rw [t3, hst], by rw [t2, hcnt], Or.inl trivial⟩) eB
      · intro r
        constructor
        · intro ⟨x, x1, x2, x3⟩
          obtain ⟨y1, y2⟩ := hp.sub x x1
          simp only [List.mem_cons, List.not_mem_nil, or_false] at y1
          rcases y1 with y1 | y1
          · subst y1; exact Or.inl ⟨trivial, x2, x3⟩
          · subst y1; exact Or.inr ⟨y2, x2, x3⟩
        · intro hx
          rcases hx with ⟨_, x2, x3⟩ | ⟨x1, x2, x3⟩
          · exact ⟨_, hp.sup ⟨isa + d + h, c, a + 1, next, g.trlink⟩ (by simp) (by show c + 1 < a + 1; omega), x2, x3⟩
          · exact ⟨_, hp.sup ⟨isa + d, a + 1, g.last, -3, g.trlink⟩ (by simp) x1, x2, x3⟩
      · refine ready_of (total := g.last - c) (N := 2) gs (by simp only [List.length_cons, List.length_nil] at hpl; omega) hp.asc (Nat.le_trans hp.tot (by simp; omega)) ?_
        intro x x1 k z1 z2
        obtain ⟨y1, y2⟩ := hp.sub x x1
        simp only [List.mem_cons, List.not_mem_nil, or_false] at y1
        have hk : k = 0 ∨ k = 1 := by omega
        rcases y1 with y1 | y1
        · subst y1
          simp only at z2
          exact ⟨hm2 k (by rcases hk with rfl | rfl <;> omega), by show lo ≤ c; omega, rfl⟩
        · subst y1
          simp only at z2
          exact ⟨hrestv y2 k (by rcases hk with rfl | rfl <;> omega), by show lo ≤ a + 1; omega, rfl⟩
    · have hpl := hp.len
      refine sorted_three (lo := lo) (s1 := s1) (gs := gs) (c := c) (m := a + 1) hrun False ht hcap t6 t7 k2 (by omega) (by omega) (fun r h1 h2 => by rw [hq r h1 (by omega)]; exact a3 r h1 h2)
        (fun r h1 h2 => by rw [hq r (by omega) (by omega)]; exact b3 r h1 h2) (fun r h1 h2 => by rw [hq r (by omega) (by omega)]; exact c3 r h1 h2) t11 hlast
        (fun r r' x1 x2 x3 x4 => (t10 r r' x1 x2 x3 x4).mono (by omega)) ?_ ?_ hp.pair
        (Or.inr ⟨by rw [t3]; exact hmk, by rw [t2]; exact hcnt⟩) eB
      · intro r
        constructor
        · intro ⟨x, x1, x2, x3⟩
          obtain ⟨y1, y2⟩ := hp.sub x x1
          simp only [List.mem_cons, List.not_mem_nil, or_false] at y1
          subst y1; exact Or.inr ⟨y2, x2, x3⟩
        · intro hx
          rcases hx with ⟨x1, _⟩ | ⟨x1, x2, x3⟩
          · exact x1.elim
          · exact ⟨_, hp.sup ⟨isa + d, a + 1, g.last, -3, g.trlink⟩ (by simp) x1, x2, x3⟩
      · refine ready_of (total := g.last - c) (N := 1) gs (by simp only [List.length_cons, List.length_nil] at hpl; omega) hp.asc (Nat.le_trans hp.tot (by simp; omega)) ?_
        intro x x1 k z1 z2
        obtain ⟨y1, y2⟩ := hp.sub x x1
        simp only [List.mem_cons, List.not_mem_nil, or_false] at y1
        subst y1
        exact ⟨hrestv y2 k (Or.inl (by omega)), by show lo ≤ a + 1; omega, rfl⟩
  · rw [if_neg hcl] at e
    have hcl' : c = g.last := by omega
    obtain ⟨s1, t1, t2, t3, t4, t5, t6, t7, t8, t9, t10, t11⟩ := sorted_div (m := g.last) (c := c) (sa' := sa1) (I' := I1) s.bud s.st hC hs k2 (by omega) (by omega) k4
      (fun r h1 h2 => by omega) (fun _ => by omega)
      (by omega) (fun r h1 h2 => by rw [k6 r (by omega)]; exact hs.cells r h1 h2) (fun r h1 h2 => by omega)
      (fun r h1 h2 => by rw [k6 r (by omega)]; exact k4 r h1 (by omega))
      (fun r h1 h2 => k6 r h2) k7 hI1o k8 (fun r h1 h2 => by omega) (fun r h1 h2 => by omega)
    have hv : ∀ r, g.first ≤ r → r < g.last → s1.I (s1.q r) = r := fun r h1 h2 => by rw [t4, t5 r h1 h2]; exact k8 r h1 (by omega)
    refine ⟨s1, ?_, t6, t7, fun r hr => t11 r hr.1 hr.2, ?_, Or.inl ⟨t3, by rw [t2], fun r hr => hv r hr.1 hr.2⟩⟩
    · rw [after_step (stk := s.st) s1.I s1.q e rfl]
      exact after_congr t1.symm t2.symm t3.symm
    · intro r r' h1 h2 h3
      rw [hv r h1.1 h1.2, hv r' h2.1 h2.2] at h3
      rw [h3]; exact Agree.refl _ _

end Bwtc.Tr
