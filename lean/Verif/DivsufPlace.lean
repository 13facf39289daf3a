import Verif.DivsufCount

/-!
# `sort_typeBstar`: the B* suffixes in their buckets (lines 96-102)
-/

set_option autoImplicit false

namespace Bwtc.Divsuf
open Induce Suffix Classical
open Sais (inv put bind_some' put_spec loopDown_spec get_set1)

variable {T : List Nat}

/-! ## The list of the B* suffixes -/

theorem idx_succ {p : Nat} (hp : p < T.length) : idx T (p + 1) = idx T p + if isBs T p then 1 else 0 := by
  by_cases h : isBs T p
  · rw [if_pos h]
    apply cnt_insert (P := fun q => q < p ∧ isBs T q) (a := p) hp (by omega)
    intro q _
    constructor
    · rintro ⟨a, b⟩
      by_cases e : q = p
      · exact Or.inr e
      · exact Or.inl ⟨by omega, b⟩
    · rintro (⟨a, b⟩ | rfl)
      · exact ⟨by omega, b⟩
      · exact ⟨by omega, h⟩
  · rw [if_neg h, Nat.add_zero]
    apply cnt_congr
    intro q _
    constructor
    · rintro ⟨a, b⟩
      refine ⟨?_, b⟩
      by_cases e : q = p
      · subst e; exact absurd b h
      · omega
    · rintro ⟨a, b⟩; exact ⟨by omega, b⟩

theorem idx_zero : idx T 0 = 0 := cnt_false (fun q _ a => by omega)

theorem idx_all : idx T T.length = numS T := cnt_congr (fun q hq => ⟨fun a => a.2, fun a => ⟨hq, a⟩⟩)

theorem idx_surj {i : Nat} (h : i < numS T) : ∃ p, isBs T p ∧ idx T p = i := by
  suffices H : ∀ p, p ≤ T.length → i < idx T p → ∃ q, isBs T q ∧ idx T q = i from H T.length (Nat.le_refl _) (by rw [idx_all]; exact h)
  intro p
  induction p with
  | zero => intro _ a; rw [idx_zero] at a; omega
  | succ p ih =>
    intro hp a
    by_cases e : i < idx T p
    · exact ih (by omega) e
    · rw [idx_succ (by omega)] at a
      by_cases hb : isBs T p
      · rw [if_pos hb] at a
        exact ⟨p, hb, by omega⟩
      · rw [if_neg hb] at a; omega

/-- The `i`-th type B* suffix in the text. -/
noncomputable def PA (T : List Nat) (i : Nat) : Nat := if h : ∃ p, isBs T p ∧ idx T p = i then h.choose else 0

theorem PA_spec {i : Nat} (h : i < numS T) : isBs T (PA T i) ∧ idx T (PA T i) = i := by
  unfold PA
  rw [dif_pos (idx_surj h)]
  exact (idx_surj h).choose_spec

theorem PA_idx {p : Nat} (hp : isBs T p) : PA T (idx T p) = p :=
  idx_inj (PA_spec (idx_lt hp)).1 hp (PA_spec (idx_lt hp)).2

theorem PA_lt {i j : Nat} (hj : j < numS T) (h : i < j) : PA T i < PA T j := by
  have hi := PA_spec (show i < numS T by omega)
  have hj' := PA_spec hj
  rcases Nat.lt_trichotomy (PA T i) (PA T j) with a | a | a
  · exact a
  · rw [a] at hi; omega
  · have := idx_mono hj'.1 a; omega

/-- No B* suffix lies between two successive ones. -/
theorem PA_gap {i q : Nat} (hi : i < numS T) (hq : isBs T q) (h1 : PA T i < q) : i + 1 < numS T ∧ PA T (i + 1) ≤ q := by
  have hi' := PA_spec hi
  have h2 := idx_mono hi'.1 h1
  have h3 := idx_lt hq
  refine ⟨by omega, ?_⟩
  have := PA_spec (show i + 1 < numS T by omega)
  by_cases e : PA T (i + 1) ≤ q
  · exact e
  · have := idx_mono hq (show q < PA T (i + 1) by omega)
    omega

theorem two_numS : 2 * numS T ≤ T.length := by
  suffices H : ∀ p, p ≤ T.length → 2 * idx T p ≤ p + 1 ∧ (¬ (∃ q, p = q + 1 ∧ isBs T q) → 2 * idx T p ≤ p) by
    rw [← idx_all]
    apply (H T.length (Nat.le_refl _)).2
    rintro ⟨q, e, hq⟩
    have := isS_next hq.1
    omega
  intro p
  induction p with
  | zero => intro _; rw [idx_zero]; omega
  | succ p ih =>
    intro hp
    obtain ⟨a, b⟩ := ih (by omega)
    rw [idx_succ (by omega)]
    by_cases hb : isBs T p
    · rw [if_pos hb]
      have := b (by
        rintro ⟨q, e, hq⟩
        subst e
        exact not_isL_isS hq.2 hb.1)
      exact ⟨by omega, fun h => absurd ⟨p, rfl, hb⟩ h⟩
    · rw [if_neg hb]
      exact ⟨by omega, fun _ => by omega⟩

/-! ## The buckets -/

theorem jS_le (c0 c1 : Nat) : jS T c0 c1 ≤ numS T := cnt_le (fun _ _ a => a.1)

theorem jS_next {x y x' y' : Nat} (h : x < x' ∨ (x = x' ∧ y < y')) : jS T x (y + 1) ≤ jS T x' y' := by
  apply cnt_le
  rintro q _ ⟨a, b⟩
  exact ⟨a, by omega⟩

/-- The order in which the loop of lines 97-100 and lines 101-102 meet the suffixes, from the last to the first. -/
def turn (m i : Nat) : Nat := if i + 1 = m then 0 else i + 1

/-- Where `p` is written. -/
noncomputable def pos (T : List Nat) (p : Nat) : Nat :=
  jS T (ch T p) (ch T (p + 1) + 1) - 1 -
    cnt T.length (fun q => (isBs T q ∧ ch T q = ch T p ∧ ch T (q + 1) = ch T (p + 1)) ∧ turn (numS T) (idx T p) < turn (numS T) (idx T q))

structure Placed (T : List Nat) (k : Nat) (bk0 : Buckets) (t : Nat) (s : List Int × Buckets) : Prop where
  size : s.1.length = T.length
  src : ∀ p, isBs T p → s.1[T.length - numS T + idx T p]? = some (p : Int)
  A : ∀ c, s.2.A c = bk0.A c
  B : ∀ x y, x ≤ y → s.2.b x y = bk0.b x y
  S : ∀ x y, x < y → y < k → s.2.star x y + cnt T.length (fun q => (isBs T q ∧ ch T q = x ∧ ch T (q + 1) = y) ∧ t ≤ turn (numS T) (idx T q)) =
    jS T x (y + 1)
  cell : ∀ p, isBs T p → t ≤ turn (numS T) (idx T p) → s.1[pos T p]? = some (idx T p : Int)

theorem turn_inj {m i j : Nat} (h : turn m i = turn m j) : i = j := by
  unfold turn at h
  split at h <;> split at h <;> omega

theorem pos_lo {p : Nat} (hp : isBs T p) : jS T (ch T p) (ch T (p + 1)) ≤ pos T p ∧ pos T p < jS T (ch T p) (ch T (p + 1) + 1) := by
  have h1 := jS_succ (T := T) (ch T p) (ch T (p + 1))
  have h2 : cnt T.length (fun q => (isBs T q ∧ ch T q = ch T p ∧ ch T (q + 1) = ch T (p + 1)) ∧
      turn (numS T) (idx T p) < turn (numS T) (idx T q)) < cnt T.length (fun q => isBs T q ∧ ch T q = ch T p ∧ ch T (q + 1) = ch T (p + 1)) :=
    cnt_lt hp.1.1 (by omega) ⟨hp, rfl, rfl⟩ (fun q _ a => a.1)
  unfold pos
  omega

theorem pos_inj {p q : Nat} (hp : isBs T p) (hq : isBs T q) (h : pos T p = pos T q) : p = q := by
  have h1 := pos_lo hp
  have h2 := pos_lo hq
  have hx : ch T p = ch T q ∧ ch T (p + 1) = ch T (q + 1) := by
    by_cases e : ch T p < ch T q ∨ (ch T p = ch T q ∧ ch T (p + 1) < ch T (q + 1))
    · have := jS_next (T := T) e; omega
    · by_cases e2 : ch T q < ch T p ∨ (ch T q = ch T p ∧ ch T (q + 1) < ch T (p + 1))
      · have := jS_next (T := T) e2; omega
      · omega
  have key : ∀ a b, isBs T a → isBs T b → ch T a = ch T b → ch T (a + 1) = ch T (b + 1) →
      turn (numS T) (idx T a) < turn (numS T) (idx T b) →
      cnt T.length (fun r => (isBs T r ∧ ch T r = ch T b ∧ ch T (r + 1) = ch T (b + 1)) ∧
        turn (numS T) (idx T b) < turn (numS T) (idx T r)) <
      cnt T.length (fun r => (isBs T r ∧ ch T r = ch T a ∧ ch T (r + 1) = ch T (a + 1)) ∧
        turn (numS T) (idx T a) < turn (numS T) (idx T r)) := by
    intro a b ha hb e1 e2 hlt
    apply cnt_lt (a := b) (P := fun r => (isBs T r ∧ ch T r = ch T b ∧ ch T (r + 1) = ch T (b + 1)) ∧
      turn (numS T) (idx T b) < turn (numS T) (idx T r)) hb.1.1 (by omega) ⟨⟨hb, e1.symm, e2.symm⟩, hlt⟩
    rintro r _ ⟨⟨a1, a2, a3⟩, a4⟩
    exact ⟨⟨a1, by omega, by omega⟩, by omega⟩
  have hlim : ∀ a, isBs T a → cnt T.length (fun r => (isBs T r ∧ ch T r = ch T a ∧ ch T (r + 1) = ch T (a + 1)) ∧
      turn (numS T) (idx T a) < turn (numS T) (idx T r)) < jS T (ch T a) (ch T (a + 1) + 1) := by
    intro a ha
    have h1 := jS_succ (T := T) (ch T a) (ch T (a + 1))
    have h2 : cnt T.length (fun q => (isBs T q ∧ ch T q = ch T a ∧ ch T (q + 1) = ch T (a + 1)) ∧
        turn (numS T) (idx T a) < turn (numS T) (idx T q)) < cnt T.length (fun q => isBs T q ∧ ch T q = ch T a ∧ ch T (q + 1) = ch T (a + 1)) :=
      cnt_lt ha.1.1 (by omega) ⟨ha, rfl, rfl⟩ (fun q _ a => a.1)
    omega
  have l1 := hlim p hp
  have l2 := hlim q hq
  have ejs : jS T (ch T p) (ch T (p + 1) + 1) = jS T (ch T q) (ch T (q + 1) + 1) := by rw [hx.1, hx.2]
  unfold pos at h
  rcases Nat.lt_trichotomy (turn (numS T) (idx T p)) (turn (numS T) (idx T q)) with a | a | a
  · have := key p q hp hq hx.1 hx.2 a
    omega
  · exact idx_inj hp hq (turn_inj a)
  · have := key q p hq hp hx.1.symm hx.2.symm a
    omega

theorem placeStar_spec {k : Nat} (hk : ∀ p, p < T.length → ch T p < k) {bk0 : Buckets} {t : Nat} {s : List Int × Buckets}
    (h : Placed T k bk0 (t + 1) s) {p : Nat} (hp : isBs T p) (ht : turn (numS T) (idx T p) = t) :
    ∃ s', placeStar T (numS T) s (idx T p) = some s' ∧ Placed T k bk0 t s' := by
  have hpn := isS_next hp.1
  have hlt := Bs_ch hp
  have hS := h.S (ch T p) (ch T (p + 1)) hlt (hk _ hpn)
  have hcnt : cnt T.length (fun q => (isBs T q ∧ ch T q = ch T p ∧ ch T (q + 1) = ch T (p + 1)) ∧ t + 1 ≤ turn (numS T) (idx T q)) =
      cnt T.length (fun q => (isBs T q ∧ ch T q = ch T p ∧ ch T (q + 1) = ch T (p + 1)) ∧ turn (numS T) (idx T p) < turn (numS T) (idx T q)) :=
    cnt_congr (fun q _ => by rw [ht]; exact Iff.rfl)
  have h1 := pos_lo hp
  have hr : s.2.star (ch T p) (ch T (p + 1)) - 1 = (pos T p : Int) := by
    rw [hcnt] at hS
    have : cnt T.length (fun q => (isBs T q ∧ ch T q = ch T p ∧ ch T (q + 1) = ch T (p + 1)) ∧
      turn (numS T) (idx T p) < turn (numS T) (idx T q)) < cnt T.length (fun q => isBs T q ∧ ch T q = ch T p ∧ ch T (q + 1) = ch T (p + 1)) :=
      cnt_lt hp.1.1 (by omega) ⟨hp, rfl, rfl⟩ (fun q _ a => a.1)
    have h2 := jS_succ (T := T) (ch T p) (ch T (p + 1))
    unfold pos
    omega
  have h2 := jS_le (T := T) (ch T p) (ch T (p + 1) + 1)
  have h3 := two_numS (T := T)
  have hset := get_set1 (A := s.1) (i := pos T p) (v := (idx T p : Int)) (by rw [h.size]; omega)
  refine ⟨(s.1.set (pos T p) (idx T p : Int), s.2.setStar (ch T p) (ch T (p + 1)) (pos T p : Int)), ?_, ?_, ?_, ?_, ?_, ?_, ?_⟩
  · unfold placeStar
    rw [getI_nat, bind_some' (h.src p hp), if_neg (by omega)]
    simp only [Int.toNat_natCast]
    rw [bind_some' (get_ch hp.1.1), bind_some' (get_ch hpn), hr, putI_nat, bind_some' (put_spec (by rw [h.size]; omega) _)]
    rfl
  · simp only [List.length_set]; exact h.size
  · intro q hq
    rw [hset.2 _ (by omega)]
    exact h.src q hq
  · exact h.A
  · intro x y hxy
    refine Eq.trans ?_ (h.B x y hxy)
    unfold Buckets.setStar Buckets.set Buckets.b
    simp only
    rw [if_neg (by omega)]
  · intro x y hxy hy
    have hh := h.S x y hxy hy
    unfold Buckets.setStar Buckets.set Buckets.star
    simp only
    by_cases e : x = ch T p ∧ y = ch T (p + 1)
    · rw [if_pos e, e.1, e.2]
      rw [e.1, e.2] at hh
      have hins := cnt_insert (n := T.length) (a := p)
        (P := fun q => (isBs T q ∧ ch T q = ch T p ∧ ch T (q + 1) = ch T (p + 1)) ∧ t + 1 ≤ turn (numS T) (idx T q))
        (Q := fun q => (isBs T q ∧ ch T q = ch T p ∧ ch T (q + 1) = ch T (p + 1)) ∧ t ≤ turn (numS T) (idx T q)) hp.1.1
        (by omega) (by
          intro q _
          constructor
          · rintro ⟨a, b⟩
            by_cases e : t + 1 ≤ turn (numS T) (idx T q)
            · exact Or.inl ⟨a, e⟩
            · exact Or.inr (idx_inj a.1 hp (turn_inj (m := numS T) (by omega)))
          · rintro (⟨a, b⟩ | rfl)
            · exact ⟨a, by omega⟩
            · exact ⟨⟨hp, rfl, rfl⟩, by omega⟩)
      rw [hins]
      omega
    · rw [if_neg e]
      have : cnt T.length (fun q => (isBs T q ∧ ch T q = x ∧ ch T (q + 1) = y) ∧ t ≤ turn (numS T) (idx T q)) =
          cnt T.length (fun q => (isBs T q ∧ ch T q = x ∧ ch T (q + 1) = y) ∧ t + 1 ≤ turn (numS T) (idx T q)) := by
        apply cnt_congr
        intro q _
        constructor
        · rintro ⟨a, b⟩
          refine ⟨a, ?_⟩
          by_cases e2 : t + 1 ≤ turn (numS T) (idx T q)
          · exact e2
          · have := idx_inj a.1 hp (turn_inj (m := numS T) (by omega))
            subst this
            exact absurd ⟨a.2.1.symm, a.2.2.symm⟩ e
        · rintro ⟨a, b⟩; exact ⟨a, by omega⟩
      rw [this]
      exact hh
  · intro q hq hqt
    by_cases e : q = p
    · subst e; exact hset.1
    · rw [hset.2 _ (fun a => e (pos_inj hq hp a))]
      apply h.cell q hq
      by_cases e2 : t + 1 ≤ turn (numS T) (idx T q)
      · exact e2
      · exact absurd (idx_inj hq hp (turn_inj (m := numS T) (by omega))) e

theorem placeStars_spec {k : Nat} (hk : ∀ p, p < T.length → ch T p < k) (hm : 0 < numS T) {sa : List Int} {bk : Buckets}
    (hsz : sa.length = T.length) (hsrc : ∀ p, isBs T p → sa[T.length - numS T + idx T p]? = some (p : Int))
    (hS : ∀ x y, x < y → y < k → bk.star x y = jS T x (y + 1)) :
    ∃ sa' bk', placeStars T (numS T) sa bk = some (sa', bk') ∧ sa'.length = T.length ∧
      (∀ p, isBs T p → sa'[T.length - numS T + idx T p]? = some (p : Int)) ∧ (∀ c, bk'.A c = bk.A c) ∧
      (∀ x y, x ≤ y → bk'.b x y = bk.b x y) ∧ (∀ x y, x < y → y < k → bk'.star x y = jS T x y) ∧
      ∀ p, isBs T p → sa'[pos T p]? = some (idx T p : Int) := by
  have h0 : Placed T k bk (numS T) (sa, bk) := by
    have hlt : ∀ i, i < numS T → turn (numS T) i < numS T := by
      intro i hi
      unfold turn
      split <;> omega
    refine ⟨hsz, hsrc, fun _ => rfl, fun _ _ _ => rfl, ?_, ?_⟩
    · intro x y hxy hy
      rw [cnt_false (fun q _ a => by have := hlt _ (idx_lt a.1.1); omega)]
      rw [hS x y hxy hy]; rfl
    · intro p hp a
      have := hlt _ (idx_lt hp); omega
  obtain ⟨s1, g1, g2⟩ := loopDown_spec (f := placeStar T (numS T)) (numS T - 1) (fun t => Placed T k bk (numS T - t)) (numS T - 1)
    (Nat.le_refl _) (sa, bk) (fun t s ht hs => by
      have hp := PA_spec (T := T) (i := numS T - 1 - 1 - t) (by omega)
      have hs' : Placed T k bk (numS T - (t + 1) + 1) s := by
        rw [show numS T - (t + 1) + 1 = numS T - t by omega]; exact hs
      have := placeStar_spec hk hs' hp.1 (by
        rw [hp.2]
        unfold turn
        rw [if_neg (by omega)]; omega)
      rwa [hp.2] at this)
    (by rw [Nat.sub_self, Nat.sub_zero]; exact h0)
  rw [show numS T - (numS T - 1) = 0 + 1 by omega] at g2
  have hp := PA_spec (T := T) (i := numS T - 1) (by omega)
  obtain ⟨s2, g3, g4⟩ := placeStar_spec hk g2 hp.1 (by
    rw [hp.2]
    unfold turn
    rw [if_pos (by omega)])
  rw [hp.2] at g3
  refine ⟨s2.1, s2.2, ?_, g4.size, g4.src, g4.A, g4.B, ?_, fun p hp => g4.cell p hp (by omega)⟩
  · unfold placeStars
    rw [bind_some' g1, g3]
  · intro x y hxy hy
    have := g4.S x y hxy hy
    have h2 := jS_succ (T := T) x y
    have h3 : cnt T.length (fun q => (isBs T q ∧ ch T q = x ∧ ch T (q + 1) = y) ∧ 0 ≤ turn (numS T) (idx T q)) =
        cnt T.length (fun q => isBs T q ∧ ch T q = x ∧ ch T (q + 1) = y) := cnt_congr (fun q _ => by simp)
    omega

/-- The last suffix is the first one of its bucket. -/
theorem pos_last {p : Nat} (hp : isBs T p) (h : idx T p + 1 = numS T) : pos T p = jS T (ch T p) (ch T (p + 1)) := by
  have h1 := pos_lo hp
  have h2 := jS_succ (T := T) (ch T p) (ch T (p + 1))
  have h3 := cnt_insert (n := T.length) (a := p)
    (P := fun q => (isBs T q ∧ ch T q = ch T p ∧ ch T (q + 1) = ch T (p + 1)) ∧ turn (numS T) (idx T p) < turn (numS T) (idx T q))
    (Q := fun q => isBs T q ∧ ch T q = ch T p ∧ ch T (q + 1) = ch T (p + 1)) hp.1.1 (by omega) (by
      intro q _
      constructor
      · intro a
        by_cases e : q = p
        · exact Or.inr e
        · left
          refine ⟨a, ?_⟩
          have : idx T q ≠ idx T p := fun h => e (idx_inj a.1 hp h)
          unfold turn
          rw [if_pos h, if_neg (by omega)]
          omega
      · rintro (a | rfl)
        · exact a.1
        · exact ⟨hp, rfl, rfl⟩)
  unfold pos at h1 ⊢
  omega

theorem inj_surj {m : Nat} (f : Nat → Nat) (hf : ∀ i, i < m → f i < m) (hinj : ∀ i j, i < m → j < m → f i = f j → i = j)
    {r : Nat} (h : r < m) : ∃ i, i < m ∧ f i = r := by
  have hnd : ((List.range m).map f).Nodup := by
    rw [List.Nodup, List.pairwise_map]
    apply List.Pairwise.imp_of_mem _ List.nodup_range
    intro a b ha hb hne e
    exact hne (hinj a b (List.mem_range.mp ha) (List.mem_range.mp hb) e)
  have hsub : ((List.range m).map f) ⊆ List.range m := by
    intro x hx
    obtain ⟨p, hp, rfl⟩ := List.mem_map.mp hx
    exact List.mem_range.mpr (hf p (List.mem_range.mp hp))
  have hperm := (hnd.subperm hsub).perm_of_length_le (by simp)
  have := hperm.mem_iff (a := r)
  rw [List.mem_range] at this
  obtain ⟨p, hp, e⟩ := List.mem_map.mp (this.mpr h)
  exact ⟨p, List.mem_range.mp hp, e⟩

/-- Every one of the first cells belongs to a suffix. -/
theorem pos_surj {r : Nat} (hr : r < numS T) : ∃ p, isBs T p ∧ pos T p = r := by
  obtain ⟨i, hi, e⟩ := inj_surj (m := numS T) (fun i => pos T (PA T i)) (fun i hi => by
      have := pos_lo (PA_spec hi).1
      have := jS_le (T := T) (ch T (PA T i)) (ch T (PA T i + 1) + 1)
      omega)
    (fun i j hi hj e => by
      have := pos_inj (PA_spec hi).1 (PA_spec hj).1 e
      have h1 := (PA_spec hi).2
      have h2 := (PA_spec hj).2
      rw [this] at h1
      omega) hr
  exact ⟨_, (PA_spec hi).1, e⟩

end Bwtc.Divsuf
