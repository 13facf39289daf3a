import Verif.SaisInduce

/-!
# `stage3sort`: moving the sorted LMS positions to the ends of their buckets
-/

set_option autoImplicit false

namespace Bwtc.Induce
open Classical

/-- Ranks: in a strict total order on the positions with `P`, each number below their count is the rank of one of them. -/
theorem rank_surj {n : Nat} {P : Nat → Prop} {lt : Nat → Nat → Prop} (irrefl : ∀ p, ¬ lt p p)
    (trans : ∀ p q r, lt p q → lt q r → lt p r) (total : ∀ p q, p < n → q < n → P p → P q → lt p q ∨ p = q ∨ lt q p)
    {r : Nat} (hr : r < cnt n P) : ∃ p, p < n ∧ P p ∧ cnt n (fun q => P q ∧ lt q p) = r := by
  have hmono : ∀ p q, p < n → P p → lt p q → cnt n (fun x => P x ∧ lt x p) < cnt n (fun x => P x ∧ lt x q) := by
    intro p q hp hP hl
    exact cnt_lt hp (fun a => irrefl p a.2) ⟨hP, hl⟩ (fun x _ a => ⟨a.1, trans _ _ _ a.2 hl⟩)
  let L := (List.range n).filter (fun q => decide (P q))
  have hL : ∀ p, p ∈ L ↔ p < n ∧ P p := by
    intro p; simp [L]
  have hlen : L.length = cnt n P := by
    unfold cnt; rw [List.countP_eq_length_filter]
  have hnd : (L.map (fun p => cnt n (fun q => P q ∧ lt q p))).Nodup := by
    rw [List.Nodup, List.pairwise_map]
    apply List.Pairwise.imp_of_mem _ (List.nodup_range.filter _)
    intro a b ha hb hne e
    obtain ⟨ha1, ha2⟩ := (hL a).mp ha
    obtain ⟨hb1, hb2⟩ := (hL b).mp hb
    rcases total a b ha1 hb1 ha2 hb2 with h | h | h
    · have := hmono a b ha1 ha2 h; omega
    · exact hne h
    · have := hmono b a hb1 hb2 h; omega
  have hsub : (L.map (fun p => cnt n (fun q => P q ∧ lt q p))) ⊆ List.range (cnt n P) := by
    intro x hx
    obtain ⟨p, hp, rfl⟩ := List.mem_map.mp hx
    obtain ⟨hp1, hp2⟩ := (hL p).mp hp
    refine List.mem_range.mpr (cnt_lt hp1 (fun a => irrefl p a.2) hp2 (fun q _ a => a.1))
  have hperm := (hnd.subperm hsub).perm_of_length_le (by simp [hlen])
  obtain ⟨p, hp, e⟩ := List.mem_map.mp ((hperm.mem_iff (a := r)).mpr (List.mem_range.mpr hr))
  obtain ⟨hp1, hp2⟩ := (hL p).mp hp
  exact ⟨p, hp1, hp2, e⟩

end Bwtc.Induce

namespace Bwtc.Sais
open Induce Suffix Classical

variable {T : List Nat}

/-- The number of LMS suffixes. -/
noncomputable def lmsCount (T : List Nat) : Nat := cnt T.length (isLMS T)

/-- The rank of the LMS suffix `p` among the LMS suffixes. -/
noncomputable def lrow (T : List Nat) (p : Nat) : Nat := cnt T.length (fun q => isLMS T q ∧ sless T q p)

/-- The first cells hold the LMS positions in the order of their suffixes. -/
def LmsSorted (T : List Nat) (sa : List Int) : Prop :=
  sa.length = T.length ∧ ∀ p, isLMS T p → sa[lrow T p]? = some (p : Int)

theorem lrow_surj {r : Nat} (hr : r < lmsCount T) : ∃ p, isLMS T p ∧ lrow T p = r := by
  obtain ⟨p, _, h2, h3⟩ := rank_surj (lt := sless T) sless_irrefl (fun _ _ _ => sless_trans)
    (fun p q hp hq _ _ => sless_total (Nat.le_of_lt hp) (Nat.le_of_lt hq)) hr
  exact ⟨p, h2, h3⟩

theorem lrow_lt {p : Nat} (h : isLMS T p) : lrow T p < lmsCount T :=
  cnt_lt h.1.1 (fun a => sless_irrefl p a.2) h (fun _ _ a => a.1)

theorem lrow_mono {p q : Nat} (hp : isLMS T p) (h : sless T p q) : lrow T p < lrow T q :=
  cnt_lt hp.1.1 (fun a => sless_irrefl p a.2) ⟨hp, h⟩ (fun _ _ a => ⟨a.1, sless_trans a.2 h⟩)

theorem lrow_inj {p q : Nat} (hp : isLMS T p) (hq : isLMS T q) (h : lrow T p = lrow T q) : p = q := by
  rcases sless_total (T := T) (Nat.le_of_lt hp.1.1) (Nat.le_of_lt hq.1.1) with a | a | a
  · have := lrow_mono hp a; omega
  · exact a
  · have := lrow_mono hq a; omega

theorem lrow_sless {p q : Nat} (hp : isLMS T p) (hq : isLMS T q) (h : lrow T p < lrow T q) : sless T p q := by
  rcases sless_total (T := T) (Nat.le_of_lt hp.1.1) (Nat.le_of_lt hq.1.1) with a | a | a
  · exact a
  · subst a; omega
  · have := lrow_mono hq a; omega

/-- The slot of an LMS position from the end of its bucket. -/
theorem time_lms {p : Nat} (hp : isLMS T p) : (ordL T).time p =
    cnt T.length (fun q => ch T q ≤ ch T p) - cnt T.length (fun q => isLMS T q ∧ ch T q = ch T p ∧ sless T p q) :=
  (ordL T).time_src hp

theorem time_top {p : Nat} (hp : isLMS T p) (h : ∀ q, isLMS T q → ch T q = ch T p → ¬ sless T p q) :
    (ordL T).time p = cnt T.length (fun q => ch T q ≤ ch T p) := by
  have := cnt_false (n := T.length) (P := fun q => isLMS T q ∧ ch T q = ch T p ∧ sless T p q)
    (fun q _ a => h q a.1 a.2.1 a.2.2)
  rw [time_lms hp]; omega

/-- The next LMS position in the same bucket stands one slot further. -/
theorem time_pred {p p' : Nat} (hp : isLMS T p) (hp' : isLMS T p') (he : lrow T p' = lrow T p + 1)
    (hc : ch T p = ch T p') : (ordL T).time p' = (ordL T).time p + 1 := by
  have hlt := lrow_sless hp hp' (by omega)
  have h1 := time_lms hp
  have h2 := time_lms hp'
  have h3 := cnt_insert (n := T.length) (a := p') (P := fun q => isLMS T q ∧ ch T q = ch T p' ∧ sless T p' q)
    (Q := fun q => isLMS T q ∧ ch T q = ch T p ∧ sless T p q) hp'.1.1 (fun a => sless_irrefl p' a.2.2) (by
      intro q _
      constructor
      · rintro ⟨a, b, c⟩
        by_cases e : q = p'
        · exact Or.inr e
        · left
          refine ⟨a, by omega, ?_⟩
          have h1 := lrow_mono hp c
          have h2 : lrow T q ≠ lrow T p' := fun a' => e (lrow_inj a hp' a')
          exact lrow_sless hp' a (by omega)
      · rintro (⟨a, b, c⟩ | rfl)
        · exact ⟨a, by omega, sless_trans hlt c⟩
        · exact ⟨hp', by omega, hlt⟩)
  have h4 := ((ordL T).sched.range p (Or.inl hp)).1
  have h5 : (ordL T).sched.time p = (ordL T).time p := rfl
  have h6 := ((ordL T).sched.range p' (Or.inl hp')).1
  have h7 : (ordL T).sched.time p' = (ordL T).time p' := rfl
  rw [hc] at h1 h3
  omega

theorem lrow_lt_time {p : Nat} (hp : isLMS T p) : lrow T p < (ordL T).time p := by
  suffices H : ∀ d p, lrow T p ≤ d → isLMS T p → lrow T p < (ordL T).time p from H _ p (Nat.le_refl _) hp
  intro d
  induction d with
  | zero =>
    intro p h hp
    have h4 := ((ordL T).sched.range p (Or.inl hp)).1
    have h5 : (ordL T).sched.time p = (ordL T).time p := rfl
    omega
  | succ d ih =>
    intro p h hp
    by_cases e : lrow T p = 0
    · have h4 := ((ordL T).sched.range p (Or.inl hp)).1
      have h5 : (ordL T).sched.time p = (ordL T).time p := rfl
      omega
    · have hlt := lrow_lt hp
      obtain ⟨q, hq, he⟩ := lrow_surj (T := T) (r := lrow T p - 1) (by omega)
      have h1 := ih q (by omega) hq
      have h2 := (ordL T).time_lt (Or.inl hq) (Or.inl hp) (lrow_sless hq hp (by omega))
      omega

/-- The cells from `j` on have got their final contents. -/
def Final (T : List Nat) (sa : List Int) (j : Nat) : Prop :=
  ∀ r, j ≤ r → r < T.length →
    (∀ p, isLMS T p → (ordL T).time p = r + 1 → sa[r]? = some (p : Int)) ∧
    ((∀ p, isLMS T p → (ordL T).time p ≠ r + 1) → sa[r]? = some 0)

theorem clearTo_spec (q j : Nat) (sa : List Int) (hj : j ≤ sa.length) : ∃ sa', clearTo q j sa = some sa' ∧
    sa'.length = sa.length ∧ (∀ r, q ≤ r → r < j → sa'[r]? = some 0) ∧ ∀ r, r < q ∨ j ≤ r → sa'[r]? = sa[r]? := by
  induction j generalizing sa with
  | zero => exact ⟨sa, rfl, rfl, fun r _ h => by omega, fun _ _ => rfl⟩
  | succ j ih =>
    unfold clearTo
    by_cases hq : q < j + 1
    · rw [if_pos hq, bind_some' (put_spec (by omega) 0)]
      obtain ⟨sa', h1, h2, h3, h4⟩ := ih (sa.set j 0) (by rw [List.length_set]; omega)
      refine ⟨sa', h1, by rw [h2, List.length_set], ?_, ?_⟩
      · intro r hr1 hr2
        by_cases e : r = j
        · subst e
          rw [h4 r (Or.inr (Nat.le_refl _)), List.getElem?_set, if_pos rfl, if_pos (by omega)]
        · exact h3 r hr1 (by omega)
      · intro r hr
        rw [h4 r (by omega), List.getElem?_set_ne (by omega)]
    · rw [if_neg hq]
      exact ⟨sa, rfl, rfl, fun r h1 h2 => by omega, fun _ _ => rfl⟩

theorem spread_spec {k : Nat} {C : List Nat} (hC : Counts T k C) (hk : ∀ p, p < T.length → ch T p < k) (i : Nat)
    {p : Nat} (hp : isLMS T p) (hi : lrow T p = i)
    {sa : List Int} (hlen : sa.length = T.length) (hF : Final T sa ((ordL T).time p))
    (hold : ∀ q, isLMS T q → lrow T q ≤ i → sa[lrow T q]? = some (q : Int)) :
    ∃ sa' j', spread T (getBuckets C true) i sa ((ordL T).time p) (p : Int) (ch T p) = some (sa', j') ∧
      sa'.length = T.length ∧ j' ≤ T.length ∧ Final T sa' j' ∧ ∀ q, isLMS T q → j' < (ordL T).time q := by
  induction i generalizing p sa with
  | zero =>
    have hr := (ordL T).sched.range p (Or.inl hp)
    have ht : (ordL T).sched.time p = (ordL T).time p := rfl
    unfold spread
    rw [if_neg (by omega), bind_some' (put_spec (by omega) _)]
    refine ⟨_, _, rfl, by rw [List.length_set]; exact hlen, by omega, ?_, ?_⟩
    · intro r h1 h2
      by_cases e : r = (ordL T).time p - 1
      · subst e
        rw [List.getElem?_set, if_pos rfl, if_pos (by omega)]
        refine ⟨?_, ?_⟩
        · intro q hq hqt
          rw [(ordL T).time_inj (Or.inl hq) (Or.inl hp) (by omega)]
        · intro hne
          exact absurd (by omega) (hne p hp)
      · rw [List.getElem?_set_ne (fun a => e a.symm)]
        exact hF r (by omega) h2
    · intro q hq
      by_cases e : q = p
      · subst e; omega
      · have h0 : lrow T q ≠ lrow T p := fun a => e (lrow_inj hq hp a)
        have := (ordL T).time_lt (Or.inl hp) (Or.inl hq) (lrow_sless hp hq (by omega))
        omega
  | succ i ih =>
    have hr := (ordL T).sched.range p (Or.inl hp)
    have ht : (ordL T).sched.time p = (ordL T).time p := rfl
    have hlt := lrow_lt_time hp
    have hb := lrow_lt hp
    obtain ⟨p', hp', hi'⟩ := lrow_surj (T := T) (r := i) (by omega)
    have hsl := lrow_sless hp' hp (by omega)
    have hlt' := lrow_lt_time hp'
    -- after the write
    have hF1 : Final T (sa.set ((ordL T).time p - 1) (p : Int)) ((ordL T).time p - 1) := by
      intro r h1 h2
      by_cases e : r = (ordL T).time p - 1
      · subst e
        rw [List.getElem?_set, if_pos rfl, if_pos (by omega)]
        refine ⟨?_, ?_⟩
        · intro q hq hqt
          rw [(ordL T).time_inj (Or.inl hq) (Or.inl hp) (by omega)]
        · intro hne
          exact absurd (by omega) (hne p hp)
      · rw [List.getElem?_set_ne (fun a => e a.symm)]
        exact hF r (by omega) h2
    have hold1 : ∀ q, isLMS T q → lrow T q ≤ i →
        (sa.set ((ordL T).time p - 1) (p : Int))[lrow T q]? = some (q : Int) := by
      intro q hq hqi
      rw [List.getElem?_set_ne (by omega)]
      exact hold q hq (by omega)
    have hget := hold1 p' hp' (by omega)
    rw [hi'] at hget
    unfold spread
    rw [if_neg (by omega), bind_some' (put_spec (by omega) _)]
    simp only
    rw [bind_some' hget, if_neg (by omega)]
    simp only [Int.toNat_natCast]
    rw [bind_some' (get_ch hp'.1.1)]
    by_cases hc : ch T p' = ch T p
    · have htp := time_pred hp' hp (by omega) hc
      rw [if_pos hc, show (ordL T).time p - 1 = (ordL T).time p' by omega, ← hc]
      rw [show (ordL T).time p - 1 = (ordL T).time p' by omega] at hF1 hold1
      exact ih hp' hi' (by rw [List.length_set]; exact hlen) hF1 hold1
    · have hcl : ch T p' < ch T p := by
        rcases (sless_step hp'.1.1 hp.1.1).mp hsl with a | a
        · exact a
        · exact absurd a.1 hc
      have htop : (ordL T).time p' = cnt T.length (fun q => ch T q ≤ ch T p') := by
        apply time_top hp'
        intro q hq hqc hqs
        have h1 := lrow_mono hp' hqs
        by_cases e : lrow T q = lrow T p
        · have := lrow_inj hq hp e
          subst this; omega
        · have := lrow_sless hp hq (by omega)
          rcases (sless_step hp.1.1 hq.1.1).mp this with a | a <;> omega
      have hq := getBuckets_stop hC (ch T p') (hk p' hp'.1.1)
      have hle := (ordL T).time_lt (Or.inl hp') (Or.inl hp) hsl
      rw [if_neg hc, bind_some' hq, ← htop]
      obtain ⟨sa2, c1, c2, c3, c4⟩ := clearTo_spec ((ordL T).time p') ((ordL T).time p - 1)
        (sa.set ((ordL T).time p - 1) (p : Int)) (by rw [List.length_set]; omega)
      rw [bind_some' c1, Nat.min_eq_left (by omega)]
      apply ih hp' hi'
      · rw [c2, List.length_set]; exact hlen
      · intro r h1 h2
        by_cases e : r < (ordL T).time p - 1
        · rw [c3 r h1 e]
          refine ⟨?_, fun _ => rfl⟩
          intro q hq hqt
          exfalso
          rcases Nat.lt_trichotomy (lrow T q) (i + 1) with a | a | a
          · by_cases e2 : lrow T q = i
            · have := lrow_inj hq hp' (by omega)
              subst this; omega
            · have := (ordL T).time_lt (Or.inl hq) (Or.inl hp') (lrow_sless hq hp' (by omega))
              omega
          · have := lrow_inj hq hp (by omega)
            subst this; omega
          · have := (ordL T).time_lt (Or.inl hp) (Or.inl hq) (lrow_sless hp hq (by omega))
            omega
        · rw [c4 r (Or.inr (by omega))]
          exact hF1 r (by omega) h2
      · intro q hq hqi
        rw [c4 _ (Or.inl (by
          by_cases e2 : lrow T q = i
          · omega
          · have h3 := (ordL T).time_lt (Or.inl hq) (Or.inl hp') (lrow_sless hq hp' (by omega))
            have := lrow_lt_time hq
            omega))]
        exact hold1 q hq hqi

/-- The first part of `stage3sort`. -/
theorem spreadAll_spec {k : Nat} {C : List Nat} (hC : Counts T k C) (hk : ∀ p, p < T.length → ch T p < k)
    {sa : List Int} {m : Nat} (hm : m = lmsCount T) (h : if 1 < m then LmsSorted T sa else Spread T sa) :
    ∃ sa', spreadAll T C m sa = some sa' ∧ Spread T sa' := by
  unfold spreadAll
  by_cases h1 : 1 < m
  · rw [if_pos h1] at h ⊢
    obtain ⟨p, hp, hi⟩ := lrow_surj (T := T) (r := m - 1) (by omega)
    have hget := h.2 p hp
    rw [hi] at hget
    have htop : (ordL T).time p = cnt T.length (fun q => ch T q ≤ ch T p) := by
      apply time_top hp
      intro q hq hqc hqs
      have h1 := lrow_mono hp hqs
      have := lrow_lt hq
      omega
    have hr := (ordL T).sched.range p (Or.inl hp)
    have ht : (ordL T).sched.time p = (ordL T).time p := rfl
    have hlt := lrow_lt_time hp
    have hmax : ∀ q, isLMS T q → (ordL T).time q ≤ (ordL T).time p := by
      intro q hq
      by_cases e : lrow T q = lrow T p
      · rw [lrow_inj hq hp e]; exact Nat.le_refl _
      · have := lrow_lt hq
        have := (ordL T).time_lt (Or.inl hq) (Or.inl hp) (lrow_sless hq hp (by omega))
        omega
    obtain ⟨sa1, c1, c2, c3, c4⟩ := clearTo_spec ((ordL T).time p) T.length sa (by rw [h.1]; exact Nat.le_refl _)
    obtain ⟨sa2, j2, s1, s2, s3, s4, s5⟩ := spread_spec hC hk (m - 1) hp hi (sa := sa1) (by rw [c2, h.1])
      (by
        intro r h1 h2
        rw [c3 r h1 h2]
        refine ⟨?_, fun _ => rfl⟩
        intro q hq hqt
        have := hmax q hq
        omega)
      (by
        intro q hq _
        rw [c4 _ (Or.inl (by
          have h3 := lrow_lt_time hq
          have := hmax q hq
          omega))]
        exact h.2 q hq)
    obtain ⟨sa3, d1, d2, d3, d4⟩ := clearTo_spec 0 j2 sa2 (by omega)
    refine ⟨sa3, ?_, ?_, ?_, ?_⟩
    · rw [bind_some' hget, if_neg (by omega)]
      simp only [Int.toNat_natCast]
      rw [bind_some' (get_ch hp.1.1), bind_some' (getBuckets_stop hC _ (hk p hp.1.1)), ← htop, bind_some' c1,
        Nat.min_eq_left (by omega), bind_some' s1]
      exact d1
    · rw [d2, s2]
    · intro q hq
      have hrq := (ordL T).sched.range q (Or.inl hq)
      have htq : (ordL T).sched.time q = (ordL T).time q := rfl
      have := s5 q hq
      rw [d4 _ (Or.inr (by omega))]
      exact (s4 _ (by omega) (by omega)).1 q hq (by omega)
    · intro r hr' hne
      by_cases e : r < j2
      · exact d3 r (Nat.zero_le _) e
      · rw [d4 r (Or.inr (by omega))]
        exact (s4 r (by omega) hr').2 hne
  · rw [if_neg h1] at h ⊢
    exact ⟨sa, rfl, h⟩

end Bwtc.Sais

namespace Bwtc.Sais
open Induce Suffix

variable {T : List Nat}

theorem stage3_counts {k m : Nat} {same flag8 recount : Bool} {C : List Nat}
    (hC : flag8 = true ∨ Counts T k C) (hs : same = true → recount = true) {C' : List Nat} (hC' : Counts T k C') :
    recount = true ∨ (same = false ∧ Counts T k (if same = true ∧ 1 < m then getBuckets C' true else C')) := by
  cases same with
  | true => exact Or.inl (hs rfl)
  | false => exact Or.inr ⟨rfl, by rw [if_neg (by simp)]; exact hC'⟩

/-- `stage3sort` of a recursive call. -/
theorem stage3SA_spec {k : Nat} (hk : ∀ c ∈ T, c < k) (hn : 0 < T.length) {m : Nat} (hm : m = lmsCount T)
    {same flag8 recount : Bool} {C : List Nat} (hC : flag8 = true ∨ Counts T k C) (hs : same = true → recount = true)
    {sa : List Int} (h : if 1 < m then LmsSorted T sa else Spread T sa) :
    ∃ sa', stage3SA T m k same flag8 recount C sa = some sa' ∧ IsSA T sa' := by
  obtain ⟨C1, hc1, hC1⟩ := recounted_spec T k hk flag8 C hC
  obtain ⟨sa1, hsa1, hS⟩ := spreadAll_spec hC1 (fun p hp => ch_lt hk hp) hm h
  obtain ⟨sa2, hsa2, hS2⟩ := induceSA_spec hk hn same recount (stage3_counts (m := m) hC hs hC1) hS
  refine ⟨sa2, ?_, hS2⟩
  unfold stage3SA
  rw [bind_some' hc1, bind_some' hsa1]
  exact hsa2

/-- `stage3sort` of the outermost call. -/
theorem stage3BWT_spec {k : Nat} (hk : ∀ c ∈ T, c < k) (hn : 0 < T.length) {m : Nat} (hm : m = lmsCount T)
    {same flag8 recount : Bool} {C : List Nat} (hC : flag8 = true ∨ Counts T k C) (hs : same = true → recount = true)
    {sa : List Int} (h : if 1 < m then LmsSorted T sa else Spread T sa) (withLF : Bool) (lf : List Nat)
    (hlf : withLF = true → 0 < lf.length ∧ lf.length ≤ T.length) :
    ∃ sa' lf' pidx, stage3BWT T m k same flag8 recount C sa withLF lf = some (sa', lf', pidx) ∧
      BwtOut T (if withLF then some (T.length / lf.length, T.length - T.length / lf.length * lf.length) else none)
        lf.length sa' lf' pidx := by
  obtain ⟨C1, hc1, hC1⟩ := recounted_spec T k hk flag8 C hC
  obtain ⟨sa1, hsa1, hS⟩ := spreadAll_spec hC1 (fun p hp => ch_lt hk hp) hm h
  obtain ⟨sa2, lf2, pidx, hsa2, hS2⟩ := computeBWT_spec hk hn same recount (stage3_counts (m := m) hC hs hC1) hS withLF lf hlf
  refine ⟨sa2, lf2, pidx, ?_, hS2⟩
  unfold stage3BWT
  rw [bind_some' hc1, bind_some' hsa1]
  exact hsa2

end Bwtc.Sais
