import Verif.SaisLast

/-!
# `induceSA` gives the suffix array
-/

set_option autoImplicit false

namespace Bwtc.Sais
open Induce Suffix Classical

variable {T : List Nat}

/-- After `i` steps of the first pass of `induceSA`. -/
structure DoneSAL (T : List Nat) (k : Nat) (i : Nat) (s : Pass) : Prop where
  size : s.sa.length = T.length
  inv : ∃ bp, (ordL T).sched.Inv (stL T) (fun p => Sais.inv (stL T p)) (fun _ => 0) (fun _ => Sais.inv 0) i
    (fun r => s.sa[r]?) bp ∧ Ptrs k s.B s.c1 s.b bp

theorem saStepL_spec {k : Nat} (hk : ∀ c ∈ T, c < k) {i : Nat} (hi : i < T.length) {s : Pass} (h : DoneSAL T k i s) :
    ∃ s', saStepL T s i = some s' ∧ DoneSAL T k (i + 1) s' := by
  obtain ⟨bp, hI, hP⟩ := h.inv
  have hsz := h.size
  have hset1 := fun v => get_set1 (A := s.sa) (v := v) (show i < s.sa.length by omega)
  rcases hI.here hi with ⟨r, _, hr, hrt, hA⟩ | ⟨hno, hA⟩
  · have hrn : r < T.length := (ordL T).bound r hr
    by_cases hpred : r ≠ 0 ∧ isL T (r - 1)
    · obtain ⟨hr0, hl⟩ := hpred
      obtain ⟨q, rfl⟩ : ∃ q, r = q + 1 := ⟨r - 1, by omega⟩
      rw [show q + 1 - 1 = q by omega] at hl
      obtain ⟨h1, h2, h3, h4⟩ := hI.place hi (q := q) hl hrt
      have hkey : (ordL T).sched.key q = ch T q := rfl
      rw [hkey] at h1 h2 h3 h4
      have hst : stL T (q + 1) = ((q + 1 : Nat) : Int) := by
        unfold stL; rw [if_neg (by omega), show q + 1 - 1 = q by omega, if_pos hl]
      rw [hst] at hA
      obtain ⟨B', b1, b2⟩ := switch_spec hP (c0 := ch T q) (ch_lt hk hl.1)
      have hset := get_set2 (A := s.sa) (v := Sais.inv ((q + 1 : Nat) : Int)) (w := stL T q) (show i < s.sa.length by omega)
        (show bp (ch T q) < s.sa.length by omega) (by omega)
      refine ⟨⟨(s.sa.set i (Sais.inv ((q + 1 : Nat) : Int))).set (bp (ch T q)) (stL T q), B', ch T q, bp (ch T q) + 1⟩, ?_,
        ⟨?_, ?_⟩⟩
      · unfold saStepL
        rw [bind_some' hA]
        simp only
        rw [if_pos (by omega)]
        simp only [Int.toNat_natCast]
        rw [show q + 1 - 1 = q by omega, bind_some' (get_ch hl.1), bind_some' b1, bind_some' (markL_spec hl),
          bind_some' (put_spec (by rw [List.length_set]; omega) _)]
        rfl
      · simp only [List.length_set]; exact hsz
      · refine ⟨fun c => if c = ch T q then bp (ch T q) + 1 else bp c, ?_, b2 _⟩
        apply h4
        · rw [hst]; exact hset.1
        · exact hset.2.1
        · exact hset.2.2
        · exact if_pos rfl
        · intro c hc; exact if_neg hc
    · have hnoq : ∀ q, (ordL T).sched.tgt q → q + 1 ≠ r := by
        intro q hq e
        exact hpred ⟨by omega, by rw [← e]; exact hq⟩
      have hneg : ¬ (0 : Int) < stL T r := by
        unfold stL
        by_cases e : r = 0
        · rw [if_pos e]; omega
        · rw [if_neg e, if_neg (fun a => hpred ⟨e, a⟩)]; unfold Sais.inv; omega
      refine ⟨{ s with sa := s.sa.set i (Sais.inv (stL T r)) }, ?_, ⟨?_, ⟨bp, ?_, hP⟩⟩⟩
      · unfold saStepL
        rw [bind_some' hA]
        simp only
        rw [if_neg hneg]; rfl
      · simp only [List.length_set]; exact hsz
      · exact hI.skip hr hrt hnoq _ (hset1 _).1 (hset1 _).2
  · refine ⟨{ s with sa := s.sa.set i (Sais.inv 0) }, ?_, ⟨?_, ⟨bp, ?_, hP⟩⟩⟩
    · unfold saStepL
      rw [bind_some' hA]
      simp only
      rw [if_neg (by omega)]; rfl
    · simp only [List.length_set]; exact hsz
    · exact hI.pass hno _ (hset1 _).1 (hset1 _).2

/-- What the second pass of `induceSA` finds for `p`. -/
noncomputable def stSA (T : List Nat) (p : Nat) : Int := if p ≠ 0 ∧ isS T (p - 1) then p else Sais.inv p

theorem stL_stSA {p : Nat} (hp : p < T.length) : Sais.inv (stL T p) = stSA T p := by
  unfold stL stSA
  by_cases e : p = 0
  · rw [if_pos e, if_neg (fun a => a.1 e), e]; rfl
  · rw [if_neg e]
    have hp' : p - 1 < T.length := by omega
    rcases type_total hp' with h | h
    · rw [if_pos h, if_neg (fun a => (not_isS hp').mpr h a.2)]
    · rw [if_neg ((not_isL hp').mpr h), if_pos ⟨e, h⟩, inv_inv]

theorem markS_spec {j : Nat} (h : isS T j) : markS T j (ch T j) = some (stSA T j) := by
  unfold markS stSA
  by_cases e : j = 0
  · rw [if_pos e, if_neg (fun a => a.1 e)]
  · have h1 := h.1
    have hSp : isS T (j - 1) ↔ ch T (j - 1) ≤ ch T j := by
      obtain ⟨u, rfl⟩ : ∃ u, j = u + 1 := ⟨j - 1, by omega⟩
      rw [show u + 1 - 1 = u by omega]; exact S_pred h
    rw [if_neg e, get_ch (show j - 1 < T.length by omega)]
    simp only [Option.bind_eq_bind, Option.bind_some, Option.pure_def, Option.some.injEq]
    by_cases hl : ch T j < ch T (j - 1)
    · rw [if_pos hl, if_neg (fun a => by have := hSp.mp a.2; omega)]
    · rw [if_neg hl, if_pos ⟨e, hSp.mpr (by omega)⟩]

/-- After `t` steps of the second pass of `induceSA`. -/
structure DoneSAS (T : List Nat) (k : Nat) (hk : ∀ p, p < T.length → ch T p < k) (t : Nat) (s : Pass) : Prop where
  size : s.sa.length = T.length
  inv : ∃ bp, (ordS T k hk).sched.Inv (stSA T) (fun p => (p : Int)) (fun _ => 0) (fun _ => 0) t (rev T.length s.sa)
    (fun c => T.length - bp (k - 1 - c)) ∧ Ptrs k s.B s.c1 s.b bp

theorem saStepS_spec {k : Nat} (hk : ∀ p, p < T.length → ch T p < k) {t : Nat} (ht : t < T.length) {s : Pass}
    (h : DoneSAS T k hk t s) : ∃ s', saStepS T s (T.length - 1 - t) = some s' ∧ DoneSAS T k hk (t + 1) s' := by
  obtain ⟨bp, hI, hP⟩ := h.inv
  have hsz := h.size
  rcases hI.here ht with ⟨r, hpl, hr, hrt, hA⟩ | ⟨hno, hA⟩
  · have hrn : r < T.length := (ordS T k hk).bound r hr
    have hget : s.sa[T.length - 1 - t]? = some (stSA T r) := by
      unfold rev at hA; rwa [if_pos ht] at hA
    by_cases hc : r ≠ 0 ∧ isS T (r - 1)
    · obtain ⟨e, hs⟩ := hc
      have hst : stSA T r = (r : Int) := if_pos ⟨e, hs⟩
      obtain ⟨q, rfl⟩ : ∃ q, r = q + 1 := ⟨r - 1, by omega⟩
      rw [show q + 1 - 1 = q by omega] at hs
      have hqn : q < T.length := by omega
      rw [hst] at hget
      obtain ⟨h1, h2, h3, h4⟩ := hI.place ht (q := q) hs hrt
      have hkey : (ordS T k hk).sched.key q = k - 1 - ch T q := rfl
      have hcq := hk q hqn
      rw [hkey] at h1 h2 h3 h4
      simp only [show k - 1 - (k - 1 - ch T q) = ch T q by omega] at h1 h2 h3 h4
      have hbpos : bp (ch T q) ≠ 0 := by omega
      have hble : bp (ch T q) ≤ T.length := by omega
      obtain ⟨B', b1, b2⟩ := switch_spec hP (c0 := ch T q) hcq
      have hset := rev_set1 (v := stSA T q) hsz h3
      have hbi : T.length - 1 - (T.length - bp (ch T q)) = bp (ch T q) - 1 := by omega
      rw [hbi] at hset
      refine ⟨⟨s.sa.set (bp (ch T q) - 1) (stSA T q), B', ch T q, bp (ch T q) - 1⟩, ?_, ⟨?_, ?_⟩⟩
      · unfold saStepS
        rw [bind_some' hget, if_pos (by omega)]
        simp only [Int.toNat_natCast]
        rw [show q + 1 - 1 = q by omega, bind_some' (get_ch hqn), bind_some' b1]
        simp only
        rw [if_neg hbpos, bind_some' (markS_spec hs), bind_some' (put_spec (by omega) _)]
        rfl
      · simp only [List.length_set]; exact hsz
      · refine ⟨fun c => if c = ch T q then bp (ch T q) - 1 else bp c, ?_, b2 _⟩
        have := h4 (rev T.length (s.sa.set (bp (ch T q) - 1) (stSA T q)))
          (fun c => if c = k - 1 - ch T q then T.length - bp (ch T q) + 1 else T.length - bp (k - 1 - c))
          (by rw [hset.2 t (by omega)]; unfold rev; rw [if_pos ht, hget]) hset.1 (fun r _ b => hset.2 r b)
          (by simp only [if_true])
          (by intro c hc; exact if_neg hc)
        refine ⟨?_, this.full, this.other, this.dom⟩
        intro p hp
        have hf := this.free p hp
        have hkp := hk p hp.1
        have hkeyp : (ordS T k hk).sched.key p = k - 1 - ch T p := rfl
        rw [hkeyp] at hf ⊢
        rw [← hf]
        simp only [show k - 1 - (k - 1 - ch T p) = ch T p by omega]
        by_cases ec : ch T p = ch T q
        · rw [if_pos ec, if_pos (by omega)]; omega
        · rw [if_neg ec, if_neg (by omega)]
    · have hst : stSA T r = Sais.inv r := if_neg hc
      rw [hst] at hget
      have hset := rev_set1 (v := (r : Int)) hsz ht
      refine ⟨{ s with sa := s.sa.set (T.length - 1 - t) (r : Int) }, ?_, ⟨?_, ⟨bp, ?_, hP⟩⟩⟩
      · unfold saStepS
        rw [bind_some' hget, if_neg (by unfold Sais.inv; omega), inv_inv]
        rfl
      · simp only [List.length_set]; exact hsz
      · apply hI.skip hr hrt
        · intro q' hq' e'
          exact hc ⟨by omega, by rw [← e']; exact hq'⟩
        · exact hset.1
        · exact hset.2
  · exfalso
    obtain ⟨p, hp, e⟩ := row_surj (T := T) (r := T.length - 1 - t) (by omega)
    have := timeS_eq k hk hp
    have h1 : (ordS T k hk).time p = t + 1 := by omega
    exact hno p (all_act hk hp) h1

/-- `sa` is the suffix array of `T`. -/
def IsSA (T : List Nat) (sa : List Int) : Prop :=
  sa.length = T.length ∧ ∀ p, p < T.length → sa[row T p]? = some (p : Int)

theorem initL_inv' {k : Nat} (hk : ∀ c ∈ T, c < k) (hn : 0 < T.length) {sa : List Int} (h : Spread T sa)
    (fin nfin : Nat → Int) :
    (ordL T).sched.Inv (stL T) fin (fun _ => 0) nfin 0
      (fun r => (sa.set (cnt T.length (fun q => ch T q < ch T (T.length - 1))) (stL T (T.length - 1)))[r]?)
      (fun c => if c = ch T (T.length - 1) then cnt T.length (fun q => ch T q < ch T (T.length - 1)) + 1
        else cnt T.length (fun q => ch T q < c)) := by
  have h0 := initL_inv hk hn h
  refine ⟨h0.free, ?_, ?_, h0.dom⟩
  · intro p hp
    have hpa : (ordL T).sched.src p ∨ (ordL T).sched.tgt p := by
      rcases hp with hp | hp
      · exact Or.inl hp
      · exact Or.inr hp.1
    have := (ordL T).sched.range p hpa
    have h1 := h0.full p hp
    rw [if_neg (by omega)] at h1 ⊢
    exact h1
  · intro r hr hne
    have h1 := h0.other r hr hne
    rw [if_neg (by omega)] at h1 ⊢
    exact h1

theorem induceSA_spec {k : Nat} (hk : ∀ c ∈ T, c < k) (hn : 0 < T.length) (same recount : Bool) {C : List Nat}
    (hC : recount = true ∨ (same = false ∧ Counts T k C)) {sa : List Int} (hsa : Spread T sa) :
    ∃ sa', induceSA T k same recount C sa = some sa' ∧ IsSA T sa' := by
  have hk' : ∀ p, p < T.length → ch T p < k := fun p hp => ch_lt hk hp
  obtain ⟨C1, hc1, hC1⟩ := recounted_spec T k hk recount C (hC.imp id (fun h => h.2))
  have hlast : isL T (T.length - 1) := isL_last (by omega)
  have hcl := hk' (T.length - 1) (by omega)
  have hb1 := getBuckets_start hC1 (ch T (T.length - 1)) hcl
  have hblt : cnt T.length (fun q => ch T q < ch T (T.length - 1)) < T.length := by
    have := ((ordL T).sched.range _ (Or.inr hlast)).2
    have h4 : (ordL T).sched.time (T.length - 1) = (ordL T).time (T.length - 1) := rfl
    have h2 := (ordL T).time_tgt hlast
    have h3 : (ordL T).start ((ordL T).ch (T.length - 1)) = cnt T.length (fun q => ch T q < ch T (T.length - 1)) := rfl
    omega
  have hput := put_spec (A := sa) (by rw [hsa.1]; exact hblt) (stL T (T.length - 1))
  have hstart : DoneSAL T k 0
      ⟨sa.set (cnt T.length (fun q => ch T q < ch T (T.length - 1))) (stL T (T.length - 1)), getBuckets C1 false,
        ch T (T.length - 1), cnt T.length (fun q => ch T q < ch T (T.length - 1)) + 1⟩ := by
    refine ⟨?_, ⟨_, initL_inv' hk hn hsa _ _, ?_⟩⟩
    · simp only [List.length_set]; exact hsa.1
    · exact Ptrs.init (by rw [getBuckets_length, hC1.1]) hcl (fun c hc => getBuckets_start hC1 c hc) _
  obtain ⟨s1, hs1, hd1⟩ := loopUp_spec (f := saStepL T) (DoneSAL T k) T.length 0 _
    (fun j s _ hj hs => saStepL_spec hk (by omega) hs) hstart
  rw [Nat.zero_add] at hd1
  obtain ⟨C2, hc2, hC2⟩ := recounted_spec T k hk recount (if same then s1.B else C1)
    (hC.imp id (fun h => by rw [h.1]; exact hC1))
  obtain ⟨bp, hI, _⟩ := hd1.inv
  have h0k : 0 < k := by omega
  have hstart2 : DoneSAS T k hk' 0 ⟨s1.sa, getBuckets C2 true, 0, cnt T.length (fun q => ch T q ≤ 0)⟩ := by
    refine ⟨hd1.size, ⟨fun c => cnt T.length (fun q => ch T q ≤ c), initS_inv hk' hd1.size ?_, ?_⟩⟩
    · intro p hp
      have := hI.done (Or.inr hp)
      have ht : (ordL T).sched.time p = (ordL T).time p := rfl
      rw [ht, timeL_eq hp, show row T p + 1 - 1 = row T p by omega, stL_stSA hp.1] at this
      exact this
    · exact Ptrs.init' (by rw [getBuckets_length, hC2.1]) h0k (fun c hc => getBuckets_stop hC2 c hc)
  obtain ⟨s2, hs2, hd2⟩ := loopDown_spec (f := saStepS T) T.length (DoneSAS T k hk') T.length
    (Nat.le_refl _) _ (fun t s ht hs => saStepS_spec hk' ht hs) (by rw [Nat.sub_self]; exact hstart2)
  refine ⟨s2.sa, ?_, ?_⟩
  · unfold induceSA
    simp only
    rw [bind_some' hc1, if_neg (by omega), bind_some' (get_ch (show T.length - 1 < T.length by omega)), bind_some' hb1,
      bind_some' (markL_spec hlast), bind_some' hput, bind_some' hs1, bind_some' hc2,
      bind_some' (getBuckets_stop hC2 0 h0k), bind_some' hs2]
    rfl
  · obtain ⟨bp2, hI2, _⟩ := hd2.inv
    refine ⟨hd2.size, ?_⟩
    intro p hp
    have := hI2.done (all_act hk' hp)
    have hr := timeS_eq k hk' hp
    have hlt := row_lt hp
    have ht : (ordS T k hk').sched.time p = (ordS T k hk').time p := rfl
    rw [ht] at this
    unfold rev at this
    rw [if_pos (by omega), show T.length - 1 - ((ordS T k hk').time p - 1) = row T p by omega] at this
    exact this

end Bwtc.Sais
