import Verif.SaisLms2

/-!
# `LMSsort2` as a whole
-/

set_option autoImplicit false

namespace Bwtc.Sais
open Induce Suffix Classical

variable {T : List Nat}

/-- The last position of its class in the order found. -/
def isLast (T : List Nat) (p : Nat) : Prop := isLMS T p ∧ ∀ q, isLMS T q → keyX T q = keyX T p → ¬ keyS T p < keyS T q

/-- The L position behind `p0` with an S position in front that stands in cell `x` after the first pass. -/
def atL (T : List Nat) (p0 x p : Nat) : Prop := isL T p ∧ p0 < p ∧ isS T (p - 1) ∧ (ordL1 T p0).time p = x + 1

theorem atL_unique {p0 x p q : Nat} (hp : atL T p0 x p) (hq : atL T p0 x q) : p = q :=
  (ordL1 T p0).time_inj (Or.inr ⟨hp.1, hp.2.1⟩) (Or.inr ⟨hq.1, hq.2.1⟩) (by rw [hp.2.2.2, hq.2.2.2])

noncomputable def cellPos (T : List Nat) (p0 x : Nat) : Nat := if h : ∃ p, atL T p0 x p then Classical.choose h else 0

theorem cellPos_eq {p0 x p : Nat} (hp : atL T p0 x p) : cellPos T p0 x = p := by
  have hex : ∃ p, atL T p0 x p := ⟨p, hp⟩
  unfold cellPos
  rw [dif_pos hex]
  exact atL_unique (Classical.choose_spec hex) hp

/-- From the flags of the first pass to those of the second one. -/
theorem flags_turn {k p0 : Nat} (h0 : isLMS T p0) (hk : ∀ p, p < T.length → ch T p < k) {sa : List Int} (hlen : sa.length = T.length)
    (hL : ∀ p, isL T p → p0 < p → sa[(ordL1 T p0).time p - 1]? = some (finL1 T (clsL T p0).fl p))
    (hoth : ∀ r, r < T.length → (∀ p, isL T p → p0 < p → (ordL1 T p0).time p ≠ r + 1) → sa[r]? = some 0) :
    ∃ sa', flagLoop T.length false T.length sa = some sa' ∧ sa'.length = T.length ∧
      (∀ p, isL T p → p0 < p → sa'[(ordL1 T p0).time p - 1]? = some (stS1 T (clsS T p0 k hk).fl p)) ∧
      ∀ r, r < T.length → (∀ p, isL T p → p0 < p → (ordL1 T p0).time p ≠ r + 1) → sa'[r]? = some 0 := by
  have hp0 := isLMS_pos h0
  have hrange : ∀ p, isL T p → p0 < p → 0 < (ordL1 T p0).time p ∧ (ordL1 T p0).time p ≤ T.length :=
    fun p a b => (ordL1 T p0).sched.range p (Or.inr ⟨a, b⟩)
  have hat : ∀ p, isL T p → p0 < p → isS T (p - 1) → atL T p0 ((ordL1 T p0).time p - 1) p := by
    intro p a b c
    have := hrange p a b
    exact ⟨a, b, c, by omega⟩
  have hcellF : ∀ x p, atL T p0 x p → (cellF (fun x => ∃ p, atL T p0 x p) (fun x => walkX T (cellPos T p0 x)) x ↔ (clsL T p0).fl p) := by
    intro x p hp
    constructor
    · intro h r hr hx hw hlt
      have hrt := (clsL T p0).tgtc r p ⟨hp.1, hp.2.1⟩ hr hx
      have hrs : isS T (r - 1) := hw.mpr hp.2.2.1
      have har := hat r hrt.1 hrt.2 hrs
      refine h _ ⟨r, har⟩ ?_ ?_
      · simp only [cellPos_eq har, cellPos_eq hp]; exact hx
      · have h1 := hp.2.2.2
        have h2 : (ordL1 T p0).time r < (ordL1 T p0).time p := hlt
        have := hrange r hrt.1 hrt.2
        omega
    · rintro h y ⟨r, hr⟩ hx hlt
      simp only [cellPos_eq hr, cellPos_eq hp] at hx
      refine h r (Or.inr ⟨hr.1, hr.2.1⟩) hx ⟨fun _ => hp.2.2.1, fun _ => hr.2.2.1⟩ ?_
      show (ordL1 T p0).time r < (ordL1 T p0).time p
      rw [hr.2.2.2, hp.2.2.2]; omega
  have hcellG : ∀ x p, atL T p0 x p → (cellG (fun x => ∃ p, atL T p0 x p) (fun x => walkX T (cellPos T p0 x)) x ↔ (clsS T p0 k hk).fl p) := by
    intro x p hp
    have hXp := walkX_keyX hp.1.1 (not_lms_L hp.1)
    constructor
    · intro h r hr hx hw hlt
      have hrn := (ordS1 T p0 k hk).bound r hr
      have hx' : keyX T r = keyX T p := hx
      have hrl : isL T r := by
        have := hx'
        unfold keyX at this
        rw [List.cons.injEq] at this
        exact tc_eq_L hp.1 hrn this.1.symm
      have hr0 : p0 < r := by
        rcases hr with hr | hr
        · exact hr.2
        · exact absurd hr.1 (fun a => not_isL_isS hrl a)
      have hrs : isS T (r - 1) := (not_isL (by omega)).mp (fun a => not_isL_isS (hw.mp a) hp.2.2.1)
      have har := hat r hrl hr0 hrs
      refine h _ ⟨r, har⟩ ?_ ?_
      · simp only [cellPos_eq har, cellPos_eq hp]
        rw [hXp, walkX_keyX hrl.1 (not_lms_L hrl)]; exact hx
      · have h1 := time_LS (k := k) hk hp.1 hp.2.1
        have h2 := time_LS (k := k) hk hrl hr0
        have h3 : (ordS1 T p0 k hk).time r < (ordS1 T p0 k hk).time p := hlt
        have h4 := hp.2.2.2
        have := hrange r hrl hr0
        omega
    · rintro h y ⟨r, hr⟩ hx hlt
      simp only [cellPos_eq hr, cellPos_eq hp] at hx
      rw [hXp, walkX_keyX hr.1.1 (not_lms_L hr.1)] at hx
      refine h r (Or.inl ⟨hr.1, hr.2.1⟩) hx ⟨fun a => absurd hr.2.2.1 (fun b => not_isL_isS a b), fun a => absurd hp.2.2.1 (fun b => not_isL_isS a b)⟩ ?_
      have h1 := time_LS (k := k) hk hp.1 hp.2.1
      have h2 := time_LS (k := k) hk hr.1 hr.2.1
      have h3 := hp.2.2.2
      have h4 := hr.2.2.2
      show (ordS1 T p0 k hk).time r < (ordS1 T p0 k hk).time p
      omega
  obtain ⟨sa', h1, h2, h3⟩ := flagLoop_spec (n := T.length) (P := fun x => ∃ p, atL T p0 x p)
    (c := fun x => walkX T (cellPos T p0 x)) (a := fun x => cellPos T p0 x - 1)
    (by
      rintro x ⟨p, hp⟩
      simp only [cellPos_eq hp]
      have := hp.1.1
      have := hp.2.1
      omega)
    (by
      rintro x y z ⟨p, hp⟩ ⟨q, hq⟩ ⟨r, hr⟩ h1 h2 h3
      simp only [cellPos_eq hp, cellPos_eq hq, cellPos_eq hr] at h3 ⊢
      apply (clsL T p0).contig p q r (Or.inr ⟨hp.1, hp.2.1⟩) (Or.inr ⟨hq.1, hq.2.1⟩) (Or.inr ⟨hr.1, hr.2.1⟩)
      · show (ordL1 T p0).time p ≤ (ordL1 T p0).time q
        rw [hp.2.2.2, hq.2.2.2]; omega
      · show (ordL1 T p0).time q ≤ (ordL1 T p0).time r
        rw [hr.2.2.2, hq.2.2.2]; omega
      · exact h3)
    T.length (Nat.le_refl _) sa false hlen
    (by
      intro x hx
      by_cases hex : ∃ p, isL T p ∧ p0 < p ∧ (ordL1 T p0).time p = x + 1
      · obtain ⟨p, a, b, c⟩ := hex
        have := hL p a b
        rw [c, show x + 1 - 1 = x by omega] at this
        rw [this]
        congr 1
        unfold finL1 vL
        by_cases e : isL T (p - 1)
        · have hno : ¬ ∃ p, atL T p0 x p := by
            rintro ⟨q, hq⟩
            have : p = q := (ordL1 T p0).time_inj (Or.inr ⟨a, b⟩) (Or.inr ⟨hq.1, hq.2.1⟩) (by rw [hq.2.2.2, c])
            rw [this] at e
            exact not_isL_isS e hq.2.2.1
          rw [if_pos e, if_neg hno]
        · have hap : atL T p0 x p := ⟨a, b, (not_isL (by have := a.1; omega)).mp e, c⟩
          rw [if_neg e, if_pos (show ∃ p, atL T p0 x p from ⟨p, hap⟩), cellPos_eq hap]
          simp only [hcellF x p hap]
      · have hno : ¬ ∃ p, atL T p0 x p := fun ⟨q, hq⟩ => hex ⟨q, hq.1, hq.2.1, hq.2.2.2⟩
        rw [if_neg hno]
        exact hoth x hx (fun p a b c => hex ⟨p, a, b, c⟩))
    (by intro x h1 h2; omega)
    (by
      rintro x ⟨p, hp⟩
      have := hrange p hp.1 hp.2.1
      have := hp.2.2.2
      omega)
    (by
      rintro _ y ⟨p, hp⟩ h
      have := hrange p hp.1 hp.2.1
      have := hp.2.2.2
      omega)
    (by intro h; simp at h)
  refine ⟨sa', h1, h2, ?_, ?_⟩
  · intro p hp hlt
    have hr := hrange p hp hlt
    rw [h3 _ (by omega)]
    congr 1
    unfold stS1 vL
    by_cases e : isS T (p - 1)
    · have hap := hat p hp hlt e
      rw [if_pos (show ∃ p', atL T p0 ((ordL1 T p0).time p - 1) p' from ⟨p, hap⟩), if_pos e, cellPos_eq hap]
      simp only [hcellG _ p hap]
    · have hno : ¬ ∃ p', atL T p0 ((ordL1 T p0).time p - 1) p' := by
        rintro ⟨q, hq⟩
        have : p = q := (ordL1 T p0).time_inj (Or.inr ⟨hp, hlt⟩) (Or.inr ⟨hq.1, hq.2.1⟩) (by rw [hq.2.2.2]; omega)
        rw [this] at e
        exact e hq.2.2.1
      rw [if_neg hno, if_neg e, if_pos hp]
  · intro r hr hne
    rw [h3 r hr, if_neg (fun ⟨q, hq⟩ => hne q hq.1 hq.2.1 hq.2.2.2)]

/-- In the last pass, the marks of LMS positions say which ones are the last of their class. -/
theorem flS_iff {k p0 : Nat} (h0 : FirstLMS T 0 p0) (hk : ∀ p, p < T.length → ch T p < k) {p : Nat} (hp : isLMS T p) :
    (clsS T p0 k hk).fl p ↔ isLast T p := by
  have hact : ∀ q, isLMS T q → (ordS1 T p0 k hk).tgt q := fun q hq => ⟨hq.1, h0.2.2 q hq (isLMS_pos hq)⟩
  constructor
  · intro h
    refine ⟨hp, fun q hq hx hlt => ?_⟩
    refine h q (Or.inr (hact q hq)) hx ⟨fun _ => (lms_pred_isL hp).2, fun _ => (lms_pred_isL hq).2⟩ ?_
    exact ((ordS1 T p0 k hk).time_lt_iff (Or.inr (hact q hq)) (Or.inr (hact p hp))).mpr hlt
  · rintro ⟨_, h⟩ r hr hx hw hlt
    have hrt := (clsS T p0 k hk).tgtc r p (hact p hp) hr hx
    have hrl : isL T (r - 1) := hw.mpr (lms_pred_isL hp).2
    have hr0 : 0 < r := by
      have := isLMS_pos h0.1
      have : p0 ≤ r := hrt.2
      omega
    have hlms : isLMS T r := ⟨hrt.1, r - 1, by omega, hrl⟩
    exact h r hlms hx (((ordS1 T p0 k hk).time_lt_iff hr (Or.inr (hact p hp))).mp hlt)

theorem KeySorted.congr {fl fl' : Nat → Prop} {sa : List Int} (h : KeySorted T fl sa) (he : ∀ p, isLMS T p → (fl p ↔ fl' p)) :
    KeySorted T fl' sa := by
  obtain ⟨h1, f, h2, h3, h4⟩ := h
  refine ⟨h1, f, ?_, h3, h4⟩
  intro q hq
  refine ⟨(h2 q hq).1, ?_⟩
  rw [(h2 q hq).2]
  simp only [he q hq]

/-- `LMSsort2`. -/
theorem lmsSort2_spec {k p0 : Nat} (hov : T.length + T.length < 2 ^ 31) (h0 : FirstLMS T 0 p0) (hk : ∀ c ∈ T, c < k) {C : List Nat} (hC : Counts T k C)
    {sa : List Int} (hlen : sa.length = T.length)
    (hsrc : ∀ q, isLMS T q → p0 < q → sa[lslot T q - 1]? = some (vL T (clsL T p0).fl q : Int))
    (hoth : ∀ r, r < T.length → (∀ q, isLMS T q → p0 < q → lslot T q ≠ r + 1) → sa[r]? = some 0) :
    ∃ sa', lmsSort2 T k C sa = some sa' ∧ KeySorted T (isLast T) sa' := by
  have hk' : ∀ p, p < T.length → ch T p < k := fun p hp => ch_lt hk hp
  have hp0 := isS_next h0.1.1
  have hpos := isLMS_pos h0.1
  have hlast : isL T (T.length - 1) := isL_last (by omega)
  have hcl := hk' (T.length - 1) (by omega)
  have hb1 := getBuckets_start hC (ch T (T.length - 1)) hcl
  obtain ⟨hblt, hI0⟩ := initL1 h0.1 (fl := (clsL T p0).fl) (finL1 T (clsL T p0).fl) hlen hsrc hoth
  have hput := put_spec (A := sa) (by rw [hlen]; exact hblt) (stL1 T (clsL T p0).fl (T.length - 1))
  have hfl : (clsL T p0).fl (T.length - 1) := by
    intro r hr hx _ hlt
    by_cases e : r + 1 = T.length
    · rw [show T.length - 1 = r by omega] at hlt; omega
    · have hrt := (clsL T p0).tgtc r (T.length - 1) ⟨hlast, by omega⟩ hr hx
      exact (clsL T p0).last (T.length - 1) r hrt e (Or.inr ⟨hlast, by omega⟩) hx.symm (by omega)
  have hmark : (if ch T (T.length - 2) < ch T (T.length - 1) then Sais.inv (T.length - 2 + T.length : Nat)
      else ((T.length - 2 + T.length : Nat) : Int)) = stL1 T (clsL T p0).fl (T.length - 1) := by
    unfold stL1 vL
    rw [if_pos hfl]
    have := pred_lt hlast.1 (by omega) hlast
    rw [show T.length - 1 - 1 = T.length - 2 by omega] at this ⊢
    by_cases e : ch T (T.length - 2) < ch T (T.length - 1)
    · rw [if_pos e, if_neg (fun a => this.mp a e)]
    · rw [if_neg e, if_pos (this.mpr e)]
  have hstart : DoneL2 T k p0 0
      ⟨⟨sa.set (cnt T.length (fun q => ch T q < ch T (T.length - 1))) (stL1 T (clsL T p0).fl (T.length - 1)), getBuckets C false,
        ch T (T.length - 1), cnt T.length (fun q => ch T q < ch T (T.length - 1)) + 1⟩, 0, List.replicate (2 * k) 0⟩ := by
    refine ⟨?_, ?_, ⟨_, hI0, ?_⟩⟩
    · simp only [List.length_set]; exact hlen
    · apply Cls.Book.init
      · rw [List.length_replicate]
      · intro t x hx
        have := (List.mem_replicate.mp (List.mem_of_getElem? hx)).2
        omega
    · exact Ptrs.init (by rw [getBuckets_length, hC.1]) hcl (fun c hc => getBuckets_start hC c hc) _
  obtain ⟨s1, hs1, hd1⟩ := loopUp_spec (f := lms2StepL T) (DoneL2 T k p0) T.length 0 _
    (fun j s _ hj hs => lms2StepL_spec h0.1 hk (by omega) hs) hstart
  rw [Nat.zero_add] at hd1
  obtain ⟨bp, hI, _⟩ := hd1.inv
  have h0k : 0 < k := by omega
  obtain ⟨sa1, hf1, hf2, hf3, hf4⟩ := flags_turn (k := k) h0.1 hk' hd1.size
    (by
      intro p hp hlt
      exact hI.done (Or.inr ⟨hp, hlt⟩))
    (by
      intro r hr hne
      by_cases hex : ∃ p, isLMS T p ∧ p0 < p ∧ (ordL1 T p0).time p = r + 1
      · obtain ⟨p, hp, hlt, ht⟩ := hex
        have := hI.done (p := p) (Or.inl ⟨hp, hlt⟩)
        have ht' : (ordL1 T p0).sched.time p = (ordL1 T p0).time p := rfl
        rw [ht', ht, show r + 1 - 1 = r by omega] at this
        rw [this]
        congr 1
        unfold finL1
        rw [if_pos (lms_pred_isL hp).2]
      · have := hI.other r hr (by
          intro p hp e
          rcases hp with hp | hp
          · exact hex ⟨p, hp.1, hp.2, e⟩
          · exact hne p hp.1 hp.2 e)
        rw [this]; simp)
  have hstart2 : DoneS2 T k p0 (s1.d + 1) hk' 0
      ⟨⟨sa1, getBuckets C true, 0, cnt T.length (fun q => ch T q ≤ 0)⟩, s1.d + 1, s1.D⟩ := by
    refine ⟨hf2, ?_, ⟨fun c => cnt T.length (fun q => ch T q ≤ c), initS1 hk' _ hf2 hf3 hf4, ?_⟩⟩
    · exact Cls.Book.init hd1.book.len (fun t x hx => by have := hd1.book.le hx; omega)
    · exact Ptrs.init' (by rw [getBuckets_length, hC.1]) h0k (fun c hc => getBuckets_stop hC c hc)
  obtain ⟨s2, hs2, hd2⟩ := loopDown_spec (f := lms2StepS T) T.length (DoneS2 T k p0 (s1.d + 1) hk') T.length
    (Nat.le_refl _) _ (fun t s ht hs => lms2StepS_spec h0.1 hk' ht hs) (by rw [Nat.sub_self]; exact hstart2)
  refine ⟨s2.sa, ?_, ?_⟩
  · unfold lmsSort2
    simp only
    rw [if_neg (by omega), bind_some' (get_ch (show T.length - 1 < T.length by omega)), bind_some' hb1,
      bind_some' (get_ch (show T.length - 2 < T.length by omega)), hmark, bind_some' hput, bind_some' hs1, bind_some' hf1,
      bind_some' (getBuckets_stop hC 0 h0k), bind_some' hs2]
    rfl
  · obtain ⟨bp2, hI2, _⟩ := hd2.inv
    exact (keySorted_of h0 hk' hd2.size hI2).congr (fun p hp => flS_iff h0 hk' hp)

end Bwtc.Sais
