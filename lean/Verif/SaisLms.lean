import Verif.SaisPlace

/-!
# `LMSsort1` sorts the LMS substrings
-/

set_option autoImplicit false

namespace Bwtc.Sais
open Induce Suffix Classical

variable {T : List Nat}

/-- The value written for `p`: the position before, and `n` more if `p` is flagged. -/
noncomputable def vL (T : List Nat) (fl : Nat → Prop) (p : Nat) : Nat := p - 1 + if fl p then T.length else 0

/-- What the first pass writes for `p`. -/
noncomputable def stL1 (T : List Nat) (fl : Nat → Prop) (p : Nat) : Int :=
  if isL T (p - 1) then (vL T fl p : Int) else inv (vL T fl p)

/-- What the first pass leaves in the cell of `p`. -/
noncomputable def finL1 (T : List Nat) (fl : Nat → Prop) (p : Nat) : Int :=
  if isL T (p - 1) then 0 else (vL T fl p : Int)

/-- What the second pass finds or writes for `p`. -/
noncomputable def stS1 (T : List Nat) (fl : Nat → Prop) (p : Nat) : Int :=
  if isS T (p - 1) then (vL T fl p : Int) else if isL T p then 0 else inv ((p + if fl p then T.length else 0 : Nat) : Int)

/-- What the second pass leaves in the cell of `p`. -/
noncomputable def finS1 (T : List Nat) (fl : Nat → Prop) (p : Nat) : Int :=
  if isS T (p - 1) then 0 else if isL T p then 0 else inv ((p + if fl p then T.length else 0 : Nat) : Int)

/-- No flags. -/
def noFl : Nat → Prop := fun _ => False

theorem vL_no (p : Nat) : vL T noFl p = p - 1 := by unfold vL noFl; simp

/-- After `i` steps of the first pass of `LMSsort1`. -/
structure DoneL1 (T : List Nat) (k p0 i : Nat) (s : Pass) : Prop where
  size : s.sa.length = T.length
  inv : ∃ bp, (ordL1 T p0).sched.Inv (stL1 T noFl) (finL1 T noFl) (fun _ => 0) (fun _ => 0) i (fun r => s.sa[r]?) bp ∧
    Ptrs k s.B s.c1 s.b bp

/-- Behind the first LMS position `p0`, an L position has an L position or an S position not before `p0` in front. -/
theorem pred_gt {p0 q : Nat} (h0 : isLMS T p0) (h : p0 < q + 1) (hl : isL T q) : p0 < q := by
  by_cases e : p0 = q
  · subst e; exact absurd h0.1 (fun a => not_isL_isS hl a)
  · omega

theorem act_lt {p0 r : Nat} (h : (ordL1 T p0).src r ∨ (ordL1 T p0).tgt r) : p0 < r := by
  exact h.elim (fun a => a.2) (fun a => a.2)

theorem lms1StepL_spec {k p0 : Nat} (h0 : isLMS T p0) (hk : ∀ c ∈ T, c < k) {i : Nat} (hi : i < T.length) {s : Pass}
    (h : DoneL1 T k p0 i s) : ∃ s', lms1StepL T s i = some s' ∧ DoneL1 T k p0 (i + 1) s' := by
  obtain ⟨bp, hI, hP⟩ := h.inv
  have hsz := h.size
  have hset1 := fun v => get_set1 (A := s.sa) (v := v) (show i < s.sa.length by omega)
  have hp0 := isLMS_pos h0
  rcases hI.here hi with ⟨r, _, hr, hrt, hA⟩ | ⟨hno, hA⟩
  · have hrn : r < T.length := (ordL1 T p0).bound r hr
    have hr0 : p0 < r := act_lt hr
    by_cases hl : isL T (r - 1)
    · obtain ⟨q, rfl⟩ : ∃ q, r = q + 1 := ⟨r - 1, by omega⟩
      rw [show q + 1 - 1 = q by omega] at hl
      have hq0 := pred_gt h0 hr0 hl
      obtain ⟨h1, h2, h3, h4⟩ := hI.place hi (q := q) ⟨hl, hq0⟩ hrt
      have hkey : (ordL1 T p0).sched.key q = ch T q := rfl
      rw [hkey] at h1 h2 h3 h4
      have hst : stL1 T noFl (q + 1) = (q : Int) := by
        unfold stL1; rw [vL_no, show q + 1 - 1 = q by omega, if_pos hl]
      have hfin : finL1 T noFl (q + 1) = 0 := by
        unfold finL1; rw [show q + 1 - 1 = q by omega, if_pos hl]
      rw [hst] at hA
      have hmark : (if ch T (q - 1) < ch T q then Sais.inv (q - 1 : Nat) else ((q - 1 : Nat) : Int)) = stL1 T noFl q := by
        unfold stL1; rw [vL_no]
        have := pred_lt hl.1 (by omega) hl
        by_cases e : ch T (q - 1) < ch T q
        · rw [if_pos e, if_neg (fun a => this.mp a e)]
        · rw [if_neg e, if_pos (this.mpr e)]
      obtain ⟨B', b1, b2⟩ := switch_spec hP (c0 := ch T q) (ch_lt hk hl.1)
      have hset := get_set2 (A := s.sa) (v := stL1 T noFl q) (w := 0) (show bp (ch T q) < s.sa.length by omega)
        (show i < s.sa.length by omega) (by omega)
      refine ⟨⟨(s.sa.set (bp (ch T q)) (stL1 T noFl q)).set i 0, B', ch T q, bp (ch T q) + 1⟩, ?_, ⟨?_, ?_⟩⟩
      · unfold lms1StepL
        rw [bind_some' hA]
        simp only
        rw [if_pos (by omega)]
        simp only [Int.toNat_natCast]
        rw [bind_some' (get_ch hl.1), bind_some' b1, bind_some' (get_ch (show q - 1 < T.length by omega)), hmark,
          bind_some' (put_spec (by omega) _)]
        rfl
      · simp only [List.length_set]; exact hsz
      · refine ⟨fun c => if c = ch T q then bp (ch T q) + 1 else bp c, ?_, b2 _⟩
        apply h4
        · rw [hfin]; exact hset.2.1
        · exact hset.1
        · exact fun r a b => hset.2.2 r b a
        · exact if_pos rfl
        · intro c hc; exact if_neg hc
    · have hnoq : ∀ q, (ordL1 T p0).sched.tgt q → q + 1 ≠ r := by
        intro q hq e
        have hq' : isL T q := hq.1
        exact hl (by rw [← e]; exact hq')
      have hst : stL1 T noFl r = Sais.inv ((r - 1 : Nat) : Int) := by
        unfold stL1; rw [vL_no, if_neg hl]
      have hfin : finL1 T noFl r = ((r - 1 : Nat) : Int) := by
        unfold finL1; rw [vL_no, if_neg hl]
      rw [hst] at hA
      refine ⟨{ s with sa := s.sa.set i ((r - 1 : Nat) : Int) }, ?_, ⟨?_, ⟨bp, ?_, hP⟩⟩⟩
      · unfold lms1StepL
        rw [bind_some' hA]
        simp only
        rw [if_neg (by unfold Sais.inv; omega), if_pos (by unfold Sais.inv; omega), inv_inv]; rfl
      · simp only [List.length_set]; exact hsz
      · apply hI.skip hr hrt hnoq
        · rw [hfin]; exact (hset1 _).1
        · exact (hset1 _).2
  · refine ⟨s, ?_, ⟨hsz, ⟨bp, ?_, hP⟩⟩⟩
    · unfold lms1StepL
      rw [bind_some' hA]
      simp only
      rw [if_neg (by omega), if_neg (by omega)]; rfl
    · exact hI.pass hno _ hA (fun _ _ => rfl)

/-- After `t` steps of the second pass of `LMSsort1`. -/
structure DoneS1 (T : List Nat) (k p0 : Nat) (hk : ∀ p, p < T.length → ch T p < k) (t : Nat) (s : Pass) : Prop where
  size : s.sa.length = T.length
  inv : ∃ bp, (ordS1 T p0 k hk).sched.Inv (stS1 T noFl) (finS1 T noFl) (fun _ => 0) (fun _ => 0) t (rev T.length s.sa)
    (fun c => T.length - bp (k - 1 - c)) ∧ Ptrs k s.B s.c1 s.b bp

theorem lms1StepS_spec {k p0 : Nat} (h0 : isLMS T p0) (hk : ∀ p, p < T.length → ch T p < k) {t : Nat} (ht : t < T.length)
    {s : Pass} (h : DoneS1 T k p0 hk t s) :
    ∃ s', lms1StepS T s (T.length - 1 - t) = some s' ∧ DoneS1 T k p0 hk (t + 1) s' := by
  obtain ⟨bp, hI, hP⟩ := h.inv
  have hsz := h.size
  have hp0 := isLMS_pos h0
  have hp0p := lms_pred_isL h0
  rcases hI.here ht with ⟨r, hpl, hr, hrt, hA⟩ | ⟨hno, hA⟩
  · have hrn : r < T.length := (ordS1 T p0 k hk).bound r hr
    have hr0 : p0 ≤ r := by exact hr.elim (fun a => Nat.le_of_lt a.2) (fun a => a.2)
    have hget : s.sa[T.length - 1 - t]? = some (stS1 T noFl r) := by
      unfold rev at hA; rwa [if_pos ht] at hA
    by_cases hs : isS T (r - 1)
    · have hst : stS1 T noFl r = ((r - 1 : Nat) : Int) := by unfold stS1; rw [if_pos hs, vL_no]
      have hne : r ≠ p0 := fun e => by rw [e] at hs; exact not_isL_isS hp0p.2 hs
      obtain ⟨q, rfl⟩ : ∃ q, r = q + 1 := ⟨r - 1, by omega⟩
      rw [show q + 1 - 1 = q by omega] at hs hst
      have hqn : q < T.length := by omega
      rw [hst] at hget
      obtain ⟨h1, h2, h3, h4⟩ := hI.place ht (q := q) ⟨hs, by omega⟩ hrt
      have hkey : (ordS1 T p0 k hk).sched.key q = k - 1 - ch T q := rfl
      have hcq := hk q hqn
      rw [hkey] at h1 h2 h3 h4
      simp only [show k - 1 - (k - 1 - ch T q) = ch T q by omega] at h1 h2 h3 h4
      have hbpos : bp (ch T q) ≠ 0 := by omega
      have hble : bp (ch T q) ≤ T.length := by omega
      have hfin : finS1 T noFl (q + 1) = 0 := by unfold finS1; rw [show q + 1 - 1 = q by omega, if_pos hs]
      have hmark : (if ch T q < ch T (q - 1) then Sais.inv (q : Nat) else ((q - 1 : Nat) : Int)) = stS1 T noFl q := by
        have hSp : isS T (q - 1) ↔ ch T (q - 1) ≤ ch T q := by
          obtain ⟨u, rfl⟩ : ∃ u, q = u + 1 := ⟨q - 1, by omega⟩
          rw [show u + 1 - 1 = u by omega]; exact S_pred hs
        unfold stS1
        rw [vL_no]
        by_cases e : ch T q < ch T (q - 1)
        · rw [if_pos e, if_neg (fun a => by have := hSp.mp a; omega), if_neg (fun a => not_isL_isS a hs)]
          unfold noFl; simp
        · rw [if_neg e, if_pos (hSp.mpr (by omega))]
      obtain ⟨B', b1, b2⟩ := switch_spec hP (c0 := ch T q) hcq
      have hset := rev_set2 (t := T.length - bp (ch T q)) (u := t) (v := stS1 T noFl q) (w := 0) hsz (by omega) ht (by omega)
      have hbi : T.length - 1 - (T.length - bp (ch T q)) = bp (ch T q) - 1 := by omega
      rw [hbi] at hset
      refine ⟨⟨(s.sa.set (bp (ch T q) - 1) (stS1 T noFl q)).set (T.length - 1 - t) 0, B', ch T q, bp (ch T q) - 1⟩, ?_, ⟨?_, ?_⟩⟩
      · unfold lms1StepS
        rw [bind_some' hget, if_pos (by omega)]
        simp only [Int.toNat_natCast]
        rw [bind_some' (get_ch hqn), bind_some' b1]
        simp only
        rw [bind_some' (get_ch (show q - 1 < T.length by omega)), if_neg hbpos, hmark, bind_some' (put_spec (by omega) _)]
        rfl
      · simp only [List.length_set]; exact hsz
      · refine ⟨fun c => if c = ch T q then bp (ch T q) - 1 else bp c, ?_, b2 _⟩
        have := h4 (rev T.length ((s.sa.set (bp (ch T q) - 1) (stS1 T noFl q)).set (T.length - 1 - t) 0))
          (fun c => if c = k - 1 - ch T q then T.length - bp (ch T q) + 1 else T.length - bp (k - 1 - c))
          (by rw [hfin]; exact hset.2.1) hset.1 (fun r a b => hset.2.2 r b a)
          (by simp only [if_true])
          (by intro c hc; exact if_neg hc)
        refine ⟨?_, this.full, this.other, this.dom⟩
        intro p hp
        have hf := this.free p hp
        have hkp := hk p hp.1.1
        have hkeyp : (ordS1 T p0 k hk).sched.key p = k - 1 - ch T p := rfl
        rw [hkeyp] at hf ⊢
        rw [← hf]
        simp only [show k - 1 - (k - 1 - ch T p) = ch T p by omega]
        by_cases ec : ch T p = ch T q
        · rw [if_pos ec, if_pos (by omega)]; omega
        · rw [if_neg ec, if_neg (by omega)]
    · have hfs : finS1 T noFl r = stS1 T noFl r := by unfold finS1 stS1; rw [if_neg hs, if_neg hs]
      have hneg : ¬ 0 < stS1 T noFl r := by
        unfold stS1
        rw [if_neg hs]
        split
        · omega
        · unfold Sais.inv; omega
      refine ⟨s, ?_, ⟨hsz, ⟨bp, ?_, hP⟩⟩⟩
      · unfold lms1StepS
        rw [bind_some' hget, if_neg hneg]
        rfl
      · apply hI.skip hr hrt
        · intro q' hq' e'
          have hq'' : isS T q' := hq'.1
          exact hs (by rw [← e']; exact hq'')
        · rw [hfs]; exact hA
        · exact fun _ _ => rfl
  · refine ⟨s, ?_, ⟨hsz, ⟨bp, ?_, hP⟩⟩⟩
    · have hget : s.sa[T.length - 1 - t]? = some 0 := by
        unfold rev at hA; rwa [if_pos ht] at hA
      unfold lms1StepS
      rw [bind_some' hget, if_neg (by omega)]; rfl
    · exact hI.pass hno _ hA (fun _ _ => rfl)

/-- The slots of the L positions in the two passes. -/
theorem time_LS {k p0 p : Nat} (hk : ∀ p, p < T.length → ch T p < k) (hp : isL T p) (h : p0 < p) :
    (ordS1 T p0 k hk).time p + (ordL1 T p0).time p = T.length + 1 := by
  have hkp := hk p hp.1
  have hS : (ordS1 T p0 k hk).time p = (ordS1 T p0 k hk).stop ((ordS1 T p0 k hk).ch p) - _ :=
    (ordS1 T p0 k hk).time_src (p := p) ⟨hp, h⟩
  have hL : (ordL1 T p0).time p = (ordL1 T p0).start ((ordL1 T p0).ch p) + 1 + _ := (ordL1 T p0).time_tgt (p := p) ⟨hp, h⟩
  have h1 : cnt T.length (fun q => (ordS1 T p0 k hk).src q ∧ (ordS1 T p0 k hk).ch q = (ordS1 T p0 k hk).ch p ∧
      (ordS1 T p0 k hk).lt p q) = cnt T.length (fun q => (ordL1 T p0).tgt q ∧ (ordL1 T p0).ch q = (ordL1 T p0).ch p ∧
      (ordL1 T p0).lt q p) := by
    apply cnt_congr
    intro q hq
    have hkq := hk q hq
    show (isL T q ∧ p0 < q) ∧ k - 1 - ch T q = k - 1 - ch T p ∧ keyS T q < keyS T p ↔
      (isL T q ∧ p0 < q) ∧ ch T q = ch T p ∧ walk T q < walk T p
    constructor
    · rintro ⟨a, b, c⟩
      refine ⟨a, by omega, ?_⟩
      rw [walk_keyS hq (not_lms_L a.1), walk_keyS hp.1 (not_lms_L hp)]; exact c
    · rintro ⟨a, b, c⟩
      refine ⟨a, by omega, ?_⟩
      rw [walk_keyS hq (not_lms_L a.1), walk_keyS hp.1 (not_lms_L hp)] at c; exact c
  have h2 : (ordS1 T p0 k hk).stop ((ordS1 T p0 k hk).ch p) = cnt T.length (fun q => ch T p ≤ ch T q) := by
    apply cnt_congr
    intro q hq
    have hkq := hk q hq
    show k - 1 - ch T q ≤ k - 1 - ch T p ↔ _
    omega
  have h3 : (ordL1 T p0).start ((ordL1 T p0).ch p) = cnt T.length (fun q => ch T q < ch T p) := rfl
  have h4 := cnt_or (n := T.length) (P := fun q => ch T q < ch T p) (Q := fun q => ch T p ≤ ch T q)
    (R := fun _ => True) (fun q _ => by simp only [true_iff]; omega) (fun q _ a b => by omega)
  rw [cnt_true (fun _ _ => trivial)] at h4
  have h5 : cnt T.length (fun q => (ordL1 T p0).tgt q ∧ (ordL1 T p0).ch q = (ordL1 T p0).ch p ∧
      (ordL1 T p0).lt q p) ≤ cnt T.length (fun q => ch T p ≤ ch T q) :=
    cnt_le (fun q _ a => by
      have : ch T q = ch T p := a.2.1
      omega)
  rw [h1, h2] at hS
  rw [h3] at hL
  omega

/-- After the first pass, the second one can start. -/
theorem initS1 {k p0 : Nat} (hk : ∀ p, p < T.length → ch T p < k) {sa : List Int}
    {st : Nat → Int} (fin : Nat → Int) (hlen : sa.length = T.length)
    (hL : ∀ p, isL T p → p0 < p → sa[(ordL1 T p0).time p - 1]? = some (st p))
    (hother : ∀ r, r < T.length → (∀ p, isL T p → p0 < p → (ordL1 T p0).time p ≠ r + 1) → sa[r]? = some 0) :
    (ordS1 T p0 k hk).sched.Inv st fin (fun _ => 0) (fun _ => 0) 0 (rev T.length sa)
      (fun c => T.length - cnt T.length (fun q => ch T q ≤ k - 1 - c)) := by
  apply Order.init_none
  · intro p hp
    have := isS_next hp.1
    omega
  · intro p hp
    have h1 := time_LS (k := k) hk hp.1 hp.2
    have h2 := (ordS1 T p0 k hk).act_range (Or.inl hp)
    have h3 := (ordL1 T p0).act_range (p := p) (Or.inr hp)
    unfold rev
    rw [if_pos (by omega), show T.length - 1 - ((ordS1 T p0 k hk).time p - 1) = (ordL1 T p0).time p - 1 by omega]
    exact hL p hp.1 hp.2
  · intro r hr hne
    unfold rev
    rw [if_pos hr]
    apply hother _ (by omega)
    intro p hp hp0 e
    have h1 := time_LS (k := k) hk hp hp0
    exact hne p ⟨hp, hp0⟩ (by omega)
  · intro p hp
    have hkp := hk p hp.1.1
    have hkey : (ordS1 T p0 k hk).ch p = k - 1 - ch T p := rfl
    have h1 : (ordS1 T p0 k hk).start (k - 1 - ch T p) = cnt T.length (fun q => ch T p < ch T q) := by
      apply cnt_congr
      intro q hq
      have hkq := hk q hq
      show k - 1 - ch T q < k - 1 - ch T p ↔ _
      omega
    have h2 := cnt_or (n := T.length) (P := fun q => ch T p < ch T q) (Q := fun q => ch T q ≤ ch T p)
      (R := fun _ => True) (fun q _ => by simp only [true_iff]; omega) (fun q _ a b => by omega)
    rw [cnt_true (fun _ _ => trivial)] at h2
    rw [hkey, h1, show k - 1 - (k - 1 - ch T p) = ch T p by omega]
    omega

/-- The complements of the LMS positions (with the flags `fl`) stand in the order of the LMS substrings, all other
cells are zero. -/
def KeySorted (T : List Nat) (fl : Nat → Prop) (sa : List Int) : Prop :=
  sa.length = T.length ∧ ∃ f : Nat → Nat, (∀ q, isLMS T q → f q < T.length ∧
    sa[f q]? = some (inv ((q + if fl q then T.length else 0 : Nat) : Int))) ∧
    (∀ p q, isLMS T p → isLMS T q → (f p < f q ↔ keyS T p < keyS T q)) ∧
    ∀ r, r < T.length → (∀ q, isLMS T q → f q ≠ r) → sa[r]? = some 0

/-- What the second pass leaves. -/
theorem keySorted_of {k p0 : Nat} (h0 : FirstLMS T 0 p0) (hk : ∀ p, p < T.length → ch T p < k) {fl : Nat → Prop} {sa : List Int}
    (hlen : sa.length = T.length) {ptr : Nat → Nat}
    (h : (ordS1 T p0 k hk).sched.Inv (stS1 T fl) (finS1 T fl) (fun _ => 0) (fun _ => 0) T.length (rev T.length sa) ptr) :
    KeySorted T fl sa := by
  have hact : ∀ q, isLMS T q → (ordS1 T p0 k hk).tgt q := fun q hq => ⟨hq.1, h0.2.2 q hq (isLMS_pos hq)⟩
  have hrange : ∀ q, isLMS T q → 0 < (ordS1 T p0 k hk).time q ∧ (ordS1 T p0 k hk).time q ≤ T.length :=
    fun q hq => (ordS1 T p0 k hk).sched.range q (Or.inr (hact q hq))
  refine ⟨hlen, fun q => T.length - (ordS1 T p0 k hk).time q, ?_, ?_, ?_⟩
  · intro q hq
    have hr := hrange q hq
    refine ⟨by simp only; omega, ?_⟩
    have := h.done (Or.inr (hact q hq))
    have ht : (ordS1 T p0 k hk).sched.time q = (ordS1 T p0 k hk).time q := rfl
    rw [ht] at this
    unfold rev at this
    rw [if_pos (by omega), show T.length - 1 - ((ordS1 T p0 k hk).time q - 1) = T.length - (ordS1 T p0 k hk).time q by omega] at this
    rw [this]
    have hp := lms_pred_isL hq
    unfold finS1
    rw [if_neg (fun a => not_isL_isS hp.2 a), if_neg (fun a => not_isL_isS a hq.1)]
  · intro p q hp hq
    have h1 := hrange p hp
    have h2 := hrange q hq
    have h3 := (ordS1 T p0 k hk).time_lt_iff (Or.inr (hact q hq)) (Or.inr (hact p hp))
    have h4 : (ordS1 T p0 k hk).lt q p ↔ keyS T p < keyS T q := Iff.rfl
    rw [← h4, ← h3]
    simp only
    omega
  · intro r hr hne
    by_cases hex : ∃ p, ((ordS1 T p0 k hk).src p ∨ (ordS1 T p0 k hk).tgt p) ∧ (ordS1 T p0 k hk).time p = T.length - 1 - r + 1
    · obtain ⟨p, hp, ht⟩ := hex
      have hd := h.done hp
      have ht' : (ordS1 T p0 k hk).sched.time p = (ordS1 T p0 k hk).time p := rfl
      rw [ht', ht] at hd
      unfold rev at hd
      rw [if_pos (by omega), show T.length - 1 - (T.length - 1 - r + 1 - 1) = r by omega] at hd
      rw [hd]
      congr 1
      unfold finS1
      by_cases hs : isS T (p - 1)
      · rw [if_pos hs]
      · rw [if_neg hs]
        by_cases hl : isL T p
        · rw [if_pos hl]
        · exfalso
          have hpn := (ordS1 T p0 k hk).bound p hp
          have hps : isS T p := (not_isL hpn).mp hl
          have hpp : 0 < p := by
            have : p0 ≤ p := by exact hp.elim (fun a => Nat.le_of_lt a.2) (fun a => a.2)
            have := isLMS_pos h0.1
            omega
          have hlms : isLMS T p := ⟨hps, p - 1, by omega, (not_isS (by omega)).mp hs⟩
          exact hne p hlms (by simp only; omega)
    · have := h.other (T.length - 1 - r) (by omega) (fun p hp e => hex ⟨p, hp, e⟩)
      unfold rev at this
      rw [if_pos (by omega), show T.length - 1 - (T.length - 1 - r) = r by omega] at this
      rw [this]
      simp

/-- The array at the beginning of the first pass. -/
theorem initL1 {p0 : Nat} (h0 : isLMS T p0) {fl : Nat → Prop} (fin : Nat → Int) {sa : List Int}
    (hlen : sa.length = T.length)
    (hsrc : ∀ q, isLMS T q → p0 < q → sa[lslot T q - 1]? = some (vL T fl q : Int))
    (hoth : ∀ r, r < T.length → (∀ q, isLMS T q → p0 < q → lslot T q ≠ r + 1) → sa[r]? = some 0) :
    cnt T.length (fun q => ch T q < ch T (T.length - 1)) < T.length ∧
    (ordL1 T p0).sched.Inv (stL1 T fl) fin (fun _ => 0) (fun _ => 0) 0
      (fun r => (sa.set (cnt T.length (fun q => ch T q < ch T (T.length - 1))) (stL1 T fl (T.length - 1)))[r]?)
      (fun c => if c = ch T (T.length - 1) then cnt T.length (fun q => ch T q < ch T (T.length - 1)) + 1
        else cnt T.length (fun q => ch T q < c)) := by
  have hp0 := isS_next h0.1
  have hlast : (ordL1 T p0).tgt (T.length - 1) := ⟨isL_last (by omega), by omega⟩
  have hs : (ordL1 T p0).start ((ordL1 T p0).ch (T.length - 1)) = cnt T.length (fun q => ch T q < ch T (T.length - 1)) := rfl
  have hlt : cnt T.length (fun q => ch T q < ch T (T.length - 1)) < T.length := by
    have := (ordL1 T p0).act_range (Or.inr hlast)
    have h2 := (ordL1 T p0).stop_le ((ordL1 T p0).ch (T.length - 1))
    rw [hs] at this
    omega
  refine ⟨hlt, ?_⟩
  have hset := get_set1 (A := sa) (i := cnt T.length (fun q => ch T q < ch T (T.length - 1))) (v := stL1 T fl (T.length - 1))
    (by omega)
  apply (ordL1 T p0).init_last hlast (A := fun r => sa[r]?)
  · intro p hp
    rw [time_lslot hp.1 hp.2]
    have := lms_pred_isL hp.1
    unfold stL1
    rw [if_pos this.2]
    exact hsrc p hp.1 hp.2
  · intro r hr hne
    apply hoth r hr
    intro q hq hlt e
    exact hne q ⟨hq, hlt⟩ (by rw [time_lslot hq hlt]; exact e)
  · exact hset.1
  · exact hset.2

/-- `LMSsort1`. -/
theorem lmsSort1_spec {k p0 : Nat} (h0 : FirstLMS T 0 p0) (hk : ∀ c ∈ T, c < k) {same recount : Bool} {C : List Nat}
    (hC : recount = true ∨ (same = false ∧ Counts T k C)) {sa : List Int} (hlen : sa.length = T.length)
    (hsrc : ∀ q, isLMS T q → p0 < q → sa[lslot T q - 1]? = some ((q - 1 : Nat) : Int))
    (hoth : ∀ r, r < T.length → (∀ q, isLMS T q → p0 < q → lslot T q ≠ r + 1) → sa[r]? = some 0) :
    ∃ sa' C', lmsSort1 T k same recount C sa = some (sa', C') ∧ KeySorted T noFl sa' ∧
      (same = false → Counts T k C') := by
  have hk' : ∀ p, p < T.length → ch T p < k := fun p hp => ch_lt hk hp
  have hp0 := isS_next h0.1.1
  have hpos := isLMS_pos h0.1
  obtain ⟨C1, hc1, hC1⟩ := recounted_spec T k hk recount C (hC.imp id (fun h => h.2))
  have hlast : isL T (T.length - 1) := isL_last (by omega)
  have hcl := hk' (T.length - 1) (by omega)
  have hb1 := getBuckets_start hC1 (ch T (T.length - 1)) hcl
  obtain ⟨hblt, hI0⟩ := initL1 h0.1 (fl := noFl) (finL1 T noFl) hlen
    (fun q a b => by rw [hsrc q a b, vL_no]) hoth
  have hput := put_spec (A := sa) (by rw [hlen]; exact hblt) (stL1 T noFl (T.length - 1))
  have hmark : (if ch T (T.length - 2) < ch T (T.length - 1) then Sais.inv (T.length - 2 : Nat)
      else ((T.length - 2 : Nat) : Int)) = stL1 T noFl (T.length - 1) := by
    unfold stL1
    rw [vL_no]
    have := pred_lt hlast.1 (by omega) hlast
    rw [show T.length - 1 - 1 = T.length - 2 by omega] at this ⊢
    by_cases e : ch T (T.length - 2) < ch T (T.length - 1)
    · rw [if_pos e, if_neg (fun a => this.mp a e)]
    · rw [if_neg e, if_pos (this.mpr e)]
  have hstart : DoneL1 T k p0 0
      ⟨sa.set (cnt T.length (fun q => ch T q < ch T (T.length - 1))) (stL1 T noFl (T.length - 1)), getBuckets C1 false,
        ch T (T.length - 1), cnt T.length (fun q => ch T q < ch T (T.length - 1)) + 1⟩ := by
    refine ⟨?_, ⟨_, hI0, ?_⟩⟩
    · simp only [List.length_set]; exact hlen
    · exact Ptrs.init (by rw [getBuckets_length, hC1.1]) hcl (fun c hc => getBuckets_start hC1 c hc) _
  obtain ⟨s1, hs1, hd1⟩ := loopUp_spec (f := lms1StepL T) (DoneL1 T k p0) T.length 0 _
    (fun j s _ hj hs => lms1StepL_spec h0.1 hk (by omega) hs) hstart
  rw [Nat.zero_add] at hd1
  obtain ⟨C2, hc2, hC2⟩ := recounted_spec T k hk recount (if same then s1.B else C1)
    (hC.imp id (fun h => by rw [h.1]; exact hC1))
  obtain ⟨bp, hI, _⟩ := hd1.inv
  have h0k : 0 < k := by omega
  have hstart2 : DoneS1 T k p0 hk' 0 ⟨s1.sa, getBuckets C2 true, 0, cnt T.length (fun q => ch T q ≤ 0)⟩ := by
    refine ⟨hd1.size, ⟨fun c => cnt T.length (fun q => ch T q ≤ c), initS1 hk' _ hd1.size ?_ ?_, ?_⟩⟩
    · intro p hp hlt
      have := hI.done (Or.inr ⟨hp, hlt⟩)
      have ht : (ordL1 T p0).sched.time p = (ordL1 T p0).time p := rfl
      rw [ht] at this
      rw [this]
      congr 1
      unfold finL1 stS1
      have hpn := hp.1
      by_cases e : isL T (p - 1)
      · rw [if_pos e, if_neg (fun a => not_isL_isS e a), if_pos hp]
      · rw [if_neg e, if_pos ((not_isL (by omega)).mp e)]
    · intro r hr hne
      by_cases hex : ∃ p, isLMS T p ∧ p0 < p ∧ (ordL1 T p0).time p = r + 1
      · obtain ⟨p, hp, hlt, ht⟩ := hex
        have := hI.done (p := p) (Or.inl ⟨hp, hlt⟩)
        have ht' : (ordL1 T p0).sched.time p = (ordL1 T p0).time p := rfl
        rw [ht', ht, show r + 1 - 1 = r by omega] at this
        rw [this]
        congr 1
        unfold finL1
        rw [if_pos (lms_pred_isL hp).2]
      · have := hI.other r hr (by
          intro p hp e
          rcases hp with hp | hp
          · exact hex ⟨p, hp.1, hp.2, e⟩
          · exact hne p hp.1 hp.2 e)
        rw [this]; simp
    · exact Ptrs.init' (by rw [getBuckets_length, hC2.1]) h0k (fun c hc => getBuckets_stop hC2 c hc)
  obtain ⟨s2, hs2, hd2⟩ := loopDown_spec (f := lms1StepS T) T.length (DoneS1 T k p0 hk') T.length
    (Nat.le_refl _) _ (fun t s ht hs => lms1StepS_spec h0.1 hk' ht hs) (by rw [Nat.sub_self]; exact hstart2)
  refine ⟨s2.sa, if same then s2.B else C2, ?_, ?_, ?_⟩
  · unfold lmsSort1
    simp only
    rw [bind_some' hc1, if_neg (by omega), bind_some' (get_ch (show T.length - 1 < T.length by omega)), bind_some' hb1,
      bind_some' (get_ch (show T.length - 2 < T.length by omega)), hmark, bind_some' hput, bind_some' hs1, bind_some' hc2,
      bind_some' (getBuckets_stop hC2 0 h0k), bind_some' hs2]
    rfl
  · obtain ⟨bp2, hI2, _⟩ := hd2.inv
    exact keySorted_of h0 hk' hd2.size hI2
  · intro e
    rw [e]; exact hC2

end Bwtc.Sais
