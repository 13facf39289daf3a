import Verif.SaisClass

/-!
# `LMSsort2` sorts the LMS substrings and marks the last one of each class
-/

set_option autoImplicit false

namespace Bwtc.Sais
open Induce Suffix Classical

variable {T : List Nat}

/-! ## The classes of the two passes -/

theorem walkX_cons {r : Nat} (hr : r < T.length) : ∃ l, walkX T r = tc T r :: l := by
  by_cases l : isLMS T r
  · rw [walkX_lms l]; exact ⟨_, rfl⟩
  · rw [walkX_step hr l]; exact ⟨_, rfl⟩

theorem walkX_mono {p q : Nat} (hp : isLMS T p ∨ isL T p) (hq : isLMS T q ∨ isL T q) (h : walk T p < walk T q) :
    walkX T p < walkX T q ∨ walkX T p = walkX T q := by
  have hpn : p < T.length := hp.elim (fun a => a.1.1) (fun a => a.1)
  have hqn : q < T.length := hq.elim (fun a => a.1.1) (fun a => a.1)
  rcases hp with hp | hp
  · rcases hq with hq | hq
    · rw [walk_lms hp, walk_lms hq, List.cons_lt_cons_iff] at h
      rw [walkX_lms hp, walkX_lms hq, List.cons_lt_cons_iff]
      rcases h with h | h
      · exact Or.inl (Or.inl h)
      · exact Or.inr (by rw [h.1])
    · rw [walk_lms hp, walk_step hqn (not_lms_L hq), List.cons_lt_cons_iff] at h
      rw [walkX_lms hp, walkX_step hqn (not_lms_L hq), List.cons_lt_cons_iff]
      rcases h with h | h
      · exact Or.inl (Or.inl h)
      · exact absurd h.1.symm (L_ne_S hq hp.1)
  · rcases hq with hq | hq
    · rw [walk_lms hq, walk_step hpn (not_lms_L hp), List.cons_lt_cons_iff] at h
      rw [walkX_lms hq, walkX_step hpn (not_lms_L hp), List.cons_lt_cons_iff]
      rcases h with h | h
      · exact Or.inl (Or.inl h)
      · exact absurd h.1 (L_ne_S hp hq.1)
    · rw [walk_keyS hpn (not_lms_L hp), walk_keyS hqn (not_lms_L hq)] at h
      rw [walkX_keyX hpn (not_lms_L hp), walkX_keyX hqn (not_lms_L hq)]
      exact keyX_of_keyS hpn hqn h

theorem list_mid {a b c : List Nat} (h1 : a < b ∨ a = b) (h2 : b < c ∨ b = c) (h : a = c) : b = a := by
  subst h
  rcases h1 with h1 | h1
  · rcases h2 with h2 | h2
    · exact absurd (List.lt_trans h1 h2) (List.lt_irrefl _)
    · exact h2
  · exact h1.symm

/-- The classes in the first pass. -/
noncomputable def clsL (T : List Nat) (p0 : Nat) : Cls (ordL1 T p0).sched where
  xc := walkX T
  w r := isS T (r - 1)
  tk q := 2 * ch T q + if isS T (q - 1) then 1 else 0
  contig a b c ha hb hc h1 h2 h := by
    have key : ∀ x y, ((ordL1 T p0).src x ∨ (ordL1 T p0).tgt x) → ((ordL1 T p0).src y ∨ (ordL1 T p0).tgt y) →
        (ordL1 T p0).time x ≤ (ordL1 T p0).time y → walkX T x < walkX T y ∨ walkX T x = walkX T y := by
      intro x y hx hy hle
      by_cases e : (ordL1 T p0).time x = (ordL1 T p0).time y
      · exact Or.inr (by rw [(ordL1 T p0).time_inj hx hy e])
      · exact walkX_mono (hx.imp And.left And.left) (hy.imp And.left And.left)
          (((ordL1 T p0).time_lt_iff hx hy).mp (by omega))
    exact list_mid (key a b ha hb h1) (key b c hb hc h2) h
  step p q hp hq _ _ := by
    rw [walkX_step hp.1.1 (not_lms_L hp.1), walkX_step hq.1.1 (not_lms_L hq.1), List.cons.injEq, tc_L hp.1, tc_L hq.1]
    show _ ↔ ch T p = ch T q ∧ _
    constructor
    · rintro ⟨a, b⟩; exact ⟨by omega, b⟩
    · rintro ⟨a, b⟩; exact ⟨by omega, b⟩
  tgtc p q hq hp h := by
    have hpn := (ordL1 T p0).bound p hp
    obtain ⟨l1, e1⟩ := walkX_cons (T := T) hpn
    obtain ⟨l2, e2⟩ := walkX_cons (T := T) hq.1.1
    rw [e1, e2, List.cons.injEq] at h
    exact ⟨tc_eq_L hq.1 hpn h.1.symm, act_lt hp⟩
  last p q hq hqn hp h := by
    intro e
    have hpn := (ordL1 T p0).bound p hp
    have hqn' := hq.1.1
    have hlast : isL T p := isL_last e
    rw [walkX_step hpn (not_lms_L hlast), walkX_step hqn' (not_lms_L hq.1), walkX_end (p := p + 1) (by omega)] at h
    obtain ⟨l, e2⟩ := walkX_cons (T := T) (r := q + 1) (by omega)
    rw [e2] at h
    simp at h
  wtgt q hq _ := by
    rw [show q + 1 - 1 = q by omega]
    exact fun a => not_isL_isS hq.1 a
  tkeq p q hp hq := by
    show _ ↔ ch T p = ch T q ∧ _
    by_cases a : isS T (p - 1) <;> by_cases b : isS T (q - 1) <;> simp only [a, b, if_true, if_false, iff_true, iff_false, true_iff, false_iff, not_true_eq_false, not_false_eq_true, and_true, and_false, iff_self] <;> omega

/-- The classes in the second pass. -/
noncomputable def clsS (T : List Nat) (p0 k : Nat) (hk : ∀ p, p < T.length → ch T p < k) : Cls (ordS1 T p0 k hk).sched where
  xc := keyX T
  w r := isL T (r - 1)
  tk q := 2 * ch T q + if isL T (q - 1) then 1 else 0
  contig a b c ha hb hc h1 h2 h := by
    have key : ∀ x y, ((ordS1 T p0 k hk).src x ∨ (ordS1 T p0 k hk).tgt x) → ((ordS1 T p0 k hk).src y ∨ (ordS1 T p0 k hk).tgt y) →
        (ordS1 T p0 k hk).time x ≤ (ordS1 T p0 k hk).time y → keyX T y < keyX T x ∨ keyX T y = keyX T x := by
      intro x y hx hy hle
      by_cases e : (ordS1 T p0 k hk).time x = (ordS1 T p0 k hk).time y
      · exact Or.inr (by rw [(ordS1 T p0 k hk).time_inj hx hy e])
      · exact keyX_of_keyS ((ordS1 T p0 k hk).bound y hy) ((ordS1 T p0 k hk).bound x hx)
          (((ordS1 T p0 k hk).time_lt_iff hx hy).mp (by omega))
    have := list_mid (key b c hb hc h2) (key a b ha hb h1) h.symm
    rw [this, h]
  step p q hp hq _ _ := by
    have hp1 := isS_next hp.1
    have hq1 := isS_next hq.1
    have hkp := hk p hp.1.1
    have hkq := hk q hq.1.1
    rw [← walkX_keyX hp1 (not_lms_afterS hp.1), ← walkX_keyX hq1 (not_lms_afterS hq.1)]
    unfold keyX
    rw [List.cons.injEq, tc_S hp.1, tc_S hq.1]
    show _ ↔ k - 1 - ch T p = k - 1 - ch T q ∧ _
    constructor
    · rintro ⟨a, b⟩; exact ⟨by omega, b⟩
    · rintro ⟨a, b⟩; exact ⟨by omega, b⟩
  tgtc p q hq hp h := by
    have hpn := (ordS1 T p0 k hk).bound p hp
    unfold keyX at h
    rw [List.cons.injEq] at h
    refine ⟨tc_eq_S hq.1 hpn h.1.symm, ?_⟩
    exact hp.elim (fun a => Nat.le_of_lt a.2) (fun a => a.2)
  last p q hq hqn hp h := by
    have hpn := (ordS1 T p0 k hk).bound p hp
    unfold keyX at h
    rw [List.cons.injEq] at h
    have := isS_next (tc_eq_S hq.1 hpn h.1.symm)
    omega
  wtgt q hq _ := by
    rw [show q + 1 - 1 = q by omega]
    exact fun a => not_isL_isS a hq.1
  tkeq p q hp hq := by
    have hkp := hk p hp.1.1
    have hkq := hk q hq.1.1
    show _ ↔ k - 1 - ch T p = k - 1 - ch T q ∧ _
    by_cases a : isL T (p - 1) <;> by_cases b : isL T (q - 1) <;> simp only [a, b, if_true, if_false, iff_true, iff_false, true_iff, false_iff, not_true_eq_false, not_false_eq_true, and_true, and_false, iff_self] <;> omega

/-! ## One step -/

theorem unflag_spec {n d q : Nat} {f : Prop} [Decidable f] (hq : q < n) :
    unflag n d (q + if f then n else 0) = (d + (if f then 1 else 0), q) := by
  unfold unflag
  by_cases h : f
  · rw [if_pos h, if_pos h, if_pos (by omega)]
    congr 1; omega
  · rw [if_neg h, if_neg h, if_neg (by omega)]
    rfl

theorem flag_spec {n : Nat} {D : List Nat} {d c0 : Nat} {w : Bool} {j x t : Nat} {f : Prop} [Decidable f]
    (ht : 2 * c0 + (if w then 1 else 0) = t) (hx : D[t]? = some x) (hf : x ≠ d ↔ f) :
    flag n D d c0 w j = some (D.set t d, j + if f then n else 0) := by
  unfold flag
  simp only
  rw [ht, bind_some' hx]
  by_cases h : x ≠ d
  · rw [if_pos h, if_pos (hf.mp h)]; rfl
  · rw [if_neg h, if_neg (fun a => h (hf.mpr a))]
    have : x = d := Classical.byContradiction h
    rw [← this]
    have hs : D.set t x = D := by
      obtain ⟨h1, h2⟩ := List.getElem?_eq_some_iff.mp hx
      rw [← h2, List.set_getElem_self]
    rw [hs]; rfl

/-- After `i` steps of the first pass of `LMSsort2`. -/
structure DoneL2 (T : List Nat) (k p0 i : Nat) (s : Pass2) : Prop where
  size : s.sa.length = T.length
  book : (clsL T p0).Book (2 * k) 0 i s.d s.D
  inv : ∃ bp, (ordL1 T p0).sched.Inv (stL1 T (clsL T p0).fl) (finL1 T (clsL T p0).fl) (fun _ => 0) (fun _ => 0) i
    (fun r => s.sa[r]?) bp ∧ Ptrs k s.B s.c1 s.b bp

theorem lms2StepL_spec {k p0 : Nat} (h0 : isLMS T p0) (hk : ∀ c ∈ T, c < k) {i : Nat} (hi : i < T.length) {s : Pass2}
    (h : DoneL2 T k p0 i s) : ∃ s', lms2StepL T s i = some s' ∧ DoneL2 T k p0 (i + 1) s' := by
  obtain ⟨bp, hI, hP⟩ := h.inv
  have hsz := h.size
  have hset1 := fun v => get_set1 (A := s.sa) (v := v) (show i < s.sa.length by omega)
  have hp0 := isLMS_pos h0
  generalize hfl : (clsL T p0).fl = fl at hI
  rcases hI.here hi with ⟨r, _, hr, hrt, hA⟩ | ⟨hno, hA⟩
  · have hrn : r < T.length := (ordL1 T p0).bound r hr
    have hr0 : p0 < r := act_lt hr
    by_cases hl : isL T (r - 1)
    · obtain ⟨q, rfl⟩ : ∃ q, r = q + 1 := ⟨r - 1, by omega⟩
      rw [show q + 1 - 1 = q by omega] at hl
      have hq0 := pred_gt h0 hr0 hl
      obtain ⟨h1, h2, h3, h4⟩ := hI.place hi (q := q) ⟨hl, hq0⟩ hrt
      have hcq := ch_lt hk hl.1
      have hkey : (ordL1 T p0).sched.key q = ch T q := rfl
      rw [hkey] at h1 h2 h3 h4
      have htk : (clsL T p0).tk q = 2 * ch T q + if isS T (q - 1) then 1 else 0 := rfl
      obtain ⟨x, hx1, hx2, hx3⟩ := h.book.place (q := q) ⟨hl, hq0⟩ hrt (by rw [htk]; split <;> omega)
      rw [hfl] at hx2 hx3
      have hst : stL1 T fl (q + 1) = ((q + if fl (q + 1) then T.length else 0 : Nat) : Int) := by
        unfold stL1 vL; rw [show q + 1 - 1 = q by omega, if_pos hl]
      have hfin : finL1 T fl (q + 1) = 0 := by
        unfold finL1; rw [show q + 1 - 1 = q by omega, if_pos hl]
      rw [hst] at hA
      have hpl := pred_lt hl.1 (by omega) hl
      have hS : isS T (q - 1) ↔ ch T (q - 1) < ch T q := by
        have := not_isL (T := T) (p := q - 1) (by omega)
        rw [← this, hpl]
        exact Classical.not_not
      have ht : 2 * ch T q + (if decide (ch T (q - 1) < ch T q) = true then 1 else 0) = (clsL T p0).tk q := by
        rw [htk]
        congr 1
        by_cases e : isS T (q - 1)
        · rw [if_pos e, if_pos (decide_eq_true (hS.mp e))]
        · rw [if_neg e, if_neg (fun a => e (hS.mpr (of_decide_eq_true a)))]
      have hflag := flag_spec (n := T.length) (D := s.D) (j := q - 1) (f := fl q) ht hx1 hx2
      have hmark : (if ch T (q - 1) < ch T q then Sais.inv (q - 1 + if fl q then T.length else 0 : Nat)
          else ((q - 1 + if fl q then T.length else 0 : Nat) : Int)) = stL1 T fl q := by
        unfold stL1 vL
        by_cases e : ch T (q - 1) < ch T q
        · rw [if_pos e, if_neg (fun a => hpl.mp a e)]
        · rw [if_neg e, if_pos (hpl.mpr e)]
      obtain ⟨B', b1, b2⟩ := switch_spec hP (c0 := ch T q) hcq
      have hset := get_set2 (A := s.sa) (v := stL1 T fl q) (w := 0) (show bp (ch T q) < s.sa.length by omega)
        (show i < s.sa.length by omega) (by omega)
      refine ⟨⟨⟨(s.sa.set (bp (ch T q)) (stL1 T fl q)).set i 0, B', ch T q, bp (ch T q) + 1⟩,
        s.d + (if fl (q + 1) then 1 else 0), s.D.set ((clsL T p0).tk q) (s.d + if fl (q + 1) then 1 else 0)⟩, ?_, ⟨?_, hx3, ?_⟩⟩
      · unfold lms2StepL
        simp only
        rw [bind_some' hA, if_pos (by omega)]
        simp only [Int.toNat_natCast]
        rw [unflag_spec hl.1]
        simp only
        rw [bind_some' (get_ch hl.1), bind_some' b1]
        simp only
        rw [if_neg (by omega), bind_some' (get_ch (show q - 1 < T.length by omega)), bind_some' hflag]
        simp only
        rw [hmark, bind_some' (put_spec (by omega) _)]
        rfl
      · simp only [List.length_set]; exact hsz
      · refine ⟨fun c => if c = ch T q then bp (ch T q) + 1 else bp c, ?_, b2 _⟩
        rw [hfl]
        apply h4
        · rw [hfin]; exact hset.2.1
        · exact hset.1
        · exact fun r a b => hset.2.2 r b a
        · exact if_pos rfl
        · intro c hc; exact if_neg hc
    · have hnoq : ∀ q, (ordL1 T p0).sched.tgt q → q + 1 ≠ r := by
        intro q hq e
        have hq' : isL T q := hq.1
        exact hl (by rw [← e]; exact hq')
      have hst : stL1 T fl r = Sais.inv ((vL T fl r : Nat) : Int) := by
        unfold stL1; rw [if_neg hl]
      have hfin : finL1 T fl r = ((vL T fl r : Nat) : Int) := by
        unfold finL1; rw [if_neg hl]
      rw [hst] at hA
      refine ⟨⟨{ s.toPass with sa := s.sa.set i ((vL T fl r : Nat) : Int) }, s.d, s.D⟩, ?_, ⟨?_, ?_, ⟨bp, ?_, hP⟩⟩⟩
      · unfold lms2StepL
        simp only
        rw [bind_some' hA, if_neg (by unfold Sais.inv; omega), if_pos (by unfold Sais.inv; omega), inv_inv]; rfl
      · simp only [List.length_set]; exact hsz
      · apply h.book.pass
        · intro q hq e
          have hqq : q + 1 ≠ T.length := by
            intro e'
            rw [e', (ordL1 T p0).sched.zero] at e; omega
          exact hnoq q hq ((ordL1 T p0).sched.inj _ _ (Sched.next_act hq hqq) hr (by rw [e, hrt]))
        · intro r' hr' e
          have := (ordL1 T p0).sched.inj r' r hr' hr (by rw [e, hrt])
          rw [this]
          exact (not_isL (by omega)).mp hl
      · rw [hfl]
        apply hI.skip hr hrt hnoq
        · rw [hfin]; exact (hset1 _).1
        · exact (hset1 _).2
  · refine ⟨s, ?_, ⟨hsz, ?_, ⟨bp, ?_, hP⟩⟩⟩
    · unfold lms2StepL
      simp only
      rw [bind_some' hA, if_neg (by omega), if_neg (by omega)]; rfl
    · apply h.book.pass
      · intro q hq e
        have hqq : q + 1 ≠ T.length := by
          intro e'
          rw [e', (ordL1 T p0).sched.zero] at e; omega
        exact hno _ (Sched.next_act hq hqq) e
      · intro r hr e
        exact absurd e (hno r hr)
    · rw [hfl]; exact hI.pass hno _ hA (fun _ _ => rfl)

/-- After `t` steps of the last pass of `LMSsort2`. -/
structure DoneS2 (T : List Nat) (k p0 off : Nat) (hk : ∀ p, p < T.length → ch T p < k) (t : Nat) (s : Pass2) : Prop where
  size : s.sa.length = T.length
  book : (clsS T p0 k hk).Book (2 * k) off t s.d s.D
  inv : ∃ bp, (ordS1 T p0 k hk).sched.Inv (stS1 T (clsS T p0 k hk).fl) (finS1 T (clsS T p0 k hk).fl) (fun _ => 0) (fun _ => 0) t
    (rev T.length s.sa) (fun c => T.length - bp (k - 1 - c)) ∧ Ptrs k s.B s.c1 s.b bp

theorem lms2StepS_spec {k p0 off : Nat} (h0 : isLMS T p0) (hk : ∀ p, p < T.length → ch T p < k) {t : Nat} (ht : t < T.length)
    {s : Pass2} (h : DoneS2 T k p0 off hk t s) :
    ∃ s', lms2StepS T s (T.length - 1 - t) = some s' ∧ DoneS2 T k p0 off hk (t + 1) s' := by
  obtain ⟨bp, hI, hP⟩ := h.inv
  have hsz := h.size
  have hp0 := isLMS_pos h0
  have hp0p := lms_pred_isL h0
  generalize hfl : (clsS T p0 k hk).fl = fl at hI
  rcases hI.here ht with ⟨r, hpl, hr, hrt, hA⟩ | ⟨hno, hA⟩
  · have hrn : r < T.length := (ordS1 T p0 k hk).bound r hr
    have hr0 : p0 ≤ r := by exact hr.elim (fun a => Nat.le_of_lt a.2) (fun a => a.2)
    have hget : s.sa[T.length - 1 - t]? = some (stS1 T fl r) := by
      unfold rev at hA; rwa [if_pos ht] at hA
    by_cases hs : isS T (r - 1)
    · have hne : r ≠ p0 := fun e => by rw [e] at hs; exact not_isL_isS hp0p.2 hs
      obtain ⟨q, rfl⟩ : ∃ q, r = q + 1 := ⟨r - 1, by omega⟩
      have hst : stS1 T fl (q + 1) = ((q + if fl (q + 1) then T.length else 0 : Nat) : Int) := by
        unfold stS1 vL; rw [if_pos hs, show q + 1 - 1 = q by omega]
      rw [show q + 1 - 1 = q by omega] at hs
      have hqn : q < T.length := by omega
      rw [hst] at hget
      obtain ⟨h1, h2, h3, h4⟩ := hI.place ht (q := q) ⟨hs, by omega⟩ hrt
      have hkey : (ordS1 T p0 k hk).sched.key q = k - 1 - ch T q := rfl
      have hcq := hk q hqn
      have htk : (clsS T p0 k hk).tk q = 2 * ch T q + if isL T (q - 1) then 1 else 0 := rfl
      obtain ⟨x, hx1, hx2, hx3⟩ := h.book.place (q := q) ⟨hs, by omega⟩ hrt (by rw [htk]; split <;> omega)
      rw [hfl] at hx2 hx3
      rw [hkey] at h1 h2 h3 h4
      simp only [show k - 1 - (k - 1 - ch T q) = ch T q by omega] at h1 h2 h3 h4
      have hbpos : bp (ch T q) ≠ 0 := by omega
      have hble : bp (ch T q) ≤ T.length := by omega
      have hfin : finS1 T fl (q + 1) = 0 := by unfold finS1; rw [show q + 1 - 1 = q by omega, if_pos hs]
      have hSp : isS T (q - 1) ↔ ch T (q - 1) ≤ ch T q := by
        obtain ⟨u, rfl⟩ : ∃ u, q = u + 1 := ⟨q - 1, by omega⟩
        rw [show u + 1 - 1 = u by omega]; exact S_pred hs
      have hLp : isL T (q - 1) ↔ ch T q < ch T (q - 1) := by
        have := not_isS (T := T) (p := q - 1) (by omega)
        rw [← this, hSp]
        omega
      have htt : 2 * ch T q + (if decide (ch T q < ch T (q - 1)) = true then 1 else 0) = (clsS T p0 k hk).tk q := by
        rw [htk]
        congr 1
        by_cases e : isL T (q - 1)
        · rw [if_pos e, if_pos (decide_eq_true (hLp.mp e))]
        · rw [if_neg e, if_neg (fun a => e (hLp.mpr (of_decide_eq_true a)))]
      have hflag := flag_spec (n := T.length) (D := s.D) (j := q - 1) (f := fl q) htt hx1 hx2
      have hmark : (if ch T q < ch T (q - 1) then Sais.inv ((q - 1 + (if fl q then T.length else 0)) + 1 : Nat)
          else ((q - 1 + if fl q then T.length else 0 : Nat) : Int)) = stS1 T fl q := by
        unfold stS1 vL
        by_cases e : ch T q < ch T (q - 1)
        · rw [if_pos e, if_neg (c := isS T (q - 1)) (fun a => by have := hSp.mp a; omega),
            if_neg (c := isL T q) (fun a => not_isL_isS a hs)]
          congr 2
          omega
        · rw [if_neg e, if_pos (hSp.mpr (by omega))]
      obtain ⟨B', b1, b2⟩ := switch_spec hP (c0 := ch T q) hcq
      have hset := rev_set2 (t := T.length - bp (ch T q)) (u := t) (v := stS1 T fl q) (w := 0) hsz (by omega) ht (by omega)
      have hbi : T.length - 1 - (T.length - bp (ch T q)) = bp (ch T q) - 1 := by omega
      rw [hbi] at hset
      refine ⟨⟨⟨(s.sa.set (bp (ch T q) - 1) (stS1 T fl q)).set (T.length - 1 - t) 0, B', ch T q, bp (ch T q) - 1⟩,
        s.d + (if fl (q + 1) then 1 else 0), s.D.set ((clsS T p0 k hk).tk q) (s.d + if fl (q + 1) then 1 else 0)⟩, ?_, ⟨?_, hx3, ?_⟩⟩
      · unfold lms2StepS
        simp only
        rw [bind_some' hget, if_pos (by omega)]
        simp only [Int.toNat_natCast]
        rw [unflag_spec hqn]
        simp only
        rw [bind_some' (get_ch hqn), bind_some' b1]
        simp only
        rw [if_neg (by omega), bind_some' (get_ch (show q - 1 < T.length by omega)), bind_some' hflag]
        simp only
        rw [if_neg hbpos, hmark, bind_some' (put_spec (by omega) _)]
        rfl
      · simp only [List.length_set]; exact hsz
      · refine ⟨fun c => if c = ch T q then bp (ch T q) - 1 else bp c, ?_, b2 _⟩
        rw [hfl]
        have := h4 (rev T.length ((s.sa.set (bp (ch T q) - 1) (stS1 T fl q)).set (T.length - 1 - t) 0))
          (fun c => if c = k - 1 - ch T q then T.length - bp (ch T q) + 1 else T.length - bp (k - 1 - c))
          (by rw [hfin]; exact hset.2.1) hset.1 (fun r a b => hset.2.2 r b a)
          (by simp only [if_true])
          (by intro c hc; exact if_neg hc)
        refine ⟨?_, this.full, this.other, this.dom⟩
        intro p hp
        have hf := this.free p hp
        have hkp := hk p hp.1.1
        have hkeyp : (ordS1 T p0 k hk).sched.key p = k - 1 - ch T p := rfl
        rw [hkeyp] at hf ⊢
        rw [← hf]
        simp only [show k - 1 - (k - 1 - ch T p) = ch T p by omega]
        by_cases ec : ch T p = ch T q
        · rw [if_pos ec, if_pos (by omega)]; omega
        · rw [if_neg ec, if_neg (by omega)]
    · have hfs : finS1 T fl r = stS1 T fl r := by unfold finS1 stS1; rw [if_neg hs, if_neg hs]
      have hneg : ¬ 0 < stS1 T fl r := by
        unfold stS1
        rw [if_neg hs]
        split
        · omega
        · unfold Sais.inv; omega
      have hnoq : ∀ q', (ordS1 T p0 k hk).sched.tgt q' → q' + 1 ≠ r := by
        intro q' hq' e'
        have hq'' : isS T q' := hq'.1
        exact hs (by rw [← e']; exact hq'')
      refine ⟨s, ?_, ⟨hsz, ?_, ⟨bp, ?_, hP⟩⟩⟩
      · unfold lms2StepS
        simp only
        rw [bind_some' hget, if_neg hneg]
        rfl
      · apply h.book.pass
        · intro q hq e
          have hqq : q + 1 ≠ T.length := by
            intro e'
            rw [e', (ordS1 T p0 k hk).sched.zero] at e; omega
          exact hnoq q hq ((ordS1 T p0 k hk).sched.inj _ _ (Sched.next_act hq hqq) hr (by rw [e, hrt]))
        · intro r' hr' e
          have := (ordS1 T p0 k hk).sched.inj r' r hr' hr (by rw [e, hrt])
          rw [this]
          exact (not_isS (by omega)).mp hs
      · rw [hfl]
        apply hI.skip hr hrt hnoq
        · rw [hfs]; exact hA
        · exact fun _ _ => rfl
  · refine ⟨s, ?_, ⟨hsz, ?_, ⟨bp, ?_, hP⟩⟩⟩
    · have hget : s.sa[T.length - 1 - t]? = some 0 := by
        unfold rev at hA; rwa [if_pos ht] at hA
      unfold lms2StepS
      simp only
      rw [bind_some' hget, if_neg (by omega)]; rfl
    · apply h.book.pass
      · intro q hq e
        have hqq : q + 1 ≠ T.length := by
          intro e'
          rw [e', (ordS1 T p0 k hk).sched.zero] at e; omega
        exact hno _ (Sched.next_act hq hqq) e
      · intro r hr e
        exact absurd e (hno r hr)
    · rw [hfl]; exact hI.pass hno _ hA (fun _ _ => rfl)

end Bwtc.Sais
