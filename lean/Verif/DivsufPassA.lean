import Verif.DivsufPassB

/-!
# The second pass of `construct_BWT`: the type A suffixes, and the transform
-/

set_option autoImplicit false

namespace Bwtc.Divsuf
open Induce Suffix Classical
open Sais (inv put bind_some' put_spec XYok Noted loopUp_spec inv_inv finS get_set1 get_set2 BwtOut)

variable {T : List Nat}

/-- The schedule of the second pass: rows from the first to the last, type B given, type A induced. -/
noncomputable def schedA (T : List Nat) : Sched T.length Nat where
  src := isS T
  tgt := isL T
  key p := ch T p
  start c := startA T c
  time p := if p < T.length then row T p + 1 else 0
  disj p h1 h2 := not_isL_isS h2 h1
  bound p h := by exact h.elim (fun h => h.1) (fun h => h.1)
  range p h := by
    have hp : p < T.length := by exact h.elim (fun h => h.1) (fun h => h.1)
    have := row_lt hp
    rw [if_pos hp]; omega
  zero := by rw [if_neg (by omega)]
  inj p q h1 h2 h := by
    have hp : p < T.length := by exact h1.elim (fun h => h.1) (fun h => h.1)
    have hq : q < T.length := by exact h2.elim (fun h => h.1) (fun h => h.1)
    rw [if_pos hp, if_pos hq] at h
    exact row_inj hp hq (by omega)
  slot p hp := by
    have h1 := (ordL T).time_tgt hp
    rw [timeL_eq hp] at h1
    have hc : cnt T.length (fun q => isL T q ∧ ch T q = ch T p ∧
        (if q + 1 < T.length then row T (q + 1) + 1 else 0) < (if p + 1 < T.length then row T (p + 1) + 1 else 0)) =
        cnt T.length (fun q => (ordL T).tgt q ∧ (ordL T).ch q = (ordL T).ch p ∧ (ordL T).lt q p) := by
      apply cnt_congr
      intro q hq
      show _ ↔ isL T q ∧ ch T q = ch T p ∧ sless T q p
      have hpn := hp.1
      by_cases e : p + 1 < T.length
      · rw [if_pos e]
        constructor
        · rintro ⟨a, b, c⟩
          refine ⟨a, b, ?_⟩
          rw [sless_step hq hpn]
          refine Or.inr ⟨b, ?_⟩
          by_cases e2 : q + 1 < T.length
          · rw [if_pos e2] at c
            rcases sless_total (T := T) (p := q + 1) (q := p + 1) (by omega) (by omega) with d | d | d
            · exact d
            · have : p = q := by omega
              subst this; omega
            · have := row_mono e d; omega
          · rw [show q + 1 = T.length by omega]
            exact sless_end (by omega)
        · rintro ⟨a, b, c⟩
          refine ⟨a, b, ?_⟩
          by_cases e2 : q + 1 < T.length
          · rw [if_pos e2]
            rcases (sless_step hq hpn).mp c with d | d
            · omega
            · have := row_mono e2 d.2; omega
          · rw [if_neg e2]; omega
      · rw [if_neg e]
        constructor
        · rintro ⟨_, _, c⟩; omega
        · rintro ⟨a, b, c⟩
          by_cases e2 : p = q
          · subst e2; exact (sless_irrefl p c).elim
          · have := (ordL T).last p q hp a b.symm (by omega) e2
            exact (sless_irrefl p (sless_trans this c)).elim
    rw [if_pos hp.1, hc]
    exact h1
  next p hp := by
    rw [if_pos hp.1]
    by_cases e : p + 1 < T.length
    · rw [if_pos e]
      refine ⟨by have := row_mono e hp.2; omega, ?_⟩
      rcases type_total e with a | a
      · exact Or.inr (Or.inl a)
      · exact Or.inl a
    · rw [if_neg e]
      have := hp.1
      exact ⟨by omega, Or.inr (Or.inr (by omega))⟩

theorem timeA {p : Nat} (hp : p < T.length) : (schedA T).time p = row T p + 1 := if_pos hp

theorem actA {p : Nat} (hp : p < T.length) : (schedA T).src p ∨ (schedA T).tgt p := (type_total hp).symm

/-- The pointer that is used for a bucket. -/
def effA (s : PassA) (c : Nat) : Int := if c = s.c2 then s.k else s.bk.A c

/-- After `i` steps of the second pass. -/
structure DoneA (T : List Nat) (xy : Option (Nat × Nat)) (len : Nat) (nst : Nat → Int) (i : Nat) (s : PassA) : Prop where
  size : s.sa.length = T.length
  inv : ∃ ptr, (schedA T).Inv (finB T) (finS T) nst nst i (fun r => s.sa[r]?) ptr ∧
    ∀ p, isL T p → effA s (ch T p) = ptr (ch T p)
  lf : s.lf.length = len
  noted : ∀ p, p < T.length → 0 < p → (isS T (p - 1) ∧ (schedA T).placed i p) ∨ (schedA T).time p ≤ i →
    Noted T.length xy s.lf p (row T p)
  whole : row T 0 < i → s.orig = row T 0

theorem switchA_spec {bk : Buckets} {c2 : Nat} {k : Int} {c0 : Nat} {sa lf o} :
    (switchA bk c2 k c0).2 = effA ⟨sa, bk, c2, k, lf, o⟩ c0 ∧
    ∀ (k' : Int) (sa' : List Int) (lf' : List Nat) (o' : Nat) (c : Nat), c ≠ c0 →
      effA ⟨sa', (switchA bk c2 k c0).1, c0, k', lf', o'⟩ c = effA ⟨sa, bk, c2, k, lf, o⟩ c := by
  unfold switchA
  by_cases e : c0 = c2
  · subst e
    rw [if_pos (c := c0 = c0) rfl]
    refine ⟨?_, ?_⟩
    · unfold effA; rw [if_pos (c := c0 = c0) rfl]
    · intro k' sa' lf' o' c hc
      unfold effA
      rw [if_neg (c := c = c0) hc, if_neg (c := c = c0) hc]
  · rw [if_neg e]
    refine ⟨?_, ?_⟩
    · unfold effA Buckets.setA
      simp only [if_neg e]
    · intro k' sa' lf' o' c hc
      unfold effA Buckets.setA
      simp only
      rw [if_neg hc]

theorem markA_spec {xy : Option (Nat × Nat)} {q : Nat} (h : isL T q) {lf : List Nat} (hxy : XYok T.length lf.length xy) (r : Nat) :
    ∃ lf', markA T xy lf (r : Int) q (ch T q) = some (finB T q, lf') ∧ lf'.length = lf.length ∧
      (0 < q → isS T (q - 1) → Noted T.length xy lf' q r) ∧
      ∀ j' r', j' < T.length → j' ≠ q → Noted T.length xy lf j' r' → Noted T.length xy lf' j' r' := by
  unfold markA finB
  by_cases e : q = 0
  · subst e
    exact ⟨lf, rfl, rfl, fun a => by omega, fun _ _ _ _ a => a⟩
  · have h1 := h.1
    have hS : isS T (q - 1) ↔ ch T (q - 1) < ch T q := by
      obtain ⟨u, rfl⟩ : ∃ u, q = u + 1 := ⟨q - 1, by omega⟩
      have h3 := L_pred h
      have h2 := not_isS (T := T) (p := u) (by omega)
      constructor
      · intro a
        by_cases hx : ch T u < ch T (u + 1)
        · exact hx
        · exact (not_isL_isS (h3.mpr (by omega)) a).elim
      · intro a
        rcases type_total (T := T) (p := u) (by omega) with b | b
        · have := h3.mp b
          have a' : ch T u < ch T (u + 1) := a
          omega
        · exact b
    rw [if_pos (by omega), bind_some' (get_ch (show q - 1 < T.length by omega)), if_neg e]
    by_cases hl : ch T (q - 1) < ch T q
    · obtain ⟨lf', n1, n2, _, n4, n5⟩ := note_spec hxy (j := q) (by omega) h1 r
      refine ⟨lf', ?_, n2, fun _ _ => n4, n5⟩
      rw [if_pos hl, if_pos (hS.mpr hl)]
      simp only [Int.toNat_natCast]
      rw [bind_some' n1]
      rfl
    · refine ⟨lf, ?_, rfl, fun _ a => absurd (hS.mp a) hl, fun _ _ _ _ a => a⟩
      rw [if_neg hl, if_neg (fun a => hl (hS.mp a))]
      rfl

theorem stepA_spec {xy : Option (Nat × Nat)} {len : Nat} (hxy : XYok T.length len xy) {nst : Nat → Int} {i : Nat} (hi : i < T.length)
    {s : PassA} (h : DoneA T xy len nst i s) :
    ∃ s', stepA T xy s i = some s' ∧ DoneA T xy len nst (i + 1) s' := by
  obtain ⟨ptr, hI, hP⟩ := h.inv
  have hsz := h.size
  obtain ⟨r, hrn, hrow⟩ := row_surj hi
  have hrt : (schedA T).time r = i + 1 := by rw [timeA hrn, hrow]
  have huniq : ∀ p, p < T.length → (schedA T).time p = i + 1 → p = r := by
    intro p hp e
    exact (schedA T).inj p r (actA hp) (actA hrn) (by omega)
  have hget : s.sa[i]? = some (finB T r) := by
    rcases hI.here hi with ⟨r', _, hr', ht', hA⟩ | ⟨hno, _⟩
    · have := (schedA T).inj r' r hr' (actA hrn) (by rw [ht', hrt])
      subst this
      exact hA
    · exact absurd hrt (hno r (actA hrn))
  by_cases e : r = 0
  · -- the whole text
    subst e
    have hst : finB T 0 = 0 := if_pos rfl
    rw [hst] at hget
    refine ⟨{ s with orig := i }, ?_, ⟨hsz, ⟨ptr, ?_, hP⟩, h.lf, ?_, fun _ => hrow.symm⟩⟩
    · unfold stepA
      rw [bind_some' hget, if_neg (by omega), if_neg (by simp)]
      rfl
    · apply hI.skip (actA hrn) hrt (fun q _ => by omega)
      · exact hget
      · intro u _; rfl
    · intro p hp hp0 hpl
      apply h.noted p hp hp0
      rcases hpl with ⟨a, b⟩ | a
      · refine Or.inl ⟨a, ?_⟩
        rcases b with b | ⟨b, c⟩
        · exact Or.inl b
        · refine Or.inr ⟨b, ?_⟩
          by_cases hx : (schedA T).time (p + 1) ≤ i
          · exact hx
          · by_cases hp1 : p + 1 < T.length
            · have := huniq (p + 1) hp1 (by omega); omega
            · rw [show p + 1 = T.length by omega, (schedA T).zero]; omega
      · right
        by_cases hx : (schedA T).time p ≤ i
        · exact hx
        · have := huniq p hp (by omega); omega
  · obtain ⟨q, rfl⟩ : ∃ q, r = q + 1 := ⟨r - 1, by omega⟩
    have hqn : q < T.length := by omega
    have hwhole : row T 0 < i + 1 → s.orig = row T 0 := by
      intro a
      apply h.whole
      by_cases hx : row T 0 < i
      · exact hx
      · have := huniq 0 (by omega) (by rw [timeA (by omega)]; omega)
        omega
    rcases type_total hqn with hl | hs
    · -- the predecessor is induced
      have hst : finB T (q + 1) = ((q + 1 : Nat) : Int) := by
        unfold finB; rw [if_neg (by omega), show q + 1 - 1 = q by omega, if_neg ((not_isS hqn).mpr hl)]
      have hfin : finS T (q + 1) = (ch T q : Int) := by
        unfold finS; rw [if_neg (by omega), show q + 1 - 1 = q by omega]
      rw [hst] at hget
      obtain ⟨h1, h2, h3, h4⟩ := hI.place hi (q := q) hl hrt
      have hkey : (schedA T).key q = ch T q := rfl
      rw [hkey] at h1 h2 h3 h4
      obtain ⟨w1, w4⟩ := switchA_spec (bk := s.bk) (c2 := s.c2) (k := s.k) (c0 := ch T q) (sa := s.sa) (lf := s.lf) (o := s.orig)
      have hk : (switchA s.bk s.c2 s.k (ch T q)).2 = (ptr (ch T q) : Int) := by rw [w1]; exact hP q hl
      obtain ⟨lf1, n1, n2, _, n4, n5⟩ := note_spec (n := T.length) (xy := xy) (lf := s.lf) (by rw [h.lf]; exact hxy)
        (j := q + 1) (by omega) hrn i
      obtain ⟨lf2, m1, m2, m3, m4⟩ := markA_spec (xy := xy) hl (lf := lf1) (by rw [n2, h.lf]; exact hxy) (ptr (ch T q))
      have hput1 : put s.sa i (ch T q : Int) = some (s.sa.set i (ch T q : Int)) := put_spec (by omega) _
      have hput2 : put (s.sa.set i (ch T q : Int)) (ptr (ch T q)) (finB T q) =
          some ((s.sa.set i (ch T q : Int)).set (ptr (ch T q)) (finB T q)) :=
        put_spec (by rw [List.length_set]; omega) _
      have hset := get_set2 (A := s.sa) (v := (ch T q : Int)) (w := finB T q) (show i < s.sa.length by omega)
        (show ptr (ch T q) < s.sa.length by omega) (by omega)
      have hle : ch T (q + 1) ≤ ch T q := by
        rcases (isL_iff hrn).mp hl with a | a <;> omega
      refine ⟨⟨(s.sa.set i (ch T q : Int)).set (ptr (ch T q)) (finB T q), (switchA s.bk s.c2 s.k (ch T q)).1, ch T q,
        (ptr (ch T q) : Int) + 1, lf2, s.orig⟩, ?_, ⟨?_, ⟨fun c => if c = ch T q then ptr (ch T q) + 1 else ptr c, ?_, ?_⟩, ?_, ?_, hwhole⟩⟩
      · unfold stepA
        rw [bind_some' hget, if_pos (by omega)]
        simp only [Int.toNat_natCast]
        rw [bind_some' n1, bind_some' (get_ch hrn), show q + 1 - 1 = q by omega, bind_some' (get_ch hqn),
          bind_some' (assert_true (by simpa using hle)), bind_some' hput1, hk, bind_some' m1,
          bind_some' (assert_true (by simp only [decide_eq_true_eq]; omega)), putI_nat, bind_some' hput2]
        rfl
      · simp only [List.length_set]; exact hsz
      · apply h4
        · rw [hfin]; exact hset.1
        · exact hset.2.1
        · exact hset.2.2
        · exact if_pos rfl
        · intro c hc; exact if_neg hc
      · intro p hp
        show _ = ((if ch T p = ch T q then ptr (ch T q) + 1 else ptr (ch T p) : Nat) : Int)
        by_cases ek : ch T p = ch T q
        · rw [if_pos ek, ek]
          unfold effA
          rw [if_pos (c := ch T q = ch T q) rfl]
          simp only
          omega
        · rw [if_neg ek, w4 _ _ _ _ _ ek]
          exact hP p hp
      · show lf2.length = len
        rw [m2, n2, h.lf]
      · intro p hp hp0 hpl
        show Noted T.length xy lf2 p (row T p)
        have hother : p ≠ q → p ≠ q + 1 → Noted T.length xy s.lf p (row T p) → Noted T.length xy lf2 p (row T p) :=
          fun a b c => m4 p _ hp a (n5 p _ hp b c)
        have hthis : Noted T.length xy lf2 (q + 1) (row T (q + 1)) := by
          rw [hrow]
          exact m4 (q + 1) _ hrn (by omega) n4
        have hq : isS T (q - 1) → 0 < q → Noted T.length xy lf2 q (row T q) := by
          intro a b
          have := m3 b a
          rw [timeA hqn] at h1
          rwa [show row T q = ptr (ch T q) by omega]
        rcases hpl with ⟨a, b⟩ | a
        · by_cases e1 : p = q
          · subst e1; exact hq a hp0
          · by_cases e2 : p = q + 1
            · subst e2; exact hthis
            · apply hother e1 e2
              apply h.noted p hp hp0
              refine Or.inl ⟨a, ?_⟩
              rcases b with b | ⟨b, c⟩
              · exact Or.inl b
              · refine Or.inr ⟨b, ?_⟩
                by_cases hx : (schedA T).time (p + 1) ≤ i
                · exact hx
                · by_cases hp1 : p + 1 < T.length
                  · have := huniq (p + 1) hp1 (by omega); omega
                  · rw [show p + 1 = T.length by omega, (schedA T).zero]; omega
        · by_cases e2 : p = q + 1
          · subst e2; exact hthis
          · have hx : (schedA T).time p ≤ i := by
              by_cases hx : (schedA T).time p ≤ i
              · exact hx
              · exact absurd (huniq p hp (by omega)) e2
            have e1 : p ≠ q := by
              intro a
              subst a
              omega
            exact hother e1 e2 (h.noted p hp hp0 (Or.inr hx))
    · -- nothing is induced
      have hst : finB T (q + 1) = inv (ch T q : Int) := by
        unfold finB; rw [if_neg (by omega), show q + 1 - 1 = q by omega, if_pos hs]
      have hfin : finS T (q + 1) = (ch T q : Int) := by
        unfold finS; rw [if_neg (by omega), show q + 1 - 1 = q by omega]
      rw [hst] at hget
      have hset := get_set1 (A := s.sa) (v := (ch T q : Int)) (show i < s.sa.length by omega)
      refine ⟨{ s with sa := s.sa.set i (ch T q : Int) }, ?_, ⟨?_, ⟨ptr, ?_, hP⟩, h.lf, ?_, hwhole⟩⟩
      · unfold stepA
        rw [bind_some' hget, if_neg (by unfold Sais.inv; omega), if_pos (by unfold Sais.inv; omega), inv_inv,
          bind_some' (put_spec (by omega) _)]
        rfl
      · simp only [List.length_set]; exact hsz
      · apply hI.skip (actA hrn) hrt
        · intro q' hq' e'
          have : q' = q := by omega
          subst this
          exact not_isL_isS hq' hs
        · rw [hfin]; exact hset.1
        · exact hset.2
      · intro p hp hp0 hpl
        apply h.noted p hp hp0
        by_cases epr : p = q + 1
        · subst epr
          refine Or.inl ⟨hs, ?_⟩
          rcases type_total hp with a | a
          · exact Or.inr ⟨a, by have := ((schedA T).next (q + 1) a).1; omega⟩
          · exact Or.inl a
        · rcases hpl with ⟨a, b⟩ | a
          · refine Or.inl ⟨a, ?_⟩
            rcases b with b | ⟨b, c⟩
            · exact Or.inl b
            · refine Or.inr ⟨b, ?_⟩
              by_cases hx : (schedA T).time (p + 1) ≤ i
              · exact hx
              · by_cases hp1 : p + 1 < T.length
                · have : p = q := by have := huniq (p + 1) hp1 (by omega); omega
                  subst this
                  exact (not_isL_isS b hs).elim
                · rw [show p + 1 = T.length by omega, (schedA T).zero]; omega
          · right
            by_cases hx : (schedA T).time p ≤ i
            · exact hx
            · have := huniq p hp (by omega); omega

/-- The second pass from its beginning. -/
theorem initA {xy : Option (Nat × Nat)} {sa : List Int} {bk : Buckets} {lf : List Nat} (hn : 2 ≤ T.length)
    (hlast : isL T (T.length - 2)) (hsz : sa.length = T.length) (hcell : ∀ p, isS T p → sa[row T p]? = some (finB T p))
    (hA : ∀ p, p < T.length → bk.A (ch T p) = startA T (ch T p))
    (hnoted : ∀ p, isS T p → 0 < p → isS T (p - 1) → Noted T.length xy lf p (row T p)) :
    startA T (ch T (T.length - 1)) < T.length ∧
    ∃ nst, DoneA T xy lf.length nst 0 ⟨sa.set (startA T (ch T (T.length - 1))) ((T.length - 1 : Nat) : Int), bk, ch T (T.length - 1),
      (startA T (ch T (T.length - 1)) : Int) + 1, lf, 0⟩ := by
  have hL : isL T (T.length - 1) := isL_last (by omega)
  have hrow : row T (T.length - 1) = startA T (ch T (T.length - 1)) := by
    have h1 := (ordL T).time_tgt hL
    have h0 : cnt T.length (fun q => (ordL T).tgt q ∧ (ordL T).ch q = (ordL T).ch (T.length - 1) ∧ (ordL T).lt q (T.length - 1)) = 0 := by
      apply cnt_false
      rintro q _ ⟨a, b, c⟩
      by_cases e : T.length - 1 = q
      · subst e; exact sless_irrefl _ c
      · exact sless_irrefl _ (sless_trans ((ordL T).last (T.length - 1) q hL a b.symm (by omega) e) c)
    rw [h0, timeL_eq hL] at h1
    have h2 : (ordL T).start ((ordL T).ch (T.length - 1)) = startA T (ch T (T.length - 1)) := rfl
    rw [h2] at h1
    omega
  have hlt : startA T (ch T (T.length - 1)) < T.length := by rw [← hrow]; exact row_lt hL.1
  refine ⟨hlt, ?_⟩
  have hset := get_set1 (A := sa) (v := ((T.length - 1 : Nat) : Int)) (show startA T (ch T (T.length - 1)) < sa.length by omega)
  have hfin : finB T (T.length - 1) = ((T.length - 1 : Nat) : Int) := by
    unfold finB
    rw [if_neg (by omega), if_neg (by
      rw [show T.length - 1 - 1 = T.length - 2 by omega]; exact (not_isS (by omega)).mpr hlast)]
  have hplaced : ∀ p, isL T p → (schedA T).time (p + 1) ≤ 0 → p = T.length - 1 := by
    intro p hp a
    have := hp.1
    by_cases e : p + 1 < T.length
    · rw [timeA e] at a; omega
    · omega
  refine ⟨fun r => ((sa.set (startA T (ch T (T.length - 1))) ((T.length - 1 : Nat) : Int))[r]?).getD 0, ⟨?_,
    ⟨fun c => startA T c + (if c = ch T (T.length - 1) then 1 else 0), ⟨?_, ?_, ?_, ?_⟩, ?_⟩, rfl, ?_, ?_⟩⟩
  · simp only [List.length_set]; exact hsz
  · intro p hp
    have hkey : (schedA T).key p = ch T p := rfl
    have hst : (schedA T).start (ch T p) = startA T (ch T p) := rfl
    rw [hkey, hst]
    congr 1
    by_cases e : ch T p = ch T (T.length - 1)
    · rw [if_pos e]
      rw [cnt_insert (P := fun _ => False) (Q := fun q => (schedA T).tgt q ∧ (schedA T).key q = ch T p ∧ (schedA T).time (q + 1) ≤ 0)
        (a := T.length - 1) (by omega) (fun a => a) (fun q _ => by
          constructor
          · rintro ⟨a, b, c⟩; exact Or.inr (hplaced q a c)
          · rintro (a | rfl)
            · exact a.elim
            · refine ⟨hL, e.symm, ?_⟩
              rw [show T.length - 1 + 1 = T.length by omega, (schedA T).zero]; exact Nat.le_refl _), cnt_false (fun _ _ a => a)]
    · rw [if_neg e, cnt_false]
      rintro q _ ⟨a, b, c⟩
      apply e
      rw [← hplaced q a c]
      exact b.symm
  · intro p hp
    have hpn : p < T.length := by exact hp.elim (fun a => a.1) (fun a => a.1.1)
    rw [timeA hpn, if_neg (by omega), show row T p + 1 - 1 = row T p by omega]
    rcases hp with hp | ⟨hp, a⟩
    · rw [hset.2 _ (by
        intro e
        rw [← hrow] at e
        have := row_inj hpn hL.1 e
        subst this
        exact not_isL_isS hL hp)]
      exact hcell p hp
    · have := hplaced p hp a
      subst this
      rw [hrow, hfin]; exact hset.1
  · intro r hr hno
    obtain ⟨p, hp, e⟩ := row_surj hr
    exact absurd (by rw [timeA hp, e]) (hno p (actA hp))
  · intro r hr
    simp only
    rw [List.getElem?_eq_getElem (by rw [List.length_set]; omega)]
    exact Option.some_ne_none _
  · intro p hp
    unfold effA
    simp only
    by_cases e : ch T p = ch T (T.length - 1)
    · rw [if_pos e, if_pos e, e]; omega
    · rw [if_neg e, if_neg e, hA p hp.1]; rfl
  · intro p hp hp0 a
    rcases a with ⟨a, b | ⟨b, c⟩⟩ | a
    · exact hnoted p b hp0 a
    · have := hplaced p b c
      subst this
      rw [show T.length - 1 - 1 = T.length - 2 by omega] at a
      exact (not_isL_isS hlast a).elim
    · rw [timeA hp] at a; omega
  · intro a; omega

/-- `construct_BWT` gives the transform and the starting points. -/
theorem constructBWT_spec {k : Nat} (hk : ∀ p, p < T.length → ch T p < k) (hn : 2 ≤ T.length) (hlast : ch T (T.length - 1) ≤ ch T (T.length - 2))
    {xy : Option (Nat × Nat)} {sa : List Int} {bk : Buckets} {m : Nat} {lf : List Nat} (hxy : XYok T.length lf.length xy)
    (hm : m = 0 → ∀ p, ¬ isS T p) (hsz : sa.length = T.length) (hA : ∀ c, c < k → bk.A c = startA T c)
    (h : 0 < m → Ready T k sa bk) :
    ∃ sa' lf', constructBWT T k xy sa bk m lf = some (sa', lf', row T 0) ∧ sa'.length = T.length ∧
      (∀ p, p < T.length → sa'[row T p]? = some (finS T p)) ∧ lf'.length = lf.length ∧
      ∀ p, p < T.length → 0 < p → Noted T.length xy lf' p (row T p) := by
  have hk0 : 0 < k := by have := hk 0 (by omega); omega
  have hlL : isL T (T.length - 2) := by
    have h1 : T.length - 2 + 1 < T.length := by omega
    rw [isL_iff h1, show T.length - 2 + 1 = T.length - 1 by omega]
    by_cases e : ch T (T.length - 1) < ch T (T.length - 2)
    · exact Or.inl e
    · exact Or.inr ⟨by omega, isL_last (by omega)⟩
  have hfirst : ∃ s, passB T k xy sa bk m lf = some s ∧
      s.sa.length = T.length ∧ (∀ p, isS T p → s.sa[row T p]? = some (finB T p)) ∧ (∀ c, s.bk.A c = bk.A c) ∧
      s.lf.length = lf.length ∧ ∀ p, isS T p → 0 < p → isS T (p - 1) → Noted T.length xy s.lf p (row T p) := by
    unfold passB
    by_cases e : 0 < m
    · rw [if_pos e]
      exact passB_spec hk hk0 hxy (h e)
    · rw [if_neg e]
      have hno := hm (by omega)
      exact ⟨_, rfl, hsz, fun p hp => absurd hp (hno p), fun _ => rfl, rfl, fun p hp => absurd hp (hno p)⟩
  obtain ⟨s1, g1, g2, g3, g4, g5, g6⟩ := hfirst
  obtain ⟨hlt, nst, h0⟩ := initA (bk := s1.bk) (lf := s1.lf) hn hlL g2 g3
    (fun p hp => by rw [g4]; exact hA _ (hk p hp)) g6
  rw [g5] at h0
  obtain ⟨s2, f1, f2⟩ := loopUp_spec (f := stepA T xy) (DoneA T xy lf.length nst) T.length 0 _
    (fun j s _ hj hs => stepA_spec hxy (by omega) hs) h0
  rw [Nat.zero_add] at f2
  obtain ⟨ptr, hI, _⟩ := f2.inv
  refine ⟨s2.sa, s2.lf, ?_, f2.size, ?_, f2.lf, ?_⟩
  · unfold constructBWT
    simp only
    rw [bind_some' g1, if_neg (by omega), bind_some' (get_ch (show T.length - 1 < T.length by omega)),
      bind_some' (get_ch (show T.length - 2 < T.length by omega)), if_neg (by omega), g4, hA _ (hk _ (by omega)), putI_nat,
      bind_some' (put_spec (by omega) _), bind_some' f1, f2.whole (row_lt (by omega))]
    rfl
  · intro p hp
    have := hI.done (actA hp)
    rw [timeA hp, show row T p + 1 - 1 = row T p by omega] at this
    exact this
  · intro p hp hp0
    exact f2.noted p hp hp0 (Or.inr (by rw [timeA hp]; have := row_lt hp; omega))

end Bwtc.Divsuf
