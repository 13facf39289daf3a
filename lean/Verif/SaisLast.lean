import Verif.SaisBuckets

/-!
# The last stage of `sais.hxx` gives the Burrows-Wheeler transform and the starting rows
-/

set_option autoImplicit false

namespace Bwtc.Sais
open Induce Suffix Classical

variable {T : List Nat}

/-- The sorted LMS positions stand at the ends of their buckets, all other cells are zero. -/
def Spread (T : List Nat) (sa : List Int) : Prop :=
  sa.length = T.length ∧
  (∀ p, isLMS T p → sa[(ordL T).time p - 1]? = some (p : Int)) ∧
  ∀ r, r < T.length → (∀ p, isLMS T p → (ordL T).time p ≠ r + 1) → sa[r]? = some 0

/-- What the first pass writes for `p`. -/
noncomputable def stL (T : List Nat) (p : Nat) : Int :=
  if p = 0 then 0 else if isL T (p - 1) then p else inv p

/-- What the first pass of `computeBWT` leaves in the cell of `p`. -/
noncomputable def finL (T : List Nat) (p : Nat) : Int :=
  if p = 0 then 0 else if isL T (p - 1) then inv (ch T (p - 1)) else p

theorem pred_lt {p : Nat} (hp : p < T.length) (h0 : p ≠ 0) (hl : isL T p) : isL T (p - 1) ↔ ¬ ch T (p - 1) < ch T p := by
  obtain ⟨q, rfl⟩ : ∃ q, p = q + 1 := ⟨p - 1, by omega⟩
  rw [show q + 1 - 1 = q by omega, L_pred hl]
  omega

theorem markL_spec {j : Nat} (h : isL T j) : markL T j (ch T j) = some (stL T j) := by
  unfold markL stL
  by_cases e : j = 0
  · subst e; rfl
  · have h1 := h.1
    rw [if_pos (by omega), get_ch (show j - 1 < T.length by omega), if_neg e]
    simp only [Option.bind_eq_bind, Option.bind_some, Option.pure_def, Option.some.injEq]
    by_cases hl : ch T (j - 1) < ch T j
    · rw [if_pos hl, if_neg (fun a => (pred_lt h1 e h).mp a hl)]
    · rw [if_neg hl, if_pos ((pred_lt h1 e h).mpr hl)]

theorem bind_some' {α β : Type} {a : α} {f : α → Option β} {x : Option α} (h : x = some a) : (x >>= f) = f a := by
  rw [h]; rfl

/-- After `i` steps of the first pass. -/
structure DoneL (T : List Nat) (k : Nat) (xy : Option (Nat × Nat)) (len i : Nat) (s : Bwt) : Prop where
  size : s.sa.length = T.length
  inv : ∃ bp, (ordL T).sched.Inv (stL T) (finL T) (fun _ => 0) (fun _ => 0) i (fun r => s.sa[r]?) bp ∧
    Ptrs k s.B s.c1 s.b bp
  lf : s.lf.length = len
  noted : ∀ p, isL T p → 0 < p → isL T (p - 1) → (ordL T).time p ≤ i → Noted T.length xy s.lf p (row T p)

theorem lms_pred_isL {p : Nat} (h : isLMS T p) : p ≠ 0 ∧ isL T (p - 1) := by
  have := isLMS_pos h
  obtain ⟨q, rfl⟩ : ∃ q, p = q + 1 := ⟨p - 1, by omega⟩
  exact ⟨by omega, isLMS_pred h⟩

theorem get_set2 {A : List Int} {i b : Nat} {v w : Int} (hi : i < A.length) (hb : b < A.length) (hib : i ≠ b) :
    ((A.set i v).set b w)[i]? = some v ∧ ((A.set i v).set b w)[b]? = some w ∧
    ∀ r, r ≠ i → r ≠ b → ((A.set i v).set b w)[r]? = A[r]? := by
  refine ⟨?_, ?_, ?_⟩
  · rw [List.getElem?_set_ne (fun e => hib e.symm), List.getElem?_set, if_pos rfl, if_pos hi]
  · rw [List.getElem?_set, if_pos rfl, if_pos (by rw [List.length_set]; exact hb)]
  · intro r h1 h2
    rw [List.getElem?_set_ne (fun e => h2 e.symm), List.getElem?_set_ne (fun e => h1 e.symm)]

theorem get_set1 {A : List Int} {i : Nat} {v : Int} (hi : i < A.length) :
    (A.set i v)[i]? = some v ∧ ∀ r, r ≠ i → (A.set i v)[r]? = A[r]? := by
  refine ⟨?_, ?_⟩
  · rw [List.getElem?_set, if_pos rfl, if_pos hi]
  · intro r h1
    rw [List.getElem?_set_ne (fun e => h1 e.symm)]

theorem inv_inv (z : Int) : inv (inv z) = z := by unfold inv; omega

theorem bwtStepL_spec {k : Nat} (hk : ∀ c ∈ T, c < k) {xy : Option (Nat × Nat)} {len i : Nat} (hxy : XYok T.length len xy)
    (hi : i < T.length) {s : Bwt} (h : DoneL T k xy len i s) :
    ∃ s', bwtStepL T xy s i = some s' ∧ DoneL T k xy len (i + 1) s' ∧ s'.pidx = s.pidx := by
  obtain ⟨bp, hI, hP⟩ := h.inv
  have hsz := h.size
  rcases hI.here hi with ⟨r, _, hr, hrt, hA⟩ | ⟨hno, hA⟩
  · have hrn : r < T.length := (ordL T).bound r hr
    by_cases hpred : r ≠ 0 ∧ isL T (r - 1)
    · -- the predecessor is written
      obtain ⟨hr0, hl⟩ := hpred
      obtain ⟨q, rfl⟩ : ∃ q, r = q + 1 := ⟨r - 1, by omega⟩
      rw [show q + 1 - 1 = q by omega] at hl
      obtain ⟨h1, h2, h3, h4⟩ := hI.place hi (q := q) hl hrt
      have hkey : (ordL T).sched.key q = ch T q := rfl
      rw [hkey] at h1 h2 h3 h4
      have hst : stL T (q + 1) = ((q + 1 : Nat) : Int) := by
        unfold stL; rw [if_neg (by omega), show q + 1 - 1 = q by omega, if_pos hl]
      have hfin : finL T (q + 1) = Sais.inv (ch T q) := by
        unfold finL; rw [if_neg (by omega), show q + 1 - 1 = q by omega, if_pos hl]
      rw [hst] at hA
      obtain ⟨lf', n1, n2, _, n4, n5⟩ := note_spec (n := T.length) (xy := xy) (lf := s.lf) (by rw [h.lf]; exact hxy)
        (j := q + 1) (by omega) hrn i
      obtain ⟨B', b1, b2⟩ := switch_spec hP (c0 := ch T q) (ch_lt hk hl.1)
      have hset := get_set2 (A := s.sa) (v := Sais.inv (ch T q)) (w := stL T q) (show i < s.sa.length by omega)
        (show bp (ch T q) < s.sa.length by omega) (by omega)
      refine ⟨⟨⟨(s.sa.set i (Sais.inv (ch T q))).set (bp (ch T q)) (stL T q), B', ch T q, bp (ch T q) + 1⟩, lf', s.pidx⟩, ?_,
        ⟨?_, ?_, ?_, ?_⟩, rfl⟩
      · unfold bwtStepL
        rw [bind_some' hA, if_pos (by omega)]
        simp only [Int.toNat_natCast]
        rw [bind_some' n1, show q + 1 - 1 = q by omega, bind_some' (get_ch hl.1), bind_some' b1, bind_some' (markL_spec hl),
          bind_some' (put_spec (by rw [List.length_set]; omega) _)]
        rfl
      · simp only [List.length_set]; exact hsz
      · refine ⟨fun c => if c = ch T q then bp (ch T q) + 1 else bp c, ?_, b2 _⟩
        apply h4
        · rw [hfin]; exact hset.1
        · exact hset.2.1
        · exact hset.2.2
        · exact if_pos rfl
        · intro c hc; exact if_neg hc
      · rw [← h.lf]; exact n2
      · intro p hp hp0 hpl hpt
        by_cases e : p = q + 1
        · subst e
          have ht : (ordL T).time (q + 1) = i + 1 := hrt
          rw [timeL_eq hp] at ht
          rw [show row T (q + 1) = i by omega]
          exact n4
        · apply n5 p _ hp.1 e
          apply h.noted p hp hp0 hpl
          have : (ordL T).time p ≠ i + 1 := fun ht => e ((ordL T).time_inj (Or.inr hp) hr (by rw [ht]; exact hrt.symm))
          omega
    · -- nothing is written
      have hrL : isL T r := by
        rcases hr with hr | hr
        · exact absurd (lms_pred_isL hr) hpred
        · exact hr
      have hnoq : ∀ q, (ordL T).sched.tgt q → q + 1 ≠ r := by
        intro q hq e
        exact hpred ⟨by omega, by rw [← e]; exact hq⟩
      have hnoted : ∀ p, isL T p → 0 < p → isL T (p - 1) → (ordL T).time p ≤ i + 1 →
          Noted T.length xy s.lf p (row T p) := by
        intro p hp hp0 hpl hpt
        by_cases e : p = r
        · exact absurd ⟨by omega, by rw [← e]; exact hpl⟩ hpred
        · apply h.noted p hp hp0 hpl
          have : (ordL T).time p ≠ i + 1 := fun ht => e ((ordL T).time_inj (Or.inr hp) hr (by rw [ht]; exact hrt.symm))
          omega
      by_cases e : r = 0
      · have hst : stL T r = 0 := by unfold stL; rw [if_pos e]
        have hfin : finL T r = 0 := by unfold finL; rw [if_pos e]
        rw [hst] at hA
        refine ⟨s, ?_, ⟨hsz, ⟨bp, ?_, hP⟩, h.lf, hnoted⟩, rfl⟩
        · unfold bwtStepL
          rw [bind_some' hA, if_neg (by omega), if_neg (by simp)]
          rfl
        · apply hI.skip hr hrt hnoq
          · rw [hfin]; exact hA
          · intro t _; rfl
      · have hnl : ¬ isL T (r - 1) := fun a => hpred ⟨e, a⟩
        have hst : stL T r = Sais.inv r := by unfold stL; rw [if_neg e, if_neg hnl]
        have hfin : finL T r = r := by unfold finL; rw [if_neg e, if_neg hnl]
        rw [hst] at hA
        have hset := get_set1 (A := s.sa) (v := Sais.inv (Sais.inv r)) (show i < s.sa.length by omega)
        refine ⟨{ s with sa := s.sa.set i (Sais.inv (Sais.inv r)) }, ?_, ⟨?_, ⟨bp, ?_, hP⟩, h.lf, hnoted⟩, rfl⟩
        · unfold bwtStepL
          rw [bind_some' hA, if_neg (by unfold Sais.inv; omega), if_pos (by unfold Sais.inv; omega)]
          rfl
        · simp only [List.length_set]; exact hsz
        · apply hI.skip hr hrt hnoq
          · rw [hfin]; simpa only [inv_inv] using hset.1
          · exact hset.2
  · refine ⟨s, ?_, ⟨hsz, ⟨bp, ?_, hP⟩, h.lf, ?_⟩, rfl⟩
    · unfold bwtStepL
      rw [bind_some' hA, if_neg (by omega), if_neg (by simp)]
      rfl
    · exact hI.pass hno _ hA (fun _ _ => rfl)
    · intro p hp hp0 hpl hpt
      apply h.noted p hp hp0 hpl
      have := hno p (Or.inr hp)
      have : (ordL T).time p ≠ i + 1 := this
      omega

/-! ## The second pass -/

/-- What the second pass finds for `p`. -/
noncomputable def stS (T : List Nat) (p : Nat) : Int :=
  if p = 0 then 0 else if isS T (p - 1) then p else Sais.inv (ch T (p - 1))

/-- What `computeBWT` leaves in the cell of `p`. -/
def finS (T : List Nat) (p : Nat) : Int := if p = 0 then 0 else (ch T (p - 1) : Int)

theorem finL_stS {p : Nat} (hp : p < T.length) : finL T p = stS T p := by
  unfold finL stS
  by_cases e : p = 0
  · rw [if_pos e, if_pos e]
  · rw [if_neg e, if_neg e]
    have hp' : p - 1 < T.length := by omega
    rcases type_total hp' with h | h
    · rw [if_pos h, if_neg ((not_isS hp').mpr h)]
    · rw [if_pos h, if_neg ((not_isL hp').mpr h)]

/-- The array in the order of the second pass. -/
def rev (n : Nat) (sa : List Int) (t : Nat) : Option Int := if t < n then sa[n - 1 - t]? else none

/-- After `t` steps of the second pass. -/
structure DoneS (T : List Nat) (k : Nat) (hk : ∀ p, p < T.length → ch T p < k) (xy : Option (Nat × Nat)) (len t : Nat)
    (s : Bwt) : Prop where
  size : s.sa.length = T.length
  inv : ∃ bp, (ordS T k hk).sched.Inv (stS T) (finS T) (fun _ => 0) (fun _ => 0) t (rev T.length s.sa)
    (fun c => T.length - bp (k - 1 - c)) ∧ Ptrs k s.B s.c1 s.b bp
  lf : s.lf.length = len
  noted : ∀ p, p < T.length → 0 < p → (isL T (p - 1) ∧ (ordS T k hk).sched.placed t p) ∨ (ordS T k hk).time p ≤ t →
    Noted T.length xy s.lf p (row T p)
  whole : (ordS T k hk).time 0 ≤ t → s.pidx = some (row T 0) ∧ (xy ≠ none → s.lf[0]? = some (row T 0))

theorem rev_set1 {n : Nat} {A : List Int} {t : Nat} {v : Int} (hA : A.length = n) (ht : t < n) :
    rev n (A.set (n - 1 - t) v) t = some v ∧ ∀ r, r ≠ t → rev n (A.set (n - 1 - t) v) r = rev n A r := by
  unfold rev
  refine ⟨?_, ?_⟩
  · rw [if_pos ht, List.getElem?_set, if_pos rfl, if_pos (by omega)]
  · intro r h1
    by_cases hr : r < n
    · rw [if_pos hr, if_pos hr, List.getElem?_set_ne (by omega)]
    · rw [if_neg hr, if_neg hr]

theorem rev_set2 {n : Nat} {A : List Int} {t u : Nat} {v w : Int} (hA : A.length = n) (ht : t < n) (hu : u < n)
    (hne : t ≠ u) :
    rev n ((A.set (n - 1 - t) v).set (n - 1 - u) w) t = some v ∧
    rev n ((A.set (n - 1 - t) v).set (n - 1 - u) w) u = some w ∧
    ∀ r, r ≠ t → r ≠ u → rev n ((A.set (n - 1 - t) v).set (n - 1 - u) w) r = rev n A r := by
  have h1 := rev_set1 (v := v) hA ht
  have h2 := rev_set1 (A := A.set (n - 1 - t) v) (v := w) (by rw [List.length_set]; exact hA) hu
  refine ⟨?_, h2.1, ?_⟩
  · rw [h2.2 t hne]; exact h1.1
  · intro r a b
    rw [h2.2 r b]; exact h1.2 r a

theorem all_act {k : Nat} (hk : ∀ p, p < T.length → ch T p < k) {p : Nat} (hp : p < T.length) :
    (ordS T k hk).src p ∨ (ordS T k hk).tgt p := type_total hp

theorem step_place {k : Nat} (hk : ∀ p, p < T.length → ch T p < k) {t q : Nat}
    (hrt : (ordS T k hk).time (q + 1) = t + 1) (hqn : q + 1 < T.length) {p : Nat}
    (h : (ordS T k hk).sched.placed (t + 1) p) : (ordS T k hk).sched.placed t p ∨ p = q := by
  rcases h with h | h
  · exact Or.inl (Or.inl h)
  · by_cases e : (ordS T k hk).time (p + 1) ≤ t
    · exact Or.inl (Or.inr ⟨h.1, e⟩)
    · right
      have h2 : (ordS T k hk).time (p + 1) ≤ t + 1 := h.2
      have hp1 : p + 1 < T.length := isS_next h.1
      have := (ordS T k hk).time_inj (all_act hk hp1) (all_act hk hqn) (by omega)
      omega

theorem bwtStepS_spec {k : Nat} (hk : ∀ p, p < T.length → ch T p < k) {xy : Option (Nat × Nat)} {len t : Nat}
    (hxy : XYok T.length len xy) (ht : t < T.length) {s : Bwt} (h : DoneS T k hk xy len t s) :
    ∃ s', bwtStepS T xy s (T.length - 1 - t) = some s' ∧ DoneS T k hk xy len (t + 1) s' := by
  obtain ⟨bp, hI, hP⟩ := h.inv
  have hsz := h.size
  rcases hI.here ht with ⟨r, hpl, hr, hrt, hA⟩ | ⟨hno, hA⟩
  · have hrn : r < T.length := (ordS T k hk).bound r hr
    have hrt' : (ordS T k hk).time r = t + 1 := hrt
    have hrow := timeS_eq k hk hrn
    have hrow' : row T r = T.length - 1 - t := by omega
    have hget : s.sa[T.length - 1 - t]? = some (stS T r) := by
      unfold rev at hA; rwa [if_pos ht] at hA
    have huniq : ∀ p, p < T.length → (ordS T k hk).time p ≤ t + 1 → p = r ∨ (ordS T k hk).time p ≤ t := by
      intro p hp hpt
      by_cases e : (ordS T k hk).time p ≤ t
      · exact Or.inr e
      · exact Or.inl ((ordS T k hk).time_inj (all_act hk hp) hr (by omega))
    by_cases e : r = 0
    · subst e
      have hst : stS T 0 = 0 := if_pos rfl
      rw [hst] at hget
      have hnoq : ∀ q, (ordS T k hk).sched.tgt q → q + 1 ≠ 0 := fun q _ => by omega
      have hI' : (ordS T k hk).sched.Inv (stS T) (finS T) (fun _ => 0) (fun _ => 0) (t + 1) (rev T.length s.sa)
          (fun c => T.length - bp (k - 1 - c)) := by
        apply hI.skip hr hrt hnoq
        · unfold rev; rw [if_pos ht]; exact hget
        · intro u _; rfl
      have hplaced : ∀ p, p < T.length → (ordS T k hk).sched.placed (t + 1) p → (ordS T k hk).sched.placed t p := by
        intro p hp hpp
        rcases hpp with hpp | hpp
        · exact Or.inl hpp
        · refine Or.inr ⟨hpp.1, ?_⟩
          have h2 : (ordS T k hk).time (p + 1) ≤ t + 1 := hpp.2
          rcases huniq (p + 1) (isS_next hpp.1) h2 with a | a
          · omega
          · exact a
      cases xy with
      | none =>
        refine ⟨{ s with pidx := some (T.length - 1 - t) }, ?_, ⟨hsz, ⟨bp, hI', hP⟩, h.lf, ?_, ?_⟩⟩
        · unfold bwtStepS
          rw [bind_some' hget, if_neg (by omega), if_neg (by simp)]
          rfl
        · intro p _ _ _; trivial
        · intro _; exact ⟨by rw [hrow'], fun a => absurd rfl a⟩
      | some z =>
        obtain ⟨x, y⟩ := z
        have hlen : 0 < s.lf.length := by rw [h.lf]; exact hxy.2.1
        refine ⟨{ s with lf := s.lf.set 0 (T.length - 1 - t), pidx := some (T.length - 1 - t) },
          ?_, ⟨hsz, ⟨bp, hI', hP⟩, ?_, ?_, ?_⟩⟩
        · unfold bwtStepS
          rw [bind_some' hget, if_neg (by omega), if_neg (by simp)]
          exact if_pos hlen
        · simp only [List.length_set]; exact h.lf
        · intro p hp hp0 hpp a b
          have hold : Noted T.length (some (x, y)) s.lf p (row T p) := by
            apply h.noted p hp hp0
            rcases hpp with hpp | hpp
            · exact Or.inl ⟨hpp.1, hplaced p hp hpp.2⟩
            · rcases huniq p hp hpp with c | c
              · omega
              · exact Or.inr c
          have := hold a b
          rw [List.getElem?_set_ne]
          · exact this
          · intro e0
            have a' := Nat.div_add_mod (T.length - p) x
            rw [← e0] at a'
            omega
        · intro _
          refine ⟨by rw [hrow'], fun _ => ?_⟩
          simp only
          rw [List.getElem?_set, if_pos rfl, if_pos hlen, hrow']
    · have h0 : (ordS T k hk).time 0 ≤ t + 1 → (ordS T k hk).time 0 ≤ t := by
        intro a
        rcases huniq 0 (by omega) a with c | c
        · exact absurd c.symm e
        · exact c
      obtain ⟨q, rfl⟩ : ∃ q, r = q + 1 := ⟨r - 1, by omega⟩
      have hqn : q < T.length := by omega
      rcases type_total hqn with hl | hs
      · -- nothing is induced
        have hst : stS T (q + 1) = Sais.inv (ch T q) := by
          unfold stS; rw [if_neg (by omega), show q + 1 - 1 = q by omega, if_neg ((not_isS hqn).mpr hl)]
        have hfin : finS T (q + 1) = (ch T q : Int) := by
          unfold finS; rw [if_neg (by omega), show q + 1 - 1 = q by omega]
        rw [hst] at hget
        have hset := rev_set1 (v := (ch T q : Int)) hsz ht
        have hplaced : ∀ p, p < T.length → (ordS T k hk).sched.placed (t + 1) p → (ordS T k hk).sched.placed t p := by
          intro p hp hpp
          rcases step_place hk hrt hrn hpp with a | a
          · exact a
          · subst a
            rcases hpp with hpp | hpp
            · exact Or.inl hpp
            · exact (not_isL_isS hl hpp.1).elim
        refine ⟨{ s with sa := s.sa.set (T.length - 1 - t) (ch T q : Int) }, ?_, ⟨?_, ⟨bp, ?_, hP⟩, h.lf, ?_, ?_⟩⟩
        · unfold bwtStepS
          rw [bind_some' hget, if_neg (by unfold Sais.inv; omega), if_pos (by unfold Sais.inv; omega), inv_inv]
          rfl
        · simp only [List.length_set]; exact hsz
        · apply hI.skip hr hrt
          · intro q' hq' e'
            have : q' = q := by omega
            subst this
            exact not_isL_isS hl hq'
          · rw [hfin]; exact hset.1
          · exact hset.2
        · intro p hp hp0 hpp
          rcases hpp with hpp | hpp
          · exact h.noted p hp hp0 (Or.inl ⟨hpp.1, hplaced p hp hpp.2⟩)
          · rcases huniq p hp hpp with a | a
            · subst a
              exact h.noted _ hp hp0 (Or.inl ⟨hl, hpl⟩)
            · exact h.noted p hp hp0 (Or.inr a)
        · intro a; exact h.whole (h0 a)
      · -- the predecessor is induced
        have hst : stS T (q + 1) = ((q + 1 : Nat) : Int) := by
          unfold stS; rw [if_neg (by omega), show q + 1 - 1 = q by omega, if_pos hs]
        have hfin : finS T (q + 1) = (ch T q : Int) := by
          unfold finS; rw [if_neg (by omega), show q + 1 - 1 = q by omega]
        rw [hst] at hget
        obtain ⟨h1, h2, h3, h4⟩ := hI.place ht (q := q) hs hrt
        have hkey : (ordS T k hk).sched.key q = k - 1 - ch T q := rfl
        have hcq := hk q hqn
        rw [hkey] at h1 h2 h3 h4
        simp only [show k - 1 - (k - 1 - ch T q) = ch T q by omega] at h1 h2 h3 h4
        have hrowq := timeS_eq k hk hqn
        have h1' : T.length - bp (ch T q) + 1 = (ordS T k hk).time q := h1
        have hbpos : bp (ch T q) ≠ 0 := by omega
        have hble : bp (ch T q) ≤ T.length := by omega
        have hbrow : row T q = bp (ch T q) - 1 := by omega
        obtain ⟨lf1, n1, n2, n3, n4, n5⟩ := note_spec (n := T.length) (xy := xy) (lf := s.lf) (by rw [h.lf]; exact hxy)
          (j := q + 1) (by omega) hrn (T.length - 1 - t)
        obtain ⟨B', b1, b2⟩ := switch_spec hP (c0 := ch T q) hcq
        have hset := rev_set2 (v := (ch T q : Int)) (w := stS T q) hsz ht h3 (by omega)
        have hbi : T.length - 1 - (T.length - bp (ch T q)) = bp (ch T q) - 1 := by omega
        rw [hbi] at hset
        have hinv : (ordS T k hk).sched.Inv (stS T) (finS T) (fun _ => 0) (fun _ => 0) (t + 1)
            (rev T.length ((s.sa.set (T.length - 1 - t) (ch T q : Int)).set (bp (ch T q) - 1) (stS T q)))
            (fun c => T.length - (fun c => if c = ch T q then bp (ch T q) - 1 else bp c) (k - 1 - c)) := by
          · have := h4 (rev T.length ((s.sa.set (T.length - 1 - t) (ch T q : Int)).set (bp (ch T q) - 1) (stS T q)))
              (fun c => if c = k - 1 - ch T q then T.length - bp (ch T q) + 1 else T.length - bp (k - 1 - c))
              (by rw [hfin]; exact hset.1) hset.2.1 hset.2.2 (by simp only [if_true])
              (by intro c hc; exact if_neg hc)
            refine ⟨?_, this.full, this.other, this.dom⟩
            intro p hp
            have hf := this.free p hp
            have hkp := hk p hp.1
            have hkeyp : (ordS T k hk).sched.key p = k - 1 - ch T p := rfl
            rw [hkeyp] at hf ⊢
            rw [← hf]
            simp only [show k - 1 - (k - 1 - ch T p) = ch T p by omega]
            by_cases ec : ch T p = ch T q
            · rw [if_pos ec, if_pos (by omega)]; omega
            · rw [if_neg ec, if_neg (by omega)]
        have hlen' : ((s.sa.set (T.length - 1 - t) (ch T q : Int)).set (bp (ch T q) - 1) (stS T q)).length = T.length := by
          rw [List.length_set, List.length_set]; exact hsz
        have hput : put (s.sa.set (T.length - 1 - t) (ch T q : Int)) (bp (ch T q) - 1) (stS T q) =
            some ((s.sa.set (T.length - 1 - t) (ch T q : Int)).set (bp (ch T q) - 1) (stS T q)) :=
          put_spec (by rw [List.length_set]; omega) _
        -- the final vector of starting points
        suffices H : ∃ lf2, lf2.length = s.lf.length ∧ lf2[0]? = s.lf[0]? ∧
            (∀ j' r', j' < T.length → Noted T.length xy lf1 j' r' → j' ≠ q → Noted T.length xy lf2 j' r') ∧
            (0 < q → isL T (q - 1) → Noted T.length xy lf2 q (row T q)) ∧
            (¬ (0 < q ∧ isL T (q - 1)) → lf2 = lf1) ∧
            bwtStepS T xy s (T.length - 1 - t) = some ⟨⟨(s.sa.set (T.length - 1 - t) (ch T q : Int)).set
              (bp (ch T q) - 1) (stS T q), B', ch T q, bp (ch T q) - 1⟩, lf2, s.pidx⟩ by
          obtain ⟨lf2, l1, l2, l3, l4, l5, l6⟩ := H
          refine ⟨_, l6, ⟨hlen', ⟨_, hinv, b2 _⟩, by rw [← h.lf]; exact l1, ?_, ?_⟩⟩
          · intro p hp hp0 hpp
            by_cases epq : p = q
            · subst epq
              by_cases hc : isL T (p - 1)
              · exact l4 hp0 hc
              · rcases hpp with hpp | hpp
                · exact absurd hpp.1 hc
                · have := h1'
                  have h2' : t < T.length - bp (ch T p) := h2
                  omega
            · apply l3 p _ hp _ epq
              by_cases epr : p = q + 1
              · subst epr; rw [hrow']; exact n4
              · apply n5 p _ hp epr
                apply h.noted p hp hp0
                rcases hpp with hpp | hpp
                · rcases step_place hk hrt hrn hpp.2 with a | a
                  · exact Or.inl ⟨hpp.1, a⟩
                  · exact absurd a epq
                · rcases huniq p hp hpp with a | a
                  · exact absurd a epr
                  · exact Or.inr a
          · intro a
            obtain ⟨w1, w2⟩ := h.whole (h0 a)
            refine ⟨w1, fun hx => ?_⟩
            show lf2[0]? = _
            rw [l2]; exact w2 hx
        have hstart : bwtStepS T xy s (T.length - 1 - t) = (do
            if 0 < q then
              let c ← T[q - 1]?
              if ch T q < c then
                let lf ← note T.length xy lf1 (bp (ch T q) - 1) q
                let sa ← put (s.sa.set (T.length - 1 - t) (ch T q : Int)) (bp (ch T q) - 1) (Sais.inv c)
                return ⟨⟨sa, B', ch T q, bp (ch T q) - 1⟩, lf, s.pidx⟩
              else
                let sa ← put (s.sa.set (T.length - 1 - t) (ch T q : Int)) (bp (ch T q) - 1) (q : Int)
                return ⟨⟨sa, B', ch T q, bp (ch T q) - 1⟩, lf1, s.pidx⟩
            else
              let sa ← put (s.sa.set (T.length - 1 - t) (ch T q : Int)) (bp (ch T q) - 1) (q : Int)
              return ⟨⟨sa, B', ch T q, bp (ch T q) - 1⟩, lf1, s.pidx⟩) := by
          unfold bwtStepS
          rw [bind_some' hget, if_pos (by omega)]
          simp only [Int.toNat_natCast]
          rw [bind_some' n1, show q + 1 - 1 = q by omega, bind_some' (get_ch hqn), bind_some' b1]
          simp only
          rw [if_neg hbpos]
        by_cases hq0 : 0 < q
        · have hq1 : q - 1 < T.length := by omega
          have hSp : isS T (q - 1) ↔ ch T (q - 1) ≤ ch T q := by
            obtain ⟨u, rfl⟩ : ∃ u, q = u + 1 := ⟨q - 1, by omega⟩
            rw [show u + 1 - 1 = u by omega]; exact S_pred hs
          rw [if_pos hq0, bind_some' (get_ch hq1)] at hstart
          by_cases hlt : ch T q < ch T (q - 1)
          · have hql : isL T (q - 1) := (not_isS hq1).mp (fun a => by have := hSp.mp a; omega)
            have hsq : stS T q = Sais.inv (ch T (q - 1)) := by
              unfold stS; rw [if_neg (by omega), if_neg ((not_isS hq1).mpr hql)]
            obtain ⟨lf2, m1, m2, m3, m4, m5⟩ := note_spec (n := T.length) (xy := xy) (lf := lf1)
              (by rw [n2, h.lf]; exact hxy) (j := q) hq0 hqn (bp (ch T q) - 1)
            refine ⟨lf2, by rw [m2, n2], by rw [m3, n3], ?_, ?_, ?_, ?_⟩
            · intro j' r' hj' hN hne; exact m5 j' r' hj' hne hN
            · intro _ _; rw [hbrow]; exact m4
            · intro a; exact absurd ⟨hq0, hql⟩ a
            · rw [hstart, if_pos hlt, bind_some' m1, ← hsq, bind_some' hput]; rfl
          · have hqs : isS T (q - 1) := hSp.mpr (by omega)
            have hsq : stS T q = (q : Int) := by
              unfold stS; rw [if_neg (by omega), if_pos hqs]
            refine ⟨lf1, n2, n3, fun _ _ _ hN _ => hN, ?_, fun _ => rfl, ?_⟩
            · intro _ a; exact (not_isL_isS a hqs).elim
            · rw [hstart, if_neg hlt, ← hsq, bind_some' hput]; rfl
        · have hsq : stS T q = (q : Int) := by
            unfold stS; rw [if_pos (by omega)]; omega
          refine ⟨lf1, n2, n3, fun _ _ _ hN _ => hN, fun a => absurd a hq0, fun _ => rfl, ?_⟩
          rw [hstart, if_neg hq0, ← hsq, bind_some' hput]; rfl
  · exfalso
    obtain ⟨p, hp, e⟩ := row_surj (T := T) (r := T.length - 1 - t) (by omega)
    have := timeS_eq k hk hp
    have h1 : (ordS T k hk).time p = t + 1 := by omega
    exact hno p (all_act hk hp) h1

/-! ## The whole of `computeBWT` -/

theorem start_pos {p : Nat} (hp : isL T p) (i : Nat) (h : i = 0) (hn : (ordL T).time (p + 1) ≤ i) : p + 1 = T.length := by
  rcases L_next hp with a | a | a
  · exact a
  · have := (ordL T).time_tgt a.1
    omega
  · have := ((ordL T).act_range (Or.inl a.1)).1
    omega

theorem initL_inv {k : Nat} (hk : ∀ c ∈ T, c < k) (hn : 0 < T.length) {sa : List Int} (h : Spread T sa) :
    (ordL T).sched.Inv (stL T) (finL T) (fun _ => 0) (fun _ => 0) 0
      (fun r => (sa.set (cnt T.length (fun q => ch T q < ch T (T.length - 1))) (stL T (T.length - 1)))[r]?)
      (fun c => if c = ch T (T.length - 1) then cnt T.length (fun q => ch T q < ch T (T.length - 1)) + 1
        else cnt T.length (fun q => ch T q < c)) := by
  have hlast : isL T (T.length - 1) := isL_last (by omega)
  have htl : (ordL T).time (T.length - 1) = cnt T.length (fun q => ch T q < ch T (T.length - 1)) + 1 := by
    rw [(ordL T).time_tgt hlast]
    have : cnt T.length (fun q => (ordL T).tgt q ∧ (ordL T).ch q = (ordL T).ch (T.length - 1) ∧
        (ordL T).lt q (T.length - 1)) = 0 := by
      apply cnt_false
      intro q hq a
      by_cases e : q = T.length - 1
      · subst e; exact (ordL T).irrefl _ a.2.2
      · have := (ordL T).last (T.length - 1) q hlast a.1 a.2.1.symm (by omega) (fun e' => e e'.symm)
        exact (ordL T).irrefl _ ((ordL T).trans _ _ _ a.2.2 this)
    rw [this]; rfl
  have hr := (ordL T).sched.range _ (Or.inr hlast)
  have hlen := h.1
  constructor
  · intro p hp
    have hkey : (ordL T).sched.key p = ch T p := rfl
    rw [hkey]
    have hz : ∀ q, ((ordL T).sched.tgt q ∧ (ordL T).sched.key q = ch T p ∧ (ordL T).sched.time (q + 1) ≤ 0) →
        q = T.length - 1 := by
      intro q a
      have := start_pos a.1 0 rfl a.2.2
      omega
    by_cases e : ch T p = ch T (T.length - 1)
    · rw [if_pos e]
      have : cnt T.length (fun q => (ordL T).sched.tgt q ∧ (ordL T).sched.key q = ch T p ∧
          (ordL T).sched.time (q + 1) ≤ 0) = 1 := by
        apply cnt_one (a := T.length - 1) (by omega)
        intro q _
        constructor
        · exact hz q
        · rintro rfl
          refine ⟨hlast, e.symm, ?_⟩
          rw [show T.length - 1 + 1 = T.length by omega, (ordL T).sched.zero]
          exact Nat.le_refl 0
      rw [this, e]; rfl
    · rw [if_neg e]
      have : cnt T.length (fun q => (ordL T).sched.tgt q ∧ (ordL T).sched.key q = ch T p ∧
          (ordL T).sched.time (q + 1) ≤ 0) = 0 := by
        apply cnt_false
        intro q _ a
        have := hz q a
        subst this
        exact e a.2.1.symm
      rw [this]; rfl
  · intro p hp
    have hpa : (ordL T).src p ∨ (ordL T).tgt p := by
      rcases hp with hp | hp
      · exact Or.inl hp
      · exact Or.inr hp.1
    have hpr := (ordL T).sched.range p hpa
    rw [if_neg (by omega)]
    by_cases e : p = T.length - 1
    · subst e
      have h0 : (ordL T).sched.time (T.length - 1) - 1 = cnt T.length (fun q => ch T q < ch T (T.length - 1)) := by
        have : (ordL T).sched.time (T.length - 1) = (ordL T).time (T.length - 1) := rfl
        omega
      have hr2 := hr.2
      have hr1 := hr.1
      rw [h0, List.getElem?_set, if_pos rfl, if_pos (by omega)]
    · rcases hp with hp | hp
      · have hne : (ordL T).time p ≠ (ordL T).time (T.length - 1) :=
          fun a => e ((ordL T).time_inj (Or.inl hp) (Or.inr hlast) a)
        have ht : (ordL T).sched.time p = (ordL T).time p := rfl
        rw [List.getElem?_set_ne (by omega), ht, h.2.1 p hp]
        have := lms_pred_isL hp
        unfold stL; rw [if_neg this.1, if_pos this.2]
      · have := start_pos hp.1 0 rfl hp.2
        omega
  · intro r hr' hne
    rw [if_neg (by omega)]
    have hne1 := hne _ (Or.inr hlast)
    have ht : (ordL T).sched.time (T.length - 1) = (ordL T).time (T.length - 1) := rfl
    rw [List.getElem?_set_ne (by omega)]
    exact h.2.2 r hr' (fun p hp => hne p (Or.inl hp))
  · intro r hr'
    have : r < (sa.set (cnt T.length (fun q => ch T q < ch T (T.length - 1))) (stL T (T.length - 1))).length := by
      rw [List.length_set, hlen]; exact hr'
    rw [List.getElem?_eq_getElem this]
    exact Option.some_ne_none _

theorem rev_dom {n : Nat} {sa : List Int} (h : sa.length = n) (r : Nat) (hr : r < n) : rev n sa r ≠ none := by
  unfold rev
  rw [if_pos hr, List.getElem?_eq_getElem (by omega)]
  exact Option.some_ne_none _

/-- The second pass starts with the L suffixes at their rows. -/
theorem initS_inv {k : Nat} (hk : ∀ p, p < T.length → ch T p < k) {st fin : Nat → Int} {sa : List Int}
    (hlen : sa.length = T.length) (h : ∀ p, isL T p → sa[row T p]? = some (st p)) :
    (ordS T k hk).sched.Inv st fin (fun _ => 0) (fun _ => 0) 0 (rev T.length sa)
      (fun c => T.length - cnt T.length (fun q => ch T q ≤ k - 1 - c)) := by
  constructor
  · intro p hp
    have hkey : (ordS T k hk).sched.key p = k - 1 - ch T p := rfl
    have hkp := hk p hp.1
    have h0 : cnt T.length (fun q => (ordS T k hk).sched.tgt q ∧ (ordS T k hk).sched.key q = (ordS T k hk).sched.key p ∧
        (ordS T k hk).sched.time (q + 1) ≤ 0) = 0 := by
      apply cnt_false
      intro q hq a
      have := ((ordS T k hk).act_range (all_act hk (isS_next a.1))).1
      have h2 : (ordS T k hk).time (q + 1) ≤ 0 := a.2.2
      omega
    rw [h0, hkey]
    have h1 : (ordS T k hk).sched.start (k - 1 - ch T p) = cnt T.length (fun q => ch T p < ch T q) := by
      apply cnt_congr
      intro q hq
      have hkq := hk q hq
      show k - 1 - ch T q < k - 1 - ch T p ↔ _
      omega
    have h2 := cnt_or (n := T.length) (P := fun q => ch T p < ch T q) (Q := fun q => ch T q ≤ ch T p)
      (R := fun _ => True) (fun q _ => by simp only [true_iff]; omega) (fun q _ a b => by omega)
    rw [cnt_true (fun _ _ => trivial)] at h2
    rw [h1, show k - 1 - (k - 1 - ch T p) = ch T p by omega]
    omega
  · intro p hp
    have hL : isL T p := by
      rcases hp with hp | hp
      · exact hp
      · have := ((ordS T k hk).act_range (all_act hk (isS_next hp.1))).1
        have h2 : (ordS T k hk).time (p + 1) ≤ 0 := hp.2
        omega
    have hr := timeS_eq k hk hL.1
    have hlt := row_lt hL.1
    have ht : (ordS T k hk).sched.time p = (ordS T k hk).time p := rfl
    rw [ht, if_neg (by omega)]
    unfold rev
    rw [if_pos (by omega), show T.length - 1 - ((ordS T k hk).time p - 1) = row T p by omega]
    exact h p hL
  · intro r hr hne
    exfalso
    obtain ⟨p, hp, e⟩ := row_surj (T := T) (r := T.length - 1 - r) (by omega)
    have := timeS_eq k hk hp
    have h1 : (ordS T k hk).time p = r + 1 := by omega
    exact hne p (all_act hk hp) h1
  · exact rev_dom hlen

/-- What the two overloads of `computeBWT` give. -/
structure BwtOut (T : List Nat) (xy : Option (Nat × Nat)) (len : Nat) (sa : List Int) (lf : List Nat)
    (pidx : Option Nat) : Prop where
  size : sa.length = T.length
  cell : ∀ p, p < T.length → sa[row T p]? = some (finS T p)
  whole : pidx = some (row T 0)
  lflen : lf.length = len
  zero : xy ≠ none → lf[0]? = some (row T 0)
  noted : ∀ p, p < T.length → 0 < p → Noted T.length xy lf p (row T p)

theorem computeBWT_spec {k : Nat} (hk : ∀ c ∈ T, c < k) (hn : 0 < T.length) (same recount : Bool) {C : List Nat}
    (hC : recount = true ∨ (same = false ∧ Counts T k C)) {sa : List Int} (hsa : Spread T sa) (withLF : Bool) (lf : List Nat)
    (hlf : withLF = true → 0 < lf.length ∧ lf.length ≤ T.length) :
    ∃ sa' lf' pidx, computeBWT T k same recount C sa withLF lf = some (sa', lf', pidx) ∧
      BwtOut T (if withLF then some (T.length / lf.length, T.length - T.length / lf.length * lf.length) else none)
        lf.length sa' lf' pidx := by
  have hk' : ∀ p, p < T.length → ch T p < k := fun p hp => ch_lt hk hp
  have hxy : XYok T.length lf.length
      (if withLF then some (T.length / lf.length, T.length - T.length / lf.length * lf.length) else none) := by
    cases withLF with
    | false => trivial
    | true =>
      obtain ⟨h1, h2⟩ := hlf rfl
      refine ⟨Nat.div_pos h2 h1, h1, ?_⟩
      have := Nat.div_mul_le_self T.length lf.length
      omega
  have hxy1 : spacing T.length withLF lf.length = some (if withLF then
      some (T.length / lf.length, T.length - T.length / lf.length * lf.length) else none) := by
    unfold spacing
    cases withLF with
    | false => rfl
    | true =>
      obtain ⟨h1, h2⟩ := hlf rfl
      have := Nat.div_pos h2 h1
      simp only [if_true]
      rw [if_neg (by omega)]
  generalize (if withLF then some (T.length / lf.length, T.length - T.length / lf.length * lf.length) else none) = xy
    at hxy hxy1 ⊢
  obtain ⟨C1, hc1, hC1⟩ := recounted_spec T k hk recount C (hC.imp id (fun h => h.2))
  have hlast : isL T (T.length - 1) := isL_last (by omega)
  have hcl := hk' (T.length - 1) (by omega)
  have hb1 := getBuckets_start hC1 (ch T (T.length - 1)) hcl
  have hblt : cnt T.length (fun q => ch T q < ch T (T.length - 1)) < T.length := by
    have := ((ordL T).sched.range _ (Or.inr hlast)).2
    have h4 : (ordL T).sched.time (T.length - 1) = (ordL T).time (T.length - 1) := rfl
    have h2 := (ordL T).time_tgt hlast
    have h3 : (ordL T).start ((ordL T).ch (T.length - 1)) = cnt T.length (fun q => ch T q < ch T (T.length - 1)) := rfl
    omega
  have hput := put_spec (A := sa) (by rw [hsa.1]; exact hblt) (stL T (T.length - 1))
  have hstart : DoneL T k xy lf.length 0
      ⟨⟨sa.set (cnt T.length (fun q => ch T q < ch T (T.length - 1))) (stL T (T.length - 1)), getBuckets C1 false,
        ch T (T.length - 1), cnt T.length (fun q => ch T q < ch T (T.length - 1)) + 1⟩, lf, none⟩ := by
    refine ⟨?_, ⟨_, initL_inv hk hn hsa, ?_⟩, rfl, ?_⟩
    · simp only [List.length_set]; exact hsa.1
    · exact Ptrs.init (by rw [getBuckets_length, hC1.1]) hcl (fun c hc => getBuckets_start hC1 c hc) _
    · intro p hp _ _ ht
      have := ((ordL T).act_range (Or.inr hp)).1
      omega
  obtain ⟨s1, hs1, hd1⟩ := loopUp_spec (f := bwtStepL T xy) (DoneL T k xy lf.length) T.length 0 _ (fun j s _ hj hs => by
    obtain ⟨s', a, b, _⟩ := bwtStepL_spec hk hxy (by omega) hs
    exact ⟨s', a, b⟩) hstart
  rw [Nat.zero_add] at hd1
  obtain ⟨C2, hc2, hC2⟩ := recounted_spec T k hk recount (if same then s1.B else C1)
    (hC.imp id (fun h => by rw [h.1]; exact hC1))
  obtain ⟨bp, hI, _⟩ := hd1.inv
  have h0k : 0 < k := by omega
  have hstart2 : DoneS T k hk' xy lf.length 0
      ⟨⟨s1.sa, getBuckets C2 true, 0, cnt T.length (fun q => ch T q ≤ 0)⟩, s1.lf, s1.pidx⟩ := by
    refine ⟨hd1.size, ⟨fun c => cnt T.length (fun q => ch T q ≤ c), initS_inv hk' hd1.size ?_, ?_⟩, hd1.lf, ?_, ?_⟩
    · intro p hp
      have := hI.done (Or.inr hp)
      have ht : (ordL T).sched.time p = (ordL T).time p := rfl
      rw [ht, timeL_eq hp, show row T p + 1 - 1 = row T p by omega, finL_stS hp.1] at this
      exact this
    · exact Ptrs.init' (by rw [getBuckets_length, hC2.1]) h0k (fun c hc => getBuckets_stop hC2 c hc)
    · intro p hp hp0 hpp
      rcases hpp with ⟨a, b⟩ | hpp
      · rcases b with b | b
        · have hr := row_lt hp
          exact hd1.noted p b hp0 a (by rw [timeL_eq b]; omega)
        · have := ((ordS T k hk').act_range (all_act hk' (isS_next b.1))).1
          have h2 : (ordS T k hk').time (p + 1) ≤ 0 := b.2
          omega
      · have := ((ordS T k hk').act_range (all_act hk' hp)).1
        omega
    · intro a
      have := ((ordS T k hk').act_range (all_act hk' hn)).1
      omega
  obtain ⟨s2, hs2, hd2⟩ := loopDown_spec (f := bwtStepS T xy) T.length (DoneS T k hk' xy lf.length) T.length
    (Nat.le_refl _) _ (fun t s ht hs => bwtStepS_spec hk' hxy ht hs) (by rw [Nat.sub_self]; exact hstart2)
  refine ⟨s2.sa, s2.lf, s2.pidx, ?_, ?_⟩
  · unfold computeBWT
    simp only
    rw [hxy1]
    simp only [Option.bind_eq_bind, Option.bind_some]
    rw [hc1]
    simp only [Option.bind_some]
    rw [if_neg (by omega), get_ch (show T.length - 1 < T.length by omega)]
    simp only [Option.bind_some]
    rw [hb1]
    simp only [Option.bind_some]
    rw [markL_spec hlast]
    simp only [Option.bind_some]
    rw [hput]
    simp only [Option.bind_some]
    rw [hs1]
    simp only [Option.bind_some]
    rw [hc2]
    simp only [Option.bind_some]
    rw [getBuckets_stop hC2 0 h0k]
    simp only [Option.bind_some]
    rw [hs2]
    rfl
  · obtain ⟨bp2, hI2, _⟩ := hd2.inv
    have hw := hd2.whole (by have := timeS_eq k hk' hn; omega)
    refine ⟨hd2.size, ?_, hw.1, hd2.lf, hw.2, ?_⟩
    · intro p hp
      have := hI2.done (all_act hk' hp)
      have hr := timeS_eq k hk' hp
      have hlt := row_lt hp
      have ht : (ordS T k hk').sched.time p = (ordS T k hk').time p := rfl
      rw [ht] at this
      unfold rev at this
      rw [if_pos (by omega), show T.length - 1 - ((ordS T k hk').time p - 1) = row T p by omega] at this
      exact this
    · intro p hp hp0
      exact hd2.noted p hp hp0 (Or.inr (by have := timeS_eq k hk' hp; omega))

end Bwtc.Sais
