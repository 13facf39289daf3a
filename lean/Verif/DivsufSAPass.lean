import Verif.DivsufSA
import Verif.DivsufBwt

/-!
# `construct_SA` gives the suffix array

The two passes as in `DivsufPassB.lean` and `DivsufPassA.lean`, with other contents of the cells.
-/

set_option autoImplicit false

namespace Bwtc.Divsuf.SA
open Divsuf
open Induce Suffix Classical
open Sais (inv put rev rev_set1 rev_set2 bind_some' put_spec loopDown_spec loopUp_spec inv_inv get_set1 get_set2 IsSA)

variable {T : List Nat}

/-- What the first pass leaves in the cell of `p`, and what the second pass finds there. -/
noncomputable def midS (T : List Nat) (p : Nat) : Int :=
  if p = 0 ∨ isS T (p - 1) then inv p else p

theorem midS_zero : midS T 0 = inv 0 := if_pos (Or.inl rfl)

theorem midS_S {q : Nat} (h : isS T q) : midS T (q + 1) = inv ((q + 1 : Nat) : Int) := if_pos (Or.inr h)

theorem midS_L {q : Nat} (h : isL T q) : midS T (q + 1) = ((q + 1 : Nat) : Int) :=
  if_neg (by rintro (a | a)
             · omega
             · exact not_isL_isS h a)

/-- The pointer that is used for a bucket. -/
def eff (s : First) (c1 : Nat) (key : Nat × Nat) : Int :=
  if key.2 = c1 ∧ s.c2 = some key.1 then s.k else s.bk.b key.1 key.2

/-- After `i` steps of the first pass, inside row `c1`.  `nst`: what stands in the other cells, `A0`, `S0`: the parts of the
tables that do not change. -/
structure DoneB (T : List Nat) (nst : Nat → Int) (A0 S0 : Nat → Int) (c1 i : Nat) (s : First) : Prop where
  size : s.sa.length = T.length
  inv : ∃ ptr, (schedB T).Inv (stB T) (midS T) nst nst i (rev T.length s.sa) ptr ∧
    ∀ p, isB T p → ch T (p + 1) ≤ c1 → eff s c1 (ch T p, ch T (p + 1)) = (T.length : Int) - 1 - ptr (ch T p, ch T (p + 1))
  bkA : ∀ c, s.bk.A c = A0 c
  bkS : ∀ c, s.bk.star c (c + 1) = S0 c
  small : ∀ c, s.c2 = some c → c ≤ c1

theorem switchB_spec {bk : Buckets} {c2 : Option Nat} {k : Int} {c0 c1 : Nat} (hc : ∀ c, c2 = some c → c ≤ c1) (h0 : c0 ≤ c1) {sa} :
    (switchB bk c2 k c0 c1).2 = eff ⟨sa, bk, c2, k⟩ c1 (c0, c1) ∧
    (∀ c, (switchB bk c2 k c0 c1).1.A c = bk.A c) ∧
    (∀ c, (switchB bk c2 k c0 c1).1.star c (c + 1) = bk.star c (c + 1)) ∧
    ∀ (k' : Int) (sa' : List Int) (key : Nat × Nat), key ≠ (c0, c1) →
      eff ⟨sa', (switchB bk c2 k c0 c1).1, some c0, k'⟩ c1 key = eff ⟨sa, bk, c2, k⟩ c1 key := by
  obtain ⟨a, b, c, d⟩ := Divsuf.switchB_spec (bk := bk) (c2 := c2) (k := k) (c0 := c0) (c1 := c1) hc h0 (sa := sa) (lf := [])
  exact ⟨a, b, c, fun k' sa' key h => d k' sa' [] key h⟩

/-- One step of the first pass, at a type B position with character `c1`. -/
theorem stepB_spec {nst : Nat → Int} {A0 S0 : Nat → Int}
    {c1 i : Nat} (hi : i < T.length) {r : Nat} (hr : isS T r) (hrc : ch T r = c1) (hrow : row T r = T.length - 1 - i)
    {s : First} (h : DoneB T nst A0 S0 c1 i s) :
    ∃ s', stepB T c1 s ((T.length : Int) - 1 - i) = some s' ∧ DoneB T nst A0 S0 c1 (i + 1) s' := by
  obtain ⟨ptr, hI, hP⟩ := h.inv
  have hsz := h.size
  have hrn := hr.1
  have hrt : (schedB T).time r = i + 1 := by rw [timeB hrn, hrow]; omega
  have hj : ((T.length : Int) - 1 - i) = ((T.length - 1 - i : Nat) : Int) := by omega
  rw [hj]
  have hget : s.sa[T.length - 1 - i]? = some (stB T r) := by
    rcases hI.here hi with ⟨r', _, hr', ht', hA⟩ | ⟨hno, _⟩
    · have := (schedB T).inj r' r hr' (actB.mpr hr) (by rw [ht', hrt])
      subst this
      unfold rev at hA; rwa [if_pos hi] at hA
    · exact absurd hrt (hno r (actB.mpr hr))
  by_cases e : r = 0
  · subst e
    have hst : stB T 0 = 0 := if_pos rfl
    rw [hst] at hget
    have hset := rev_set1 (v := inv 0) hsz hi
    refine ⟨{ s with sa := s.sa.set (T.length - 1 - i) (inv 0) }, ?_, ⟨?_, ⟨ptr, ?_, hP⟩, h.bkA, h.bkS, h.small⟩⟩
    · unfold stepB
      rw [getI_nat, bind_some' hget, if_neg (by omega), if_pos rfl, bind_some' (get_ch hrn),
        bind_some' (assert_true (by simpa using hrc)), putI_nat, bind_some' (put_spec (by omega) _)]
      rfl
    · simp only [List.length_set]; exact hsz
    · apply hI.skip (actB.mpr hr) hrt (fun q _ => by omega)
      · rw [midS_zero]; exact hset.1
      · exact hset.2
  · obtain ⟨q, rfl⟩ : ∃ q, r = q + 1 := ⟨r - 1, by omega⟩
    have hqn : q < T.length := by omega
    rcases type_total hqn with hl | hs
    · -- nothing is induced
      have hst : stB T (q + 1) = inv ((q + 1 : Nat) : Int) := by
        unfold stB; rw [if_neg (by omega), show q + 1 - 1 = q by omega, if_neg ((not_isS hqn).mpr hl)]
      rw [hst] at hget
      have hset := rev_set1 (v := ((q + 1 : Nat) : Int)) hsz hi
      refine ⟨{ s with sa := s.sa.set (T.length - 1 - i) ((q + 1 : Nat) : Int) }, ?_,
        ⟨?_, ⟨ptr, ?_, hP⟩, h.bkA, h.bkS, h.small⟩⟩
      · unfold stepB
        rw [getI_nat, bind_some' hget, if_neg (by unfold Sais.inv; omega), if_neg (by unfold Sais.inv; omega), inv_inv,
          putI_nat, bind_some' (put_spec (by omega) _)]
        rfl
      · simp only [List.length_set]; exact hsz
      · apply hI.skip (actB.mpr hr) hrt
        · intro q' hq' e'
          have : q' = q := by omega
          subst this
          exact not_isL_isS hl hq'.1
        · rw [midS_L hl]; exact hset.1
        · exact hset.2
    · -- the predecessor is induced
      have hB : isB T q := ⟨hs, hr⟩
      have hst : stB T (q + 1) = ((q + 1 : Nat) : Int) := by
        unfold stB; rw [if_neg (by omega), show q + 1 - 1 = q by omega, if_pos hs]
      rw [hst] at hget
      obtain ⟨h1, h2, h3, h4⟩ := hI.place hi (q := q) hB hrt
      have hkey : (schedB T).key q = (ch T q, ch T (q + 1)) := rfl
      rw [hkey, hrc] at h1 h2 h3 h4
      have hle : ch T q ≤ c1 := by rw [← hrc]; exact S_ch hs
      obtain ⟨w1, w2, w3, w4⟩ := switchB_spec (bk := s.bk) (k := s.k) (sa := s.sa) h.small hle
      have hk : (switchB s.bk s.c2 s.k (ch T q) c1).2 = ((T.length - 1 - ptr (ch T q, c1) : Nat) : Int) := by
        rw [w1]
        have := hP q hB (by omega)
        rw [hrc] at this
        rw [show (⟨s.sa, s.bk, s.c2, s.k⟩ : First) = s from rfl, this]
        omega
      have hset := rev_set2 (v := inv ((q + 1 : Nat) : Int)) (w := stB T q) hsz hi h3 (by omega)
      have hput1 : put s.sa (T.length - 1 - i) (inv ((q + 1 : Nat) : Int)) = some (s.sa.set (T.length - 1 - i) (inv ((q + 1 : Nat) : Int))) :=
        put_spec (by omega) _
      have hput2 : put (s.sa.set (T.length - 1 - i) (inv ((q + 1 : Nat) : Int))) (T.length - 1 - ptr (ch T q, c1)) (stB T q) =
          some ((s.sa.set (T.length - 1 - i) (inv ((q + 1 : Nat) : Int))).set (T.length - 1 - ptr (ch T q, c1)) (stB T q)) :=
        put_spec (by rw [List.length_set]; omega) _
      refine ⟨⟨(s.sa.set (T.length - 1 - i) (inv ((q + 1 : Nat) : Int))).set (T.length - 1 - ptr (ch T q, c1)) (stB T q),
        (switchB s.bk s.c2 s.k (ch T q) c1).1, some (ch T q), ((T.length - 1 - ptr (ch T q, c1) : Nat) : Int) - 1⟩, ?_,
        ⟨?_, ⟨fun key => if key = (ch T q, c1) then ptr (ch T q, c1) + 1 else ptr key, ?_, ?_⟩, ?_, ?_, ?_⟩⟩
      · unfold stepB
        rw [getI_nat, bind_some' hget, if_pos (by omega)]
        simp only [Int.toNat_natCast]
        rw [bind_some' (get_ch hrn), bind_some' (assert_true (by simpa using hrc)),
          bind_some' (get_ch (isS_next hr)), bind_some' (assert_true (by simpa using S_ch hr)),
          show q + 1 - 1 = q by omega, bind_some' (get_ch hqn), bind_some' (assert_true (by simpa using S_ch hs)),
          putI_nat, bind_some' hput1, bind_some' (markB_spec hs), hk, bind_some' (assert_true (by simp only [decide_eq_true_eq]; omega)),
          putI_nat, bind_some' hput2]
        rfl
      · simp only [List.length_set]; exact hsz
      · apply h4
        · rw [midS_S hs]; exact hset.1
        · exact hset.2.1
        · exact hset.2.2
        · exact if_pos rfl
        · intro c hc; exact if_neg hc
      · intro p hp hpc
        show _ = (T.length : Int) - 1 -
          ((if (ch T p, ch T (p + 1)) = (ch T q, c1) then ptr (ch T q, c1) + 1 else ptr (ch T p, ch T (p + 1)) : Nat) : Int)
        by_cases ek : (ch T p, ch T (p + 1)) = (ch T q, c1)
        · rw [if_pos ek, ek]
          unfold eff
          rw [if_pos ⟨rfl, rfl⟩]
          simp only
          omega
        · rw [if_neg ek, w4 _ _ _ ek]
          exact hP p hp hpc
      · intro c; rw [w2]; exact h.bkA c
      · intro c; rw [w3]; exact h.bkS c
      · intro c hc
        simp only [Option.some.injEq] at hc
        omega

/-- A run of steps at type B positions with character `c1`. -/
theorem loopB_spec {nst : Nat → Int} {A0 S0 : Nat → Int}
    {c1 : Nat} (d i : Nat) (hd : i + d ≤ T.length)
    (hS : ∀ r, r < T.length → T.length - i - d ≤ row T r → row T r < T.length - i → isS T r ∧ ch T r = c1)
    {s : First} (h : DoneB T nst A0 S0 c1 i s) :
    ∃ s', loopB T c1 d ((T.length : Int) - 1 - i) s = some s' ∧ DoneB T nst A0 S0 c1 (i + d) s' := by
  induction d generalizing i s with
  | zero => exact ⟨s, rfl, h⟩
  | succ d ih =>
    obtain ⟨r, hr, hrow⟩ := row_surj (T := T) (r := T.length - 1 - i) (by omega)
    obtain ⟨a, b⟩ := hS r hr (by omega) (by omega)
    obtain ⟨s1, h1, h2⟩ := stepB_spec (by omega) a b hrow h
    obtain ⟨s2, h3, h4⟩ := ih (i + 1) (by omega) (fun r hr h5 h6 => hS r hr (by omega) (by omega)) h2
    refine ⟨s2, ?_, by rw [show i + (d + 1) = i + 1 + d by omega]; exact h4⟩
    unfold loopB
    rw [bind_some' h1, show (T.length : Int) - 1 - i - 1 = (T.length : Int) - 1 - (i + 1 : Nat) by omega]
    exact h3

/-- Slots of other suffixes are passed over. -/
theorem pass_over {nst : Nat → Int} {A0 S0 : Nat → Int} {c1 : Nat} (d i : Nat)
    (hd : i + d ≤ T.length)
    (hL : ∀ r, r < T.length → T.length - i - d ≤ row T r → row T r < T.length - i → isL T r)
    {s : First} (h : DoneB T nst A0 S0 c1 i s) : DoneB T nst A0 S0 c1 (i + d) s := by
  induction d generalizing i with
  | zero => exact h
  | succ d ih =>
    have hno : ∀ p, (schedB T).src p ∨ (schedB T).tgt p → (schedB T).time p ≠ i + 1 := by
      intro p hp e
      have hpS := actB.mp hp
      have hr := row_lt hpS.1
      rw [timeB hpS.1] at e
      exact not_isL_isS (hL p hpS.1 (by omega) (by omega)) hpS
    have h1 : DoneB T nst A0 S0 c1 (i + 1) s := by
      obtain ⟨ptr, hI, hP⟩ := h.inv
      refine ⟨h.size, ⟨ptr, ?_, hP⟩, h.bkA, h.bkS, h.small⟩
      · rcases hI.here (show i < T.length by omega) with ⟨r, _, hr, ht, _⟩ | ⟨_, hA⟩
        · exact absurd ht (hno r hr)
        · exact hI.pass hno _ hA (fun _ _ => rfl)
    have := ih (i + 1) (by omega) (fun r hr h5 h6 => hL r hr (by omega) (by omega)) h1
    rw [show i + (d + 1) = i + 1 + d by omega]
    exact this
/-- Between two rows the pointer belongs to none of the buckets that are still to be used. -/
theorem next_row {nst : Nat → Int} {A0 S0 : Nat → Int} {c1 i : Nat} {s : First}
    (h : DoneB T nst A0 S0 (c1 + 1) i s) : DoneB T nst A0 S0 c1 i { s with c2 := none, k := 0 } := by
  obtain ⟨ptr, hI, hP⟩ := h.inv
  refine ⟨h.size, ⟨ptr, hI, ?_⟩, h.bkA, h.bkS, fun c hc => by simp at hc⟩
  intro p hp hpc
  have := hP p hp (by omega)
  unfold eff at this ⊢
  rw [if_neg (by simp only; omega)] at this
  rw [if_neg (by simp)]
  exact this

theorem rowB_spec {k : Nat} {nst : Nat → Int} {A0 S0 : Nat → Int} {c1 : Nat}
    (hc : c1 + 1 < k) (hA : ∀ c, c < k → A0 c = startA T c) (hS : ∀ c, c + 1 < k → S0 c = startS T c) {s : First}
    (h : DoneB T nst A0 S0 (c1 + 1) (T.length - startA T (c1 + 1)) s) :
    ∃ s', rowB T s c1 = some s' ∧ DoneB T nst A0 S0 c1 (T.length - startA T c1) s' := by
  have h' := next_row h
  have l1 := startA_le_S (T := T) c1
  have l2 := startS_le_A (T := T) c1
  have l3 := startA_le (T := T) (c1 + 1)
  obtain ⟨s1, g1, g2⟩ := loopB_spec (startA T (c1 + 1) - startS T c1) (T.length - startA T (c1 + 1)) (by omega)
    (fun r hr a b => S_of_row hr (by omega) (by omega)) h'
  refine ⟨s1, ?_, ?_⟩
  · unfold rowB
    simp only
    rw [h.bkA, h.bkS, hA _ hc, hS _ hc,
      show ((startA T (c1 + 1) : Int) - 1 - startS T c1 + 1).toNat = startA T (c1 + 1) - startS T c1 by omega,
      show (startA T (c1 + 1) : Int) - 1 = (T.length : Int) - 1 - (T.length - startA T (c1 + 1) : Nat) by omega]
    exact g1
  · have := pass_over (startS T c1 - startA T c1) (T.length - startA T (c1 + 1) + (startA T (c1 + 1) - startS T c1)) (by omega)
      (fun r hr a b => L_of_row (c := c1) hr (by omega) (by omega)) g2
    rw [show T.length - startA T c1 = T.length - startA T (c1 + 1) + (startA T (c1 + 1) - startS T c1) + (startS T c1 - startA T c1) by omega]
    exact this

theorem initB {k : Nat} {sa : List Int} {bk : Buckets}
    (h : Ready T k sa bk) : DoneB T (fun r => (rev T.length sa r).getD 0) bk.A (fun c => bk.star c (c + 1)) (k - 1) 0
      ⟨sa, bk, none, 0⟩ := by
  have hz : ∀ q, q < T.length → ¬ (schedB T).time q ≤ 0 := by
    intro q hq a
    have := row_lt hq
    rw [timeB hq] at a
    omega
  refine ⟨h.size, ⟨fun key => T.length - stopB T key, ⟨?_, ?_, ?_, ?_⟩, ?_⟩, fun _ => rfl, fun _ => rfl, fun c hc => by simp at hc⟩
  · intro p hp
    rw [cnt_false (fun q _ a => hz (q + 1) (isS_next a.1.1) a.2.2)]
    rfl
  · intro p hp
    rcases hp with hp | hp
    · have hr := row_lt hp.1.1
      rw [timeB hp.1.1, if_neg (by omega)]
      unfold rev
      rw [if_pos (by omega), show T.length - 1 - (T.length - row T p - 1) = row T p by omega]
      exact h.star p hp
    · exact absurd hp.2 (hz _ (isS_next hp.1.1))
  · intro r hr _
    have : rev T.length sa r = some (sa[T.length - 1 - r]'(by have := h.size; omega)) := by
      unfold rev
      rw [if_pos hr, List.getElem?_eq_getElem]
    rw [if_neg (by omega), this]
    rfl
  · exact Sais.rev_dom h.size
  · intro p hp _
    have h1 := h.B p hp
    have h2 : stopB T (ch T p, ch T (p + 1)) ≤ T.length := cnt_le_n _ _
    unfold eff
    rw [if_neg (by simp)]
    simp only
    rw [h1]
    omega

/-- After the first pass all type B suffixes are at their rows. -/
theorem passB_spec {k : Nat} (hk : ∀ p, p < T.length → ch T p < k) (hk0 : 0 < k) {sa : List Int} {bk : Buckets}
    (h : Ready T k sa bk) :
    ∃ s, Sais.loopDown (rowB T) (k - 1) ⟨sa, bk, none, 0⟩ = some s ∧ s.sa.length = T.length ∧
      (∀ p, isS T p → s.sa[row T p]? = some (midS T p)) ∧ (∀ c, s.bk.A c = bk.A c) := by
  have h0 := initB h
  have htop : ∀ r, r < T.length → startA T (k - 1) ≤ row T r → isL T r := by
    intro r hr a
    have hc := hk r hr
    have := row_lt_startA hr
    apply top_L hk hr
    by_cases e : ch T r + 1 = k
    · exact e
    · have := startA_mono (T := T) (show ch T r + 1 ≤ k - 1 by omega); omega
  have hle := startA_le (T := T) (k - 1)
  have h1 := pass_over (T.length - startA T (k - 1)) 0 (by omega) (fun r hr a b => htop r hr (by omega)) h0
  rw [Nat.zero_add] at h1
  obtain ⟨s, g1, g2⟩ := loopDown_spec (f := rowB T) (k - 1)
    (fun t => DoneB T (fun r => (rev T.length sa r).getD 0) bk.A (fun c => bk.star c (c + 1)) (k - 1 - t)
      (T.length - startA T (k - 1 - t))) (k - 1) (Nat.le_refl _) _ (fun t s ht hs => by
        have := rowB_spec (c1 := k - 1 - 1 - t) (by omega) h.A h.S (s := s) (by
          rw [show k - 1 - 1 - t + 1 = k - 1 - t by omega]; exact hs)
        obtain ⟨s', a, b⟩ := this
        exact ⟨s', a, by rw [show k - 1 - (t + 1) = k - 1 - 1 - t by omega]; exact b⟩)
    (by rw [Nat.sub_self]; exact h1)
  rw [Nat.sub_self] at g2
  have hz : startA T 0 = 0 := cnt_false (fun q _ a => by omega)
  rw [hz, Nat.sub_zero] at g2
  obtain ⟨ptr, hI, _⟩ := g2.inv
  refine ⟨s, g1, g2.size, ?_, g2.bkA⟩
  · intro p hp
    have := hI.done (actB.mpr hp)
    have hr := row_lt hp.1
    rw [timeB hp.1] at this
    unfold rev at this
    rw [if_pos (by omega), show T.length - 1 - (T.length - row T p - 1) = row T p by omega] at this
    exact this



/-! ## The second pass -/

/-- The pointer that is used for a bucket. -/
def effA (s : Second) (c : Nat) : Int := if c = s.c2 then s.k else s.bk.A c

/-- After `i` steps of the second pass. -/
structure DoneA (T : List Nat) (nst : Nat → Int) (i : Nat) (s : Second) : Prop where
  size : s.sa.length = T.length
  inv : ∃ ptr, (schedA T).Inv (midS T) (fun p => (p : Int)) nst nst i (fun r => s.sa[r]?) ptr ∧
    ∀ p, isL T p → effA s (ch T p) = ptr (ch T p)

theorem switchA_spec {bk : Buckets} {c2 : Nat} {k : Int} {c0 : Nat} {sa} :
    (switchA bk c2 k c0).2 = effA ⟨sa, bk, c2, k⟩ c0 ∧
    ∀ (k' : Int) (sa' : List Int) (c : Nat), c ≠ c0 →
      effA ⟨sa', (switchA bk c2 k c0).1, c0, k'⟩ c = effA ⟨sa, bk, c2, k⟩ c := by
  obtain ⟨a, b⟩ := Divsuf.switchA_spec (bk := bk) (c2 := c2) (k := k) (c0 := c0) (sa := sa) (lf := []) (o := 0)
  exact ⟨a, fun k' sa' c h => b k' sa' [] 0 c h⟩

theorem S_before_L {q : Nat} (h : isL T (q + 1)) : isS T q ↔ ch T q < ch T (q + 1) := by
  have h1 := h.1
  have h3 := L_pred h
  constructor
  · intro a
    by_cases hx : ch T q < ch T (q + 1)
    · exact hx
    · exact (not_isL_isS (h3.mpr (by omega)) a).elim
  · intro a
    rcases type_total (T := T) (p := q) (by omega) with b | b
    · have := h3.mp b
      omega
    · exact b

theorem markA_spec {q : Nat} (h : isL T q) : markA T q (ch T q) = some (midS T q) := by
  unfold markA
  cases q with
  | zero => rw [if_pos rfl, midS_zero]; rfl
  | succ u =>
    have h1 := h.1
    rw [if_neg (by omega), show u + 1 - 1 = u by omega, bind_some' (get_ch (show u < T.length by omega))]
    by_cases hl : ch T u < ch T (u + 1)
    · rw [if_pos hl, midS_S ((S_before_L h).mpr hl)]; rfl
    · rw [if_neg hl, midS_L ((not_isS (by omega)).mp (fun a => hl ((S_before_L h).mp a)))]; rfl

theorem stepA_spec {nst : Nat → Int} {i : Nat} (hi : i < T.length)
    {s : Second} (h : DoneA T nst i s) :
    ∃ s', stepA T s i = some s' ∧ DoneA T nst (i + 1) s' := by
  obtain ⟨ptr, hI, hP⟩ := h.inv
  have hsz := h.size
  obtain ⟨r, hrn, hrow⟩ := row_surj hi
  have hrt : (schedA T).time r = i + 1 := by rw [timeA hrn, hrow]
  have hget : s.sa[i]? = some (midS T r) := by
    rcases hI.here hi with ⟨r', _, hr', ht', hA⟩ | ⟨hno, _⟩
    · have := (schedA T).inj r' r hr' (actA hrn) (by rw [ht', hrt])
      subst this
      exact hA
    · exact absurd hrt (hno r (actA hrn))
  have hneg : ∀ v : Nat, midS T r = inv (v : Int) → v = r → (∀ q, isL T q → q + 1 ≠ r) →
      ∃ s', stepA T s i = some s' ∧ DoneA T nst (i + 1) s' := by
    intro v hv e hno
    subst e
    rw [hv] at hget
    have hset := get_set1 (A := s.sa) (v := (v : Int)) (show i < s.sa.length by omega)
    refine ⟨{ s with sa := s.sa.set i (v : Int) }, ?_, ⟨?_, ⟨ptr, ?_, hP⟩⟩⟩
    · unfold stepA
      rw [bind_some' hget, if_neg (by unfold Sais.inv; omega), bind_some' (assert_true (by unfold Sais.inv; simp only [decide_eq_true_eq]; omega)),
        inv_inv, bind_some' (put_spec (by omega) _)]
      rfl
    · simp only [List.length_set]; exact hsz
    · exact hI.skip (actA hrn) hrt hno _ hset.1 hset.2
  by_cases e : r = 0
  · subst e
    exact hneg 0 midS_zero rfl (fun q _ => by omega)
  · obtain ⟨q, rfl⟩ : ∃ q, r = q + 1 := ⟨r - 1, by omega⟩
    have hqn : q < T.length := by omega
    rcases type_total hqn with hl | hs
    · -- the predecessor is induced
      rw [midS_L hl] at hget
      obtain ⟨h1, h2, h3, h4⟩ := hI.place hi (q := q) hl hrt
      have hkey : (schedA T).key q = ch T q := rfl
      rw [hkey] at h1 h2 h3 h4
      obtain ⟨w1, w4⟩ := switchA_spec (bk := s.bk) (c2 := s.c2) (k := s.k) (c0 := ch T q) (sa := s.sa)
      have hk : (switchA s.bk s.c2 s.k (ch T q)).2 = (ptr (ch T q) : Int) := by rw [w1]; exact hP q hl
      have hput2 : put s.sa (ptr (ch T q)) (midS T q) = some (s.sa.set (ptr (ch T q)) (midS T q)) := put_spec (by omega) _
      have hset := get_set1 (A := s.sa) (v := midS T q) (show ptr (ch T q) < s.sa.length by omega)
      have hle : ch T (q + 1) ≤ ch T q := by
        rcases (isL_iff hrn).mp hl with a | a <;> omega
      refine ⟨⟨s.sa.set (ptr (ch T q)) (midS T q), (switchA s.bk s.c2 s.k (ch T q)).1, ch T q,
        (ptr (ch T q) : Int) + 1⟩, ?_, ⟨?_, ⟨fun c => if c = ch T q then ptr (ch T q) + 1 else ptr c, ?_, ?_⟩⟩⟩
      · unfold stepA
        rw [bind_some' hget, if_pos (by omega)]
        simp only [Int.toNat_natCast]
        rw [bind_some' (get_ch hrn), show q + 1 - 1 = q by omega, bind_some' (get_ch hqn),
          bind_some' (assert_true (by simpa using hle)), bind_some' (markA_spec hl), hk,
          bind_some' (assert_true (by simp only [decide_eq_true_eq]; omega)), putI_nat, bind_some' hput2]
        rfl
      · simp only [List.length_set]; exact hsz
      · apply h4
        · show (s.sa.set _ _)[i]? = _
          rw [hset.2 i (by omega)]; exact hget
        · exact hset.1
        · intro r _ hr; exact hset.2 r hr
        · exact if_pos rfl
        · intro c hc; exact if_neg hc
      · intro p hp
        show _ = ((if ch T p = ch T q then ptr (ch T q) + 1 else ptr (ch T p) : Nat) : Int)
        by_cases ek : ch T p = ch T q
        · rw [if_pos ek, ek]
          unfold effA
          rw [if_pos (c := ch T q = ch T q) rfl]
          simp only
          omega
        · rw [if_neg ek, w4 _ _ _ ek]
          exact hP p hp
    · -- nothing is induced
      exact hneg (q + 1) (midS_S hs) rfl (fun q' hq' e' => by
        have : q' = q := by omega
        subst this
        exact not_isL_isS hq' hs)

/-- The second pass from its beginning. -/
theorem initA {sa : List Int} {bk : Buckets} (hn : 2 ≤ T.length)
    (hsz : sa.length = T.length) (hcell : ∀ p, isS T p → sa[row T p]? = some (midS T p))
    (hA : ∀ p, p < T.length → bk.A (ch T p) = startA T (ch T p)) :
    startA T (ch T (T.length - 1)) < T.length ∧
    ∃ nst, DoneA T nst 0 ⟨sa.set (startA T (ch T (T.length - 1))) (midS T (T.length - 1)), bk, ch T (T.length - 1),
      (startA T (ch T (T.length - 1)) : Int) + 1⟩ := by
  have hL : isL T (T.length - 1) := isL_last (by omega)
  have hrow : row T (T.length - 1) = startA T (ch T (T.length - 1)) := by
    have h1 := (ordL T).time_tgt hL
    have h0 : cnt T.length (fun q => (ordL T).tgt q ∧ (ordL T).ch q = (ordL T).ch (T.length - 1) ∧ (ordL T).lt q (T.length - 1)) = 0 := by
      apply cnt_false
      rintro q _ ⟨a, b, c⟩
      by_cases e : T.length - 1 = q
      · subst e; exact sless_irrefl _ c
      · exact sless_irrefl _ (sless_trans ((ordL T).last (T.length - 1) q hL a b.symm (by omega) e) c)
    rw [h0, timeL_eq hL] at h1
    have h2 : (ordL T).start ((ordL T).ch (T.length - 1)) = startA T (ch T (T.length - 1)) := rfl
    rw [h2] at h1
    omega
  have hlt : startA T (ch T (T.length - 1)) < T.length := by rw [← hrow]; exact row_lt hL.1
  refine ⟨hlt, ?_⟩
  have hset := get_set1 (A := sa) (v := (midS T (T.length - 1))) (show startA T (ch T (T.length - 1)) < sa.length by omega)
  have hplaced : ∀ p, isL T p → (schedA T).time (p + 1) ≤ 0 → p = T.length - 1 := by
    intro p hp a
    have := hp.1
    by_cases e : p + 1 < T.length
    · rw [timeA e] at a; omega
    · omega
  refine ⟨fun r => ((sa.set (startA T (ch T (T.length - 1))) (midS T (T.length - 1)))[r]?).getD 0, ⟨?_,
    ⟨fun c => startA T c + (if c = ch T (T.length - 1) then 1 else 0), ⟨?_, ?_, ?_, ?_⟩, ?_⟩⟩⟩
  · simp only [List.length_set]; exact hsz
  · intro p hp
    have hkey : (schedA T).key p = ch T p := rfl
    have hst : (schedA T).start (ch T p) = startA T (ch T p) := rfl
    rw [hkey, hst]
    congr 1
    by_cases e : ch T p = ch T (T.length - 1)
    · rw [if_pos e]
      rw [cnt_insert (P := fun _ => False) (Q := fun q => (schedA T).tgt q ∧ (schedA T).key q = ch T p ∧ (schedA T).time (q + 1) ≤ 0)
        (a := T.length - 1) (by omega) (fun a => a) (fun q _ => by
          constructor
          · rintro ⟨a, b, c⟩; exact Or.inr (hplaced q a c)
          · rintro (a | rfl)
            · exact a.elim
            · refine ⟨hL, e.symm, ?_⟩
              rw [show T.length - 1 + 1 = T.length by omega, (schedA T).zero]; exact Nat.le_refl _), cnt_false (fun _ _ a => a)]
    · rw [if_neg e, cnt_false]
      rintro q _ ⟨a, b, c⟩
      apply e
      rw [← hplaced q a c]
      exact b.symm
  · intro p hp
    have hpn : p < T.length := by exact hp.elim (fun a => a.1) (fun a => a.1.1)
    rw [timeA hpn, if_neg (by omega), show row T p + 1 - 1 = row T p by omega]
    rcases hp with hp | ⟨hp, a⟩
    · rw [hset.2 _ (by
        intro e
        rw [← hrow] at e
        have := row_inj hpn hL.1 e
        subst this
        exact not_isL_isS hL hp)]
      exact hcell p hp
    · have := hplaced p hp a
      subst this
      rw [hrow]; exact hset.1
  · intro r hr hno
    obtain ⟨p, hp, e⟩ := row_surj hr
    exact absurd (by rw [timeA hp, e]) (hno p (actA hp))
  · intro r hr
    simp only
    rw [List.getElem?_eq_getElem (by rw [List.length_set]; omega)]
    exact Option.some_ne_none _
  · intro p hp
    unfold effA
    simp only
    by_cases e : ch T p = ch T (T.length - 1)
    · rw [if_pos e, if_pos e, e]; omega
    · rw [if_neg e, if_neg e, hA p hp.1]; rfl

/-- `construct_SA` gives the suffix array. -/
theorem constructSA_spec {k : Nat} (hk : ∀ p, p < T.length → ch T p < k) (hn : 2 ≤ T.length)
    {sa : List Int} {bk : Buckets} {m : Nat}
    (hm : m = 0 → ∀ p, ¬ isS T p) (hsz : sa.length = T.length) (hA : ∀ c, c < k → bk.A c = startA T c)
    (h : 0 < m → Ready T k sa bk) :
    ∃ sa', constructSA T k sa bk m = some sa' ∧ IsSA T sa' := by
  have hk0 : 0 < k := by have := hk 0 (by omega); omega
  have hfirst : ∃ s, passB T k sa bk m = some s ∧
      s.sa.length = T.length ∧ (∀ p, isS T p → s.sa[row T p]? = some (midS T p)) ∧ (∀ c, s.bk.A c = bk.A c) := by
    unfold passB
    by_cases e : 0 < m
    · rw [if_pos e]
      exact passB_spec hk hk0 (h e)
    · rw [if_neg e]
      have hno := hm (by omega)
      exact ⟨_, rfl, hsz, fun p hp => absurd hp (hno p), fun _ => rfl⟩
  obtain ⟨s1, g1, g2, g3, g4⟩ := hfirst
  obtain ⟨hlt, nst, h0⟩ := initA (bk := s1.bk) hn g2 g3 (fun p hp => by rw [g4]; exact hA _ (hk p hp))
  have hlast : (if ch T (T.length - 2) < ch T (T.length - 1) then inv ((T.length - 1 : Nat) : Int) else ((T.length - 1 : Nat) : Int)) =
      midS T (T.length - 1) := by
    obtain ⟨u, hu⟩ : ∃ u, T.length = u + 2 := ⟨T.length - 2, by omega⟩
    rw [hu, show u + 2 - 1 = u + 1 by omega, show u + 2 - 2 = u by omega]
    have hL : isL T (u + 1) := isL_last (by omega)
    by_cases hl : ch T u < ch T (u + 1)
    · rw [if_pos hl, midS_S ((S_before_L hL).mpr hl)]
    · rw [if_neg hl, midS_L ((not_isS (by omega)).mp (fun a => hl ((S_before_L hL).mp a)))]
  obtain ⟨s2, f1, f2⟩ := loopUp_spec (f := stepA T) (DoneA T nst) T.length 0 _
    (fun j s _ hj hs => stepA_spec (by omega) hs) h0
  rw [Nat.zero_add] at f2
  obtain ⟨ptr, hI, _⟩ := f2.inv
  refine ⟨s2.sa, ?_, f2.size, ?_⟩
  · unfold constructSA
    simp only
    rw [bind_some' g1, if_neg (by omega), bind_some' (get_ch (show T.length - 1 < T.length by omega)),
      bind_some' (get_ch (show T.length - 2 < T.length by omega)), hlast, g4, hA _ (hk _ (by omega)), putI_nat,
      bind_some' (put_spec (by omega) _), bind_some' f1]
    rfl
  · intro p hp
    have := hI.done (actA hp)
    rw [timeA hp, show row T p + 1 - 1 = row T p by omega] at this
    exact this

end Bwtc.Divsuf.SA
