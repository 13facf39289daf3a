import Verif.DivsufStars

/-!
# The sorting of the B* substrings

The loop of `sort_typeBstar` over the buckets sorts the substrings, if `sssort` does.
-/

set_option autoImplicit false

namespace Bwtc.Divsuf
open Sais (put inv loopDown)
open Sais (put_spec loopDown_spec bind_some')
open Induce Suffix

variable {T : List Nat}

theorem dec_nat (i : Nat) : dec (i : Int) = i := by unfold dec; rw [if_neg (by omega)]; omega

/-- Cell `r` belongs to the bucket of `p`. -/
def inBucket (T : List Nat) (p r : Nat) : Prop := jS T (ch T p) (ch T (p + 1)) ≤ r ∧ r < jS T (ch T p) (ch T (p + 1) + 1)

/-- The cells from `j` on are sorted. -/
structure Stage (T : List Nat) (j : Nat) (sa : List Int) : Prop where
  size : sa.length = T.length
  pab : ∀ i, i < numS T → sa[T.length - numS T + i]? = some (PA T i : Int)
  low : ∀ p, isBs T p → pos T p < j → sa[pos T p]? = some (idx T p : Int)
  high : ∀ r, j ≤ r → r < numS T → ∃ p v, isBs T p ∧ inBucket T p r ∧ sa[r]? = some v ∧ dec v = idx T p
  cover : ∀ p, isBs T p → j ≤ pos T p → ∃ r v, j ≤ r ∧ r < numS T ∧ sa[r]? = some v ∧ dec v = idx T p
  sorted : Sorted T (PA T) (numS T) j (numS T) sa

theorem before_bucket {p q : Nat} (hp : isBs T p) (hq : isBs T q)
    (h : ch T p < ch T q ∨ (ch T p = ch T q ∧ ch T (p + 1) < ch T (q + 1))) : before T (PA T) (numS T) (idx T p) (idx T q) := by
  have lp := len_sub (idx_lt hp)
  have lq := len_sub (idx_lt hq)
  have rp := isS_next hp.1
  have rq := isS_next hq.1
  rw [PA_idx hp] at lp
  rw [PA_idx hq] at lq
  have l2 : ∀ {i : Nat}, isBs T i → 2 ≤ (sub T (PA T) (numS T) (idx T i)).length := by
    intro i hi
    have := len_sub (idx_lt hi)
    have ri := isS_next hi.1
    rw [PA_idx hi] at this
    by_cases e : idx T i + 1 < numS T
    · rw [if_pos e] at this
      have := (PA_up e).1
      rw [PA_idx hi] at this
      omega
    · rw [if_neg e] at this; omega
  have g : ∀ {i x : Nat}, isBs T i → x < 2 → ∃ h : x < (sub T (PA T) (numS T) (idx T i)).length,
      (sub T (PA T) (numS T) (idx T i))[x] = ch T (i + x) := by
    intro i x hi hx
    have hl : x < (sub T (PA T) (numS T) (idx T i)).length := by have := l2 hi; omega
    refine ⟨hl, ?_⟩
    have := (sub_get hl).1
    rw [List.getElem?_eq_getElem hl, PA_idx hi] at this
    exact Option.some.inj this
  left
  rw [List.lt_iff_exists]
  right
  obtain ⟨p0, ep0⟩ := g (x := 0) hp (by omega)
  obtain ⟨q0, eq0⟩ := g (x := 0) hq (by omega)
  obtain ⟨p1, ep1⟩ := g (x := 1) hp (by omega)
  obtain ⟨q1, eq1⟩ := g (x := 1) hq (by omega)
  rcases h with h | ⟨h1, h2⟩
  · refine ⟨0, p0, q0, fun j hj => by omega, ?_⟩
    rw [ep0, eq0]; exact h
  · refine ⟨1, p1, q1, fun j hj => ?_, ?_⟩
    · have : j = 0 := by omega
      subst this
      rw [ep0, eq0]; exact h1
    · rw [ep1, eq1]; exact h2

theorem bucket_lt {p q r : Nat} (hp : inBucket T p r) (hq : inBucket T q (r + 1)) :
    (ch T p < ch T q ∨ (ch T p = ch T q ∧ ch T (p + 1) < ch T (q + 1))) ∨ (ch T p = ch T q ∧ ch T (p + 1) = ch T (q + 1)) := by
  by_cases h : ch T q < ch T p ∨ (ch T q = ch T p ∧ ch T (q + 1) < ch T (p + 1))
  · have := jS_next (T := T) h
    have := hp.1
    have := hq.2
    omega
  · omega

theorem pos_bucket {p : Nat} (hp : isBs T p) : inBucket T p (pos T p) := pos_lo hp

theorem pos_lt {p : Nat} (hp : isBs T p) : pos T p < numS T := by
  have := (pos_lo hp).2
  have := jS_le (T := T) (ch T p) (ch T (p + 1) + 1)
  omega

/-- One more bucket. -/
theorem Stage.bucket {x y : Nat} {sa sa' : List Int} (h : Stage T (jS T x (y + 1)) sa) (hlen : sa'.length = sa.length)
    (hout : ∀ r, (r < jS T x y ∨ jS T x (y + 1) ≤ r) → (r < numS T ∨ numS T + (T.length - 2 * numS T) ≤ r) → sa'[r]? = sa[r]?)
    (hperm : ∀ i : Nat, (∃ r, jS T x y ≤ r ∧ r < jS T x (y + 1) ∧ sa[r]? = some (i : Int)) ↔
      ∃ r v, jS T x y ≤ r ∧ r < jS T x (y + 1) ∧ sa'[r]? = some v ∧ dec v = i)
    (hs : Sorted T (PA T) (numS T) (jS T x y) (jS T x (y + 1)) sa') : Stage T (jS T x y) sa' := by
  have h2 := two_numS (T := T)
  have hle : jS T x y ≤ jS T x (y + 1) := by have := jS_succ (T := T) x y; omega
  have hlm := jS_le (T := T) x (y + 1)
  have hin : ∀ r, jS T x y ≤ r → r < jS T x (y + 1) → ∃ p v, isBs T p ∧ inBucket T p r ∧ sa'[r]? = some v ∧ dec v = idx T p := by
    intro r h1 h2
    have hr : r < sa'.length := by rw [hlen, h.size]; omega
    obtain ⟨r', a1, a2, a3⟩ := (hperm (dec sa'[r])).mpr ⟨r, sa'[r], h1, h2, List.getElem?_eq_getElem hr, rfl⟩
    obtain ⟨p, hp, ep⟩ := pos_surj (T := T) (r := r') (by omega)
    have := h.low p hp (by omega)
    rw [ep, a3] at this
    have e : dec sa'[r] = idx T p := by have := Option.some.inj this; omega
    refine ⟨p, sa'[r], hp, ?_, List.getElem?_eq_getElem hr, e⟩
    have hb := pos_bucket hp
    rw [ep] at hb
    obtain ⟨e1, e2⟩ := bucket_unique hb.1 hb.2 a1 a2
    unfold inBucket
    rw [e1, e2]
    exact ⟨h1, h2⟩
  have hkeep : ∀ r, jS T x (y + 1) ≤ r → r < numS T → sa'[r]? = sa[r]? := fun r h1 h2 => hout r (Or.inr h1) (Or.inl h2)
  refine ⟨hlen.trans h.size, ?_, ?_, ?_, ?_, ?_, ?_⟩
  · intro i hi
    rw [hout _ (Or.inr (by omega)) (Or.inr (by omega))]
    exact h.pab i hi
  · intro p hp hj
    rw [hout _ (Or.inl hj) (Or.inl (pos_lt hp))]
    exact h.low p hp (by omega)
  · intro r h1 h2
    by_cases e : r < jS T x (y + 1)
    · exact hin r h1 e
    · obtain ⟨p, v, a, b, c, d⟩ := h.high r (by omega) h2
      exact ⟨p, v, a, b, by rw [hkeep r (by omega) h2]; exact c, d⟩
  · intro p hp hj
    by_cases e : pos T p < jS T x (y + 1)
    · obtain ⟨r, v, a, b, c, d⟩ := (hperm (idx T p)).mp ⟨pos T p, hj, e, h.low p hp e⟩
      exact ⟨r, v, a, by omega, c, d⟩
    · obtain ⟨r, v, a, b, c, d⟩ := h.cover p hp (by omega)
      exact ⟨r, v, by omega, b, by rw [hkeep r a b]; exact c, d⟩
  · intro v hlt hv
    by_cases e : jS T x y < jS T x (y + 1)
    · exact hs.first v e hv
    · have e' : jS T x y = jS T x (y + 1) := by omega
      rw [e', hkeep _ (by omega) (by omega)] at hv
      exact h.sorted.first v (by omega) hv
  · intro r v w h1 h2 hv hw
    by_cases e : r + 1 < jS T x (y + 1)
    · exact hs.step r v w h1 e hv hw
    · by_cases e' : jS T x (y + 1) ≤ r
      · rw [hkeep _ e' (by omega)] at hv
        rw [hkeep _ (by omega) h2] at hw
        exact h.sorted.step r v w e' h2 hv hw
      · have er : r + 1 = jS T x (y + 1) := by omega
        rw [hkeep _ (by omega) h2] at hw
        left
        refine ⟨h.sorted.first w (by omega) (by rw [← er]; exact hw), ?_⟩
        obtain ⟨p, v', a1, a2, a3, a4⟩ := hin r h1 (by omega)
        obtain ⟨q, w', b1, b2, b3, b4⟩ := h.high (r + 1) (by omega) h2
        rw [a3] at hv
        rw [b3] at hw
        rw [← Option.some.inj hv, ← Option.some.inj hw, a4, b4]
        apply before_bucket a1 b1
        rcases bucket_lt a2 b2 with g | ⟨g1, g2⟩
        · exact g
        · obtain ⟨e1, e2⟩ := bucket_unique a2.1 a2.2 h1 (show r < jS T x (y + 1) by omega)
          have := b2.2
          rw [← g1, ← g2, e1, e2] at this
          omega

theorem take_two {p : Nat} (h : p + 2 ≤ T.length) : (T.drop p).take 2 = [ch T p, ch T (p + 1)] := by
  rw [drop_ch (by omega), drop_ch (show p + 1 < T.length by omega)]
  rfl

/-- The call of `sssort` for a bucket. -/
theorem Stage.call (hT : T.length < 2 ^ 31) {x y : Nat} {sa : List Int} (h : Stage T (jS T x (y + 1)) sa) (hm : jS T x y + 1 < jS T x (y + 1)) {v : Int}
    (hv : sa[jS T x y]? = some v) :
    SsCall T (PA T) (numS T) sa (T.length - numS T) (jS T x y) (jS T x (y + 1)) (numS T) (T.length - 2 * numS T)
      (decide (v = (numS T : Int) - 1)) := by
  have h2 := two_numS (T := T)
  have hlm := jS_le (T := T) x (y + 1)
  have hc : ∀ r, jS T x y ≤ r → r < jS T x (y + 1) → ∃ p, isBs T p ∧ pos T p = r ∧ sa[r]? = some (idx T p : Int) ∧ ch T p = x ∧ ch T (p + 1) = y := by
    intro r a b
    obtain ⟨p, hp, ep⟩ := pos_surj (T := T) (r := r) (by omega)
    have hl := h.low p hp (by omega)
    have hb := pos_bucket hp
    rw [ep] at hl hb
    obtain ⟨e1, e2⟩ := bucket_unique hb.1 hb.2 a b
    exact ⟨p, hp, ep, hl, e1, e2⟩
  refine ⟨h.pab, fun i hi => (PA_up hi).1, fun i hi => PA_room hi, fun i hi => Bs_ch (PA_spec hi).1, by omega, by omega, hm, ?_, ?_, ?_, ?_, ?_⟩
  · intro r a b
    obtain ⟨p, hp, ep, e, -⟩ := hc r a b
    exact ⟨idx T p, idx_lt hp, e⟩
  · intro r r' a b a' b' e
    obtain ⟨p, hp, ep, e1, -⟩ := hc r a b
    obtain ⟨p', hp', ep', e1', -⟩ := hc r' a' b'
    rw [e1, e1'] at e
    have : p = p' := idx_inj hp hp' (by have := Option.some.inj e; omega)
    subst this
    omega
  · intro r r' i j a b a' b' ei ej
    obtain ⟨p, hp, ep, e1, x1, y1⟩ := hc r a b
    obtain ⟨p', hp', ep', e1', x1', y1'⟩ := hc r' a' b'
    rw [e1] at ei
    rw [e1'] at ej
    have ei : idx T p = i := by have := Option.some.inj ei; omega
    have ej : idx T p' = j := by have := Option.some.inj ej; omega
    have := isS_next hp.1
    have := isS_next hp'.1
    rw [← ei, ← ej, PA_idx hp, PA_idx hp', take_two (by omega), take_two (by omega), x1, y1, x1', y1']
  · have : 0 < numS T := by omega
    rw [hv, decide_eq_true_iff]
    constructor
    · intro e; rw [e]; congr 1; omega
    · intro e; have := Option.some.inj e; omega
  · intro r a b e
    obtain ⟨p, hp, ep, e1, x1, y1⟩ := hc r (by omega) b
    rw [e1] at e
    have := pos_last hp (by have := Option.some.inj e; have := idx_lt hp; omega)
    rw [x1, y1] at this
    omega

theorem sortInner_spec {ss : SsSort} (hss : SsOk ss) (hT : T.length < 2 ^ 31) {bk : Buckets} {c0 d : Nat} (hS : bk.star c0 (c0 + 1 + d) = jS T c0 (c0 + 1 + d))
    {sa : List Int} (h : Stage T (jS T c0 (c0 + 1 + d + 1)) sa) :
    ∃ sa', sortInner ss T (numS T) bk c0 (((jS T c0 (c0 + 1 + d + 1) : Nat) : Int), sa) d = some (((jS T c0 (c0 + 1 + d) : Nat) : Int), sa') ∧
      Stage T (jS T c0 (c0 + 1 + d)) sa' := by
  have h2 := two_numS (T := T)
  have hlm := jS_le (T := T) c0 (c0 + 1 + d + 1)
  have hle : jS T c0 (c0 + 1 + d) ≤ jS T c0 (c0 + 1 + d + 1) := by have := jS_succ (T := T) c0 (c0 + 1 + d); omega
  unfold sortInner
  rw [hS]
  by_cases hm : jS T c0 (c0 + 1 + d) + 1 < jS T c0 (c0 + 1 + d + 1)
  · have hr : jS T c0 (c0 + 1 + d) < sa.length := by rw [h.size]; omega
    have hv := List.getElem?_eq_getElem hr
    obtain ⟨sa', e1, e2, e3, e4, e5⟩ := hss _ _ _ _ _ _ _ _ _ _ (h.call hT hm hv)
    refine ⟨sa', ?_, h.bucket e2 e3 e4 e5⟩
    dsimp only
    rw [if_pos (by omega), bind_some' (getI_nat.trans hv), if_neg (by omega), Int.toNat_natCast, Int.toNat_natCast, bind_some' e1]
    rfl
  · refine ⟨sa, ?_, ?_⟩
    · dsimp only
      rw [if_neg (by omega)]
      rfl
    · apply h.bucket rfl (fun _ _ _ => rfl)
      · intro i
        constructor
        · rintro ⟨r, a, b, c⟩; exact ⟨r, _, a, b, c, dec_nat i⟩
        · rintro ⟨r, v, a, b, c, e⟩
          obtain ⟨p, hp, ep⟩ := pos_surj (T := T) (r := r) (by omega)
          have hl := h.low p hp (by omega)
          rw [ep, c] at hl
          rw [Option.some.inj hl, dec_nat] at e
          exact ⟨r, a, b, by rw [c, hl, e]⟩
      · constructor
        · intro v hlt hv
          obtain ⟨p, hp, ep⟩ := pos_surj (T := T) (r := jS T c0 (c0 + 1 + d)) (by omega)
          have hl := h.low p hp (by omega)
          rw [ep, hv] at hl
          have := Option.some.inj hl
          omega
        · intro r v w a b
          omega

theorem sortOuter_spec {ss : SsSort} (hss : SsOk ss) (hT : T.length < 2 ^ 31) {k : Nat} (hk : ∀ p, p < T.length → ch T p < k) {bk : Buckets}
    (hS : ∀ x y, x < y → y < k → bk.star x y = jS T x y) (c : Nat) (hc : c < k) (sa : List Int) (h : Stage T (jS T c 0) sa) :
    ∃ sa', sortOuter ss T k (numS T) bk c ((jS T c 0 : Nat), sa) = some (0, sa') ∧ Stage T 0 sa' := by
  induction c generalizing sa with
  | zero =>
    have e : jS T 0 0 = 0 := cnt_false (fun q _ a => by omega)
    rw [e] at h ⊢
    refine ⟨sa, ?_, h⟩
    unfold sortOuter
    rw [if_neg (by simp)]
    rfl
  | succ c ih =>
    unfold sortOuter
    by_cases hj : 0 < jS T (c + 1) 0
    · rw [if_pos (by simpa using hj)]
      dsimp only
      obtain ⟨s', e1, e2⟩ := loopDown_spec (f := sortInner ss T (numS T) bk c) (k - 1 - c)
        (fun t s => s.1 = (jS T c (k - t) : Nat) ∧ Stage T (jS T c (k - t)) s.2) (k - 1 - c) (Nat.le_refl _)
        ((jS T (c + 1) 0 : Nat), sa)
        (fun t s ht hs => by
          obtain ⟨d, hd⟩ : ∃ d, k - t = c + 1 + d + 1 := ⟨k - t - c - 2, by omega⟩
          have h1 := hs.1
          have h2 := hs.2
          rw [hd] at h1 h2
          obtain ⟨sa', a, b⟩ := sortInner_spec (bk := bk) (c0 := c) (d := d) hss hT (hS _ _ (by omega) (by omega)) h2
          refine ⟨(((jS T c (c + 1 + d) : Nat) : Int), sa'), ?_, ?_, ?_⟩
          · rw [← a, show k - 1 - c - 1 - t = d by omega, ← h1]
          · show ((jS T c (c + 1 + d) : Nat) : Int) = _
            rw [show k - (t + 1) = c + 1 + d by omega]
          · show Stage T _ sa'
            rw [show k - (t + 1) = c + 1 + d by omega]; exact b)
        (by
          rw [show k - (k - 1 - c - (k - 1 - c)) = k by omega, jS_top hk]
          exact ⟨rfl, h⟩)
      rw [bind_some' e1]
      have e2' : Stage T (jS T c 0) s'.2 := by
        have := e2.2; rwa [show k - (k - 1 - c) = c + 1 by omega, jS_diag _ _ (Nat.le_refl _)] at this
      have e3 : s'.1 = (jS T c 0 : Nat) := by
        have := e2.1; rwa [show k - (k - 1 - c) = c + 1 by omega, jS_diag _ _ (Nat.le_refl _)] at this
      obtain ⟨sa', a, b⟩ := ih (by omega) s'.2 e2'
      refine ⟨sa', ?_, b⟩
      rw [← a, ← e3]
    · have e : jS T (c + 1) 0 = 0 := by omega
      rw [e] at h ⊢
      exact ⟨sa, by rw [if_neg (by simp)]; rfl, h⟩

/-- The beginning. -/
theorem Stage.init {sa : List Int} (hsz : sa.length = T.length) (hpa : ∀ p, isBs T p → sa[T.length - numS T + idx T p]? = some (p : Int))
    (hpos : ∀ p, isBs T p → sa[pos T p]? = some (idx T p : Int)) : Stage T (numS T) sa := by
  refine ⟨hsz, ?_, fun p hp _ => hpos p hp, fun r a b => by omega, fun p hp a => by have := pos_lt hp; omega, ?_, ?_⟩
  · intro i hi
    have := hpa _ (PA_spec hi).1
    rwa [(PA_spec hi).2] at this
  · intro v a; omega
  · intro r v w a b; omega

theorem jS_all {k : Nat} (hk : ∀ p, p < T.length → ch T p < k) (c : Nat) (hc : c + 1 = k) : jS T c 0 = numS T := by
  apply cnt_congr
  intro q hq
  constructor
  · exact fun a => a.1
  · intro a
    have h1 := Bs_ch a
    have h2 := hk _ (isS_next a.1)
    exact ⟨a, Or.inl (by omega)⟩

theorem sortAll_spec {ss : SsSort} (hss : SsOk ss) (hT : T.length < 2 ^ 31) {k : Nat} (hk : ∀ p, p < T.length → ch T p < k) (hk0 : 0 < k) {bk : Buckets}
    (hS : ∀ x y, x < y → y < k → bk.star x y = jS T x y) {sa : List Int} (hsz : sa.length = T.length)
    (hpa : ∀ p, isBs T p → sa[T.length - numS T + idx T p]? = some (p : Int))
    (hpos : ∀ p, isBs T p → sa[pos T p]? = some (idx T p : Int)) :
    ∃ sa', sortOuter ss T k (numS T) bk (k - 1) ((numS T : Nat), sa) = some (0, sa') ∧ Stage T 0 sa' := by
  have e := jS_all hk (k - 1) (by omega)
  have := sortOuter_spec hss hT hk hS (k - 1) (by omega) sa (by rw [e]; exact Stage.init hsz hpa hpos)
  rwa [e] at this

end Bwtc.Divsuf
