import Verif.SaisNames

/-!
# Classes of equal keys in an induced scan

`LMSsort2` marks the first entry of every class of equal LMS substrings while it sorts.  Over abstract schedules: which
entries get a mark, and the bookkeeping with `d` and `D`.  Nothing here models code, except that `flag`, `unflag` and `flagLoop` are
characterised.
-/

set_option autoImplicit false

namespace Bwtc.Induce
open Classical

/-- Classes of positions in the order of a scan.  `xc`: the key of the class, `w`: another distinction (by the position before), `tk`: the index into `D`. -/
structure Cls {n : Nat} (S : Sched n Nat) where
  xc : Nat → List Nat
  w : Nat → Prop
  tk : Nat → Nat
  contig : ∀ a b c, (S.src a ∨ S.tgt a) → (S.src b ∨ S.tgt b) → (S.src c ∨ S.tgt c) → S.time a ≤ S.time b →
    S.time b ≤ S.time c → xc a = xc c → xc b = xc a
  step : ∀ p q, S.tgt p → S.tgt q → p + 1 ≠ n → q + 1 ≠ n →
    (xc p = xc q ↔ S.key p = S.key q ∧ xc (p + 1) = xc (q + 1))
  tgtc : ∀ p q, S.tgt q → (S.src p ∨ S.tgt p) → xc p = xc q → S.tgt p
  last : ∀ p q, S.tgt q → q + 1 ≠ n → (S.src p ∨ S.tgt p) → xc p = xc q → p + 1 ≠ n
  wtgt : ∀ q, S.tgt q → q + 1 ≠ n → ¬ w (q + 1)
  tkeq : ∀ p q, S.tgt p → S.tgt q → (tk p = tk q ↔ S.key p = S.key q ∧ (w p ↔ w q))

namespace Cls
variable {n : Nat} {S : Sched n Nat} (X : Cls S)

/-- The first of its class in the order of the scan. -/
def fl (r : Nat) : Prop := ∀ r', (S.src r' ∨ S.tgt r') → X.xc r' = X.xc r → (X.w r' ↔ X.w r) → ¬ S.time r' < S.time r

/-- The number of classes up to the one of `r`. -/
noncomputable def num (r : Nat) : Nat :=
  cnt n (fun r' => (S.src r' ∨ S.tgt r') ∧ ¬ X.w r' ∧ X.fl r' ∧ S.time r' ≤ S.time r)

theorem fl_ex {r : Nat} (hr : S.src r ∨ S.tgt r) : ∃ r', (S.src r' ∨ S.tgt r') ∧ X.xc r' = X.xc r ∧ (X.w r' ↔ X.w r) ∧
    S.time r' ≤ S.time r ∧ X.fl r' := by
  suffices H : ∀ d r, S.time r ≤ d → (S.src r ∨ S.tgt r) → ∃ r', (S.src r' ∨ S.tgt r') ∧ X.xc r' = X.xc r ∧ (X.w r' ↔ X.w r) ∧
      S.time r' ≤ S.time r ∧ X.fl r' from H _ r (Nat.le_refl _) hr
  intro d
  induction d with
  | zero =>
    intro r hd hr
    exact ⟨r, hr, rfl, Iff.rfl, Nat.le_refl _, fun r' _ _ _ => by omega⟩
  | succ d ih =>
    intro r hd hr
    by_cases h : X.fl r
    · exact ⟨r, hr, rfl, Iff.rfl, Nat.le_refl _, h⟩
    · have : ∃ r', (S.src r' ∨ S.tgt r') ∧ X.xc r' = X.xc r ∧ (X.w r' ↔ X.w r) ∧ S.time r' < S.time r := by
        apply Classical.byContradiction
        intro hno
        exact h (fun r' a b c e => hno ⟨r', a, b, c, e⟩)
      obtain ⟨r', a, b, c, e⟩ := this
      obtain ⟨r2, a2, b2, c2, e2, f2⟩ := ih r' (by omega) a
      exact ⟨r2, a2, by rw [b2, b], c2.trans c, by omega, f2⟩

theorem num_pos {r : Nat} (hr : S.src r ∨ S.tgt r) (hw : ¬ X.w r) : 0 < X.num r := by
  obtain ⟨r', a, b, c, d, e⟩ := X.fl_ex hr
  exact cnt_pos (S.bound r' a) ⟨a, fun h => hw (c.mp h), e, d⟩

theorem num_le {a b : Nat} (h : S.time a ≤ S.time b) : X.num a ≤ X.num b :=
  cnt_le (fun _ _ h' => ⟨h'.1, h'.2.1, h'.2.2.1, by have := h'.2.2.2; omega⟩)

theorem num_lt {a b : Nat} (ha : S.src a ∨ S.tgt a) (hb : S.src b ∨ S.tgt b) (hw : ¬ X.w b) (h : S.time a < S.time b) (hx : X.xc a ≠ X.xc b) :
    X.num a < X.num b := by
  obtain ⟨r, h1, h2, h3, h4, h5⟩ := X.fl_ex hb
  refine cnt_lt (a := r) (S.bound r h1) ?_ ⟨h1, fun h => hw (h3.mp h), h5, h4⟩ ?_
  · rintro ⟨_, _, _, h6⟩
    have := X.contig r a b h1 ha hb h6 (by omega) h2
    exact hx (by rw [this, h2])
  · rintro q _ ⟨a1, a2, a3, a4⟩; exact ⟨a1, a2, a3, by omega⟩

theorem num_eq {a b : Nat} (ha : S.src a ∨ S.tgt a) (hb : S.src b ∨ S.tgt b) (hwa : ¬ X.w a) (hwb : ¬ X.w b) :
    X.num a = X.num b ↔ X.xc a = X.xc b := by
  constructor
  · intro h
    apply Classical.byContradiction
    intro hx
    rcases Nat.lt_trichotomy (S.time a) (S.time b) with e | e | e
    · have := X.num_lt ha hb hwb e hx; omega
    · exact hx (by rw [S.inj a b ha hb e])
    · have := X.num_lt hb ha hwa e (fun e => hx e.symm); omega
  · intro h
    have key : ∀ a b, (S.src a ∨ S.tgt a) → (S.src b ∨ S.tgt b) → ¬ X.w a → ¬ X.w b → X.xc a = X.xc b → S.time a ≤ S.time b →
        X.num b ≤ X.num a := by
      intro a b ha hb hwa hwb h hle
      apply cnt_le
      rintro q _ ⟨a1, a2, a3, a4⟩
      refine ⟨a1, a2, a3, Nat.le_of_not_lt (fun hlt => ?_)⟩
      have := X.contig a q b ha a1 hb (by omega) a4 h
      exact a3 a ha this.symm ⟨fun x => absurd x hwa, fun x => absurd x a2⟩ hlt
    rcases Nat.le_total (S.time a) (S.time b) with e | e
    · have h1 := key a b ha hb hwa hwb h e
      have h2 := X.num_le e
      omega
    · have h1 := key b a hb ha hwb hwa h.symm e
      have h2 := X.num_le e
      omega

/-- Two targets of a bucket are in the order of their successors. -/
theorem _root_.Bwtc.Induce.Sched.tgt_mono {S : Sched n Nat} {p q : Nat} (hp : S.tgt p) (hq : S.tgt q) (hk : S.key p = S.key q)
    (h : S.time (p + 1) < S.time (q + 1)) : S.time p < S.time q := by
  rw [S.slot p hp, S.slot q hq, hk]
  have : cnt n (fun r => S.tgt r ∧ S.key r = S.key q ∧ S.time (r + 1) < S.time (p + 1)) <
      cnt n (fun r => S.tgt r ∧ S.key r = S.key q ∧ S.time (r + 1) < S.time (q + 1)) :=
    cnt_lt (a := p) (S.bound p (Or.inr hp)) (fun a => by have := a.2.2; omega) ⟨hp, hk, h⟩
      (fun r _ a => ⟨a.1, a.2.1, by have := a.2.2; omega⟩)
  omega

theorem _root_.Bwtc.Induce.Sched.next_act {S : Sched n Nat} {q : Nat} (hq : S.tgt q) (h : q + 1 ≠ n) : S.src (q + 1) ∨ S.tgt (q + 1) := by
  rcases (S.next q hq).2 with a | a | a
  · exact Or.inl a
  · exact Or.inr a
  · exact absurd a h

/-- Targets whose successors have been met in the first `i` steps. -/
def met (S : Sched n Nat) (i q : Nat) : Prop := S.tgt q ∧ q + 1 ≠ n ∧ S.time (q + 1) ≤ i

/-- The bookkeeping after `i` steps. -/
structure Book (N off i d : Nat) (D : List Nat) : Prop where
  len : D.length = N
  cur : d = off + cnt n (fun r => (S.src r ∨ S.tgt r) ∧ ¬ X.w r ∧ X.fl r ∧ S.time r ≤ i)
  ge : ∀ q x, met S i q → D[X.tk q]? = some x → off + X.num (q + 1) ≤ x
  from' : ∀ t x, D[t]? = some x → x ≤ off ∨ ∃ q, met S i q ∧ X.tk q = t ∧ x = off + X.num (q + 1)

variable {X} {N off i d : Nat} {D : List Nat}

/-- The number `d` after the flag of the entry at hand. -/
theorem Book.dnext (h : X.Book N off i d D) {r : Nat} (hr : S.src r ∨ S.tgt r) (ht : S.time r = i + 1) (hw : ¬ X.w r) :
    (d + if X.fl r then 1 else 0) = off + X.num r ∧
    cnt n (fun r => (S.src r ∨ S.tgt r) ∧ ¬ X.w r ∧ X.fl r ∧ S.time r ≤ i + 1) = X.num r := by
  have h1 : cnt n (fun r => (S.src r ∨ S.tgt r) ∧ ¬ X.w r ∧ X.fl r ∧ S.time r ≤ i + 1) = X.num r := by
    unfold num; rw [ht]
  refine ⟨?_, h1⟩
  rw [← h1, h.cur]
  by_cases e : X.fl r
  · rw [if_pos e, cnt_insert (n := n) (a := r) (P := fun r => (S.src r ∨ S.tgt r) ∧ ¬ X.w r ∧ X.fl r ∧ S.time r ≤ i)
      (Q := fun r => (S.src r ∨ S.tgt r) ∧ ¬ X.w r ∧ X.fl r ∧ S.time r ≤ i + 1) (S.bound r hr) (fun a => by have := a.2.2.2; omega)
      (fun q _ => by
        constructor
        · rintro ⟨a, b, c, e'⟩
          by_cases e2 : S.time q ≤ i
          · exact Or.inl ⟨a, b, c, e2⟩
          · exact Or.inr (S.inj q r a hr (by omega))
        · rintro (⟨a, b, c, e'⟩ | rfl)
          · exact ⟨a, b, c, by omega⟩
          · exact ⟨hr, hw, e, by omega⟩)]
    omega
  · rw [if_neg e, Nat.add_zero]
    congr 1
    apply cnt_congr
    intro q _
    constructor
    · rintro ⟨a, b, c, e'⟩; exact ⟨a, b, c, by omega⟩
    · rintro ⟨a, b, c, e'⟩
      refine ⟨a, b, c, ?_⟩
      by_cases e2 : S.time q ≤ i
      · exact e2
      · rw [S.inj q r a hr (by omega)] at c; exact absurd c e

theorem met_succ {q u : Nat} (hq : S.tgt q) (ht : S.time (q + 1) = i + 1) : met S (i + 1) u ↔ met S i u ∨ u = q := by
  have hne : q + 1 ≠ n := fun e => by rw [e, S.zero] at ht; omega
  constructor
  · rintro ⟨a, b, c⟩
    by_cases e : S.time (u + 1) ≤ i
    · exact Or.inl ⟨a, b, e⟩
    · have := S.inj (u + 1) (q + 1) (Sched.next_act a b) (Sched.next_act hq hne) (by omega)
      exact Or.inr (by omega)
  · rintro (⟨a, b, c⟩ | rfl)
    · exact ⟨a, b, by omega⟩
    · exact ⟨hq, hne, by omega⟩

/-- The comparison with `D` tells whether the new entry is the first of its class. -/
theorem Book.place (h : X.Book N off i d D) {q : Nat} (hq : S.tgt q) (ht : S.time (q + 1) = i + 1) (hN : X.tk q < N) :
    ∃ x, D[X.tk q]? = some x ∧ (x ≠ (d + if X.fl (q + 1) then 1 else 0) ↔ X.fl q) ∧
      X.Book N off (i + 1) (d + if X.fl (q + 1) then 1 else 0) (D.set (X.tk q) (d + if X.fl (q + 1) then 1 else 0)) := by
  have hne : q + 1 ≠ n := fun e => by rw [e, S.zero] at ht; omega
  have hact := Sched.next_act hq hne
  have hw := X.wtgt q hq hne
  obtain ⟨hd, hc⟩ := h.dnext hact ht hw
  have hpos := X.num_pos hact hw
  have hlen := h.len
  obtain ⟨x, hx⟩ : ∃ x, D[X.tk q]? = some x := ⟨_, List.getElem?_eq_getElem (by omega)⟩
  rw [hd]
  refine ⟨x, hx, ?_, ?_, ?_, ?_, ?_⟩
  · constructor
    · intro hne' r' ha hxc hww hlt
      apply hne'
      have hr' := X.tgtc r' q hq ha hxc
      have hr1 := X.last r' q hq hne ha hxc
      obtain ⟨k1, k2⟩ := (X.step r' q hr' hq hr1 hne).mp hxc
      have hact' := Sched.next_act hr' hr1
      have htm : S.time (r' + 1) < S.time (q + 1) := by
        rcases Nat.lt_trichotomy (S.time (r' + 1)) (S.time (q + 1)) with e | e | e
        · exact e
        · have := S.inj _ _ hact' hact e
          rw [show r' = q by omega] at hlt; omega
        · have := Sched.tgt_mono hq hr' k1.symm e; omega
      have htk : X.tk r' = X.tk q := (X.tkeq r' q hr' hq).mpr ⟨k1, hww⟩
      have h1 := h.ge r' x ⟨hr', hr1, by omega⟩ (by rw [htk]; exact hx)
      rw [(X.num_eq hact' hact (X.wtgt r' hr' hr1) hw).mpr k2] at h1
      rcases h.from' _ x hx with h2 | ⟨u, h2, _, h3⟩
      · omega
      · have := X.num_le (a := u + 1) (b := q + 1) (by have := h2.2.2; omega)
        omega
    · intro hf e
      rcases h.from' _ x hx with h2 | ⟨u, ⟨u1, u2, u3⟩, h2, h3⟩
      · omega
      · have hactu := Sched.next_act u1 u2
        obtain ⟨k1, k2⟩ := (X.tkeq u q u1 hq).mp h2
        have k3 := (X.num_eq hactu hact (X.wtgt u u1 u2) hw).mp (by omega)
        have k4 := (X.step u q u1 hq u2 hne).mpr ⟨k1, k3⟩
        exact hf u (Or.inr u1) k4 k2 (Sched.tgt_mono u1 hq k1 (by omega))
  · rw [List.length_set]; exact hlen
  · rw [hc]
  · intro u y hu hy
    by_cases e : X.tk u = X.tk q
    · rw [e, List.getElem?_set_self (by omega)] at hy
      injection hy with hy
      have := X.num_le (a := u + 1) (b := q + 1) (by have := hu.2.2; omega)
      omega
    · rw [List.getElem?_set_ne (fun a => e a.symm)] at hy
      rcases (met_succ hq ht).mp hu with a | a
      · exact h.ge u y a hy
      · rw [a] at e; exact absurd rfl e
  · intro t y hy
    by_cases e : t = X.tk q
    · rw [e, List.getElem?_set_self (by omega)] at hy
      injection hy with hy
      exact Or.inr ⟨q, (met_succ hq ht).mpr (Or.inr rfl), e.symm, hy.symm⟩
    · rw [List.getElem?_set_ne (fun a => e a.symm)] at hy
      rcases h.from' t y hy with a | ⟨u, a, b, c⟩
      · exact Or.inl a
      · exact Or.inr ⟨u, (met_succ hq ht).mpr (Or.inl a), b, c⟩

/-- A slot from which nothing is induced. -/
theorem Book.pass (h : X.Book N off i d D) (hno : ∀ q, S.tgt q → S.time (q + 1) ≠ i + 1)
    (hw : ∀ r, (S.src r ∨ S.tgt r) → S.time r = i + 1 → X.w r) : X.Book N off (i + 1) d D := by
  have hm : ∀ q, met S (i + 1) q ↔ met S i q := by
    intro q
    constructor
    · rintro ⟨a, b, c⟩; exact ⟨a, b, by have := hno q a; omega⟩
    · rintro ⟨a, b, c⟩; exact ⟨a, b, by omega⟩
  refine ⟨h.len, ?_, ?_, ?_⟩
  · rw [h.cur]
    congr 1
    apply cnt_congr
    intro q _
    constructor
    · rintro ⟨a, b, c, e⟩; exact ⟨a, b, c, by omega⟩
    · rintro ⟨a, b, c, e⟩
      refine ⟨a, b, c, ?_⟩
      by_cases e2 : S.time q ≤ i
      · exact e2
      · exact absurd (hw q a (by omega)) b
  · intro q x hq; exact h.ge q x ((hm q).mp hq)
  · intro t x hx
    rcases h.from' t x hx with a | ⟨u, a, b, c⟩
    · exact Or.inl a
    · exact Or.inr ⟨u, (hm u).mpr a, b, c⟩

/-- At the beginning. -/
theorem Book.init (hlen : D.length = N) (hle : ∀ (t x : Nat), D[t]? = some x → x ≤ off) : X.Book N off 0 off D := by
  refine ⟨hlen, ?_, ?_, fun t x hx => Or.inl (hle t x hx)⟩
  · rw [cnt_false (n := n) (P := fun r => (S.src r ∨ S.tgt r) ∧ ¬ X.w r ∧ X.fl r ∧ S.time r ≤ 0) (fun q _ a => by
      have := S.range q a.1
      have := a.2.2.2
      omega)]
    rfl
  · rintro q x ⟨a, b, c⟩
    have := S.range _ (Sched.next_act a b)
    omega

theorem Book.le (h : X.Book N off n d D) {t x : Nat} (hx : D[t]? = some x) : x ≤ d := by
  have hc := h.cur
  rcases h.from' t x hx with a | ⟨u, a, _, b⟩
  · omega
  · have : X.num (u + 1) ≤ cnt n (fun r => (S.src r ∨ S.tgt r) ∧ ¬ X.w r ∧ X.fl r ∧ S.time r ≤ n) :=
      cnt_le (fun q _ a => ⟨a.1, a.2.1, a.2.2.1, (S.range q a.1).2⟩)
    omega

end Cls
end Bwtc.Induce

namespace Bwtc.Sais
open Induce Suffix Classical

/-! ## From the first to the last of each class -/

/-- The first cell of its class. -/
def cellF (P : Nat → Prop) (c : Nat → List Nat) (x : Nat) : Prop := ∀ y, P y → c y = c x → ¬ y < x

/-- The last cell of its class. -/
def cellG (P : Nat → Prop) (c : Nat → List Nat) (x : Nat) : Prop := ∀ y, P y → c y = c x → ¬ x < y

theorem flagLoop_succ (n : Nat) (seek : Bool) (i : Nat) (sa : List Int) : flagLoop n seek (i + 1) sa =
    match sa[i]? with
    | none => none
    | some v =>
      if seek then
        if v < n then flagLoop n true i sa else flagLoop n false i (sa.set i (v - n))
      else if 0 < v ∧ v < n then flagLoop n true i (sa.set i (v + n))
      else flagLoop n false i sa := by
  cases seek <;> rfl

/-- Lines 189-198: the marks of the first cells become marks of the last cells. -/
theorem flagLoop_spec {n : Nat} {P : Nat → Prop} {c : Nat → List Nat} {a : Nat → Nat} (ha : ∀ x, P x → 0 < a x ∧ a x < n)
    (hcon : ∀ x y z, P x → P y → P z → x ≤ y → y ≤ z → c x = c z → c y = c x)
    (i : Nat) (hi : i ≤ n) (sa : List Int) (seek : Bool) (hlen : sa.length = n)
    (hlo : ∀ x, x < i → sa[x]? = some (if P x then ((a x + if cellF P c x then n else 0 : Nat) : Int) else 0))
    (hhi : ∀ x, i ≤ x → x < n → sa[x]? = some (if P x then ((a x + if cellG P c x then n else 0 : Nat) : Int) else 0))
    (hPn : ∀ x, P x → x < n)
    (hf : seek = false → ∀ y, P y → i ≤ y → (∀ z, P z → i ≤ z → y ≤ z) → cellF P c y)
    (ht : seek = true → ∃ y, P y ∧ i ≤ y ∧ (∀ z, P z → i ≤ z → y ≤ z) ∧ ¬ cellF P c y) :
    ∃ sa', flagLoop n seek i sa = some sa' ∧ sa'.length = n ∧
      ∀ x, x < n → sa'[x]? = some (if P x then ((a x + if cellG P c x then n else 0 : Nat) : Int) else 0) := by
  induction i generalizing sa seek with
  | zero =>
    cases seek with
    | false => exact ⟨sa, rfl, hlen, fun x hx => hhi x (by omega) hx⟩
    | true =>
      obtain ⟨y, h1, _, h2, h3⟩ := ht rfl
      exact absurd (fun z hz _ hlt => by have := h2 z hz (by omega); omega) h3
  | succ i ih =>
    have hset := fun v => get_set1 (A := sa) (i := i) (v := v) (by omega)
    have hv := hlo i (by omega)
    -- a cell that stands before a first cell is the last of its class
    have hnext : seek = false → P i → cellG P c i := by
      intro hs hP y hy hc hlt
      by_cases hex : ∃ z, P z ∧ i + 1 ≤ z ∧ z < y
      · -- the least cell behind `i`
        have hmin : ∀ d y, y ≤ d → P y → i + 1 ≤ y → ∃ z, P z ∧ i + 1 ≤ z ∧ z ≤ y ∧ ∀ u, P u → i + 1 ≤ u → z ≤ u := by
          intro d
          induction d with
          | zero => intro y h1 h2 h3; omega
          | succ d ihd =>
            intro y h1 h2 h3
            by_cases hex : ∃ u, P u ∧ i + 1 ≤ u ∧ u < y
            · obtain ⟨u, u1, u2, u3⟩ := hex
              obtain ⟨z, z1, z2, z3, z4⟩ := ihd u (by omega) u1 u2
              exact ⟨z, z1, z2, by omega, z4⟩
            · refine ⟨y, h2, h3, Nat.le_refl _, fun u u1 u2 => Nat.le_of_not_lt (fun u3 => hex ⟨u, u1, u2, u3⟩)⟩
        obtain ⟨z, z1, z2, z3, z4⟩ := hmin y y (Nat.le_refl _) hy (by omega)
        have := hcon i z y hP z1 hy (by omega) z3 hc.symm
        exact hf hs z z1 z2 z4 i hP this.symm (by omega)
      · exact hf hs y hy (by omega) (fun z hz hiz => Nat.le_of_not_lt (fun e => hex ⟨z, hz, hiz, e⟩)) i hP hc.symm hlt
    have hprev : seek = true → P i → ¬ cellG P c i := by
      intro hs hP hG
      obtain ⟨y, y1, y2, y3, y4⟩ := ht hs
      apply y4
      intro z hz hc hlt
      by_cases e : z ≤ i
      · have := hcon z i y hz hP y1 e (by omega) hc
        exact hG y y1 (by rw [this, hc]) (by omega)
      · have := y3 z hz (by omega); omega
    have hkeep : ∀ v, (v = if P i then ((a i + if cellG P c i then n else 0 : Nat) : Int) else 0) →
        ∀ x, i ≤ x → x < n → (sa.set i v)[x]? = some (if P x then ((a x + if cellG P c x then n else 0 : Nat) : Int) else 0) := by
      intro v hv x h1 h2
      by_cases e : x = i
      · rw [e, (hset v).1, hv]
      · rw [(hset v).2 x e]; exact hhi x (by omega) h2
    have hkeep' : sa[i]? = some (if P i then ((a i + if cellG P c i then n else 0 : Nat) : Int) else 0) →
        ∀ x, i ≤ x → x < n → sa[x]? = some (if P x then ((a x + if cellG P c x then n else 0 : Nat) : Int) else 0) := by
      intro hv x h1 h2
      by_cases e : x = i
      · rw [e, hv]
      · exact hhi x (by omega) h2
    have hlow : ∀ v, ∀ x, x < i → (sa.set i v)[x]? = some (if P x then ((a x + if cellF P c x then n else 0 : Nat) : Int) else 0) := by
      intro v x hx
      rw [(hset v).2 x (by omega)]; exact hlo x (by omega)
    have hlow' : ∀ x, x < i → sa[x]? = some (if P x then ((a x + if cellF P c x then n else 0 : Nat) : Int) else 0) :=
      fun x hx => hlo x (by omega)
    rw [flagLoop_succ, hv]
    simp only
    by_cases hP : P i
    · have hai := ha i hP
      rw [if_pos hP]
      -- `i` is now the least cell from `i` on
      have hleast : ∀ y, P y → i ≤ y → (∀ z, P z → i ≤ z → y ≤ z) → y = i := by
        intro y _ h1 h2
        have := h2 i hP (Nat.le_refl _); omega
      by_cases hF : cellF P c i
      · rw [if_pos hF]
        cases seek with
        | false =>
          have hG := hnext rfl hP
          simp only [Bool.false_eq_true, if_false]
          rw [if_neg (by omega)]
          refine ih (by omega) sa false hlen hlow' (hkeep' ?_) ?_ (fun a => by simp at a)
          · rw [hv, if_pos hP, if_pos hF, if_pos hP, if_pos hG]
          · intro _ y h1 h2 h3
            rw [hleast y h1 h2 h3]; exact hF
        | true =>
          have hG := hprev rfl hP
          simp only [if_true]
          rw [if_neg (by omega)]
          refine ih (by omega) _ false (by rw [List.length_set]; exact hlen) (hlow _) (hkeep _ ?_) ?_ (fun a => by simp at a)
          · rw [if_pos hP, if_neg hG]; omega
          · intro _ y h1 h2 h3
            rw [hleast y h1 h2 h3]; exact hF
      · rw [if_neg hF]
        cases seek with
        | false =>
          have hG := hnext rfl hP
          simp only [Bool.false_eq_true, if_false]
          rw [if_pos (by omega)]
          refine ih (by omega) _ true (by rw [List.length_set]; exact hlen) (hlow _) (hkeep _ ?_) (fun a => by simp at a) ?_
          · rw [if_pos hP, if_pos hG]; omega
          · intro _
            exact ⟨i, hP, Nat.le_refl _, fun z _ hz => hz, hF⟩
        | true =>
          have hG := hprev rfl hP
          simp only [if_true]
          rw [if_pos (by omega)]
          refine ih (by omega) sa true hlen hlow' (hkeep' ?_) (fun a => by simp at a) ?_
          · rw [hv, if_pos hP, if_neg hF, if_pos hP, if_neg hG]
          · intro _
            exact ⟨i, hP, Nat.le_refl _, fun z _ hz => hz, hF⟩
    · rw [if_neg hP]
      have hge : ∀ z, P z → i ≤ z → i + 1 ≤ z := by
        intro z hz h
        by_cases e : z = i
        · rw [e] at hz; exact absurd hz hP
        · omega
      have hn : 0 < n := by omega
      cases seek with
      | false =>
        simp only [Bool.false_eq_true, if_false]
        rw [if_neg (by omega)]
        refine ih (by omega) sa false hlen hlow' (hkeep' ?_) ?_ (fun a => by simp at a)
        · rw [hv, if_neg hP, if_neg hP]
        · intro _ y h1 h2 h3
          exact hf rfl y h1 (hge y h1 h2) (fun z hz h => h3 z hz (by omega))
      | true =>
        simp only [if_true]
        rw [if_pos (by omega)]
        refine ih (by omega) sa true hlen hlow' (hkeep' ?_) (fun a => by simp at a) ?_
        · rw [hv, if_neg hP, if_neg hP]
        · intro _
          obtain ⟨y, y1, y2, y3, y4⟩ := ht rfl
          exact ⟨y, y1, by omega, fun z hz h => y3 z hz (hge z hz h), y4⟩

end Bwtc.Sais
