import Verif.DivsufPlace

/-!
# `sort_typeBstar`: the sorted B* suffixes are written to their rows (lines 164-188)
-/

set_option autoImplicit false

namespace Bwtc.Divsuf
open Induce Suffix Classical
open Sais (inv put bind_some' put_spec loopDown_spec get_set1)

variable {T : List Nat}

/-! ## Ranks and rows -/

/-- The rank of a B* suffix among the B* suffixes. -/
noncomputable def rkS (T : List Nat) (p : Nat) : Nat := cnt T.length (fun q => isBs T q ∧ sless T q p)

theorem rkS_lt {p : Nat} (hp : isBs T p) : rkS T p < numS T :=
  cnt_lt (P := fun q => isBs T q ∧ sless T q p) hp.1.1 (fun a => sless_irrefl p a.2) hp (fun _ _ a => a.1)

theorem rkS_mono {p q : Nat} (hp : isBs T p) (h : sless T p q) : rkS T p < rkS T q :=
  cnt_lt (P := fun r => isBs T r ∧ sless T r p) hp.1.1 (fun a => sless_irrefl p a.2) ⟨hp, h⟩
    (fun _ _ a => ⟨a.1, sless_trans a.2 h⟩)

theorem rkS_inj {p q : Nat} (hp : isBs T p) (hq : isBs T q) (h : rkS T p = rkS T q) : p = q := by
  rcases sless_total (T := T) (p := p) (q := q) (by have := hp.1.1; omega) (by have := hq.1.1; omega) with a | a | a
  · have := rkS_mono hp a; omega
  · exact a
  · have := rkS_mono hq a; omega

theorem rkS_surj {r : Nat} (hr : r < numS T) : ∃ p, isBs T p ∧ rkS T p = r := by
  obtain ⟨i, hi, e⟩ := inj_surj (m := numS T) (fun i => rkS T (PA T i)) (fun i hi => rkS_lt (PA_spec hi).1)
    (fun i j hi hj e => by
      have := rkS_inj (PA_spec hi).1 (PA_spec hj).1 e
      have h1 := (PA_spec hi).2
      have h2 := (PA_spec hj).2
      rw [this] at h1
      omega) hr
  exact ⟨_, (PA_spec hi).1, e⟩

theorem rkS_le_row (p : Nat) : rkS T p ≤ row T p := cnt_le (fun _ _ a => a.2)

/-- The rows in front of the B* suffixes with `(c0, c1)`. -/
noncomputable def rowE (T : List Nat) (c0 c1 : Nat) : Nat :=
  cnt T.length (fun q => ch T q < c0 ∨ (ch T q = c0 ∧ (isL T q ∨ ch T (q + 1) < c1)))

theorem stopB_rowE (c0 c1 : Nat) : stopB T (c0, c1) = rowE T c0 (c1 + 1) :=
  cnt_congr (fun q _ => by
    constructor
    · rintro (a | ⟨a, b | b⟩)
      · exact Or.inl a
      · exact Or.inr ⟨a, Or.inl b⟩
      · simp only at b; exact Or.inr ⟨a, Or.inr (by omega)⟩
    · rintro (a | ⟨a, b | b⟩)
      · exact Or.inl a
      · exact Or.inr ⟨a, Or.inl b⟩
      · exact Or.inr ⟨a, Or.inr (by simp only; omega)⟩)

theorem rowE_eq (c0 c1 : Nat) : rowE T c0 c1 = iB T c0 c1 + jS T c0 c1 := by
  apply cnt_or (P := fun q => ¬ isBs T q ∧ (ch T q < c0 ∨ (ch T q = c0 ∧ (isL T q ∨ ch T (q + 1) < c1))))
    (Q := fun q => isBs T q ∧ (ch T q < c0 ∨ (ch T q = c0 ∧ ch T (q + 1) < c1)))
  · intro q _
    constructor
    · intro a
      by_cases e : isBs T q
      · right
        refine ⟨e, ?_⟩
        rcases a with a | ⟨a, b | b⟩
        · exact Or.inl a
        · exact (not_isL_isS b e.1).elim
        · exact Or.inr ⟨a, b⟩
      · exact Or.inl ⟨e, a⟩
    · rintro (a | ⟨_, a | a⟩)
      · exact a.2
      · exact Or.inl a
      · exact Or.inr ⟨a.1, Or.inr a.2⟩
  · intro q _ a b
    exact a.1 b.1

/-- The B* suffixes of the same bucket that are smaller. -/
noncomputable def sameKey (T : List Nat) (p : Nat) : Nat :=
  cnt T.length (fun q => (isBs T q ∧ ch T q = ch T p ∧ ch T (q + 1) = ch T (p + 1)) ∧ sless T q p)

theorem rkS_eq {p : Nat} (hp : isBs T p) : rkS T p = jS T (ch T p) (ch T (p + 1)) + sameKey T p := by
  apply cnt_or (P := fun q => isBs T q ∧ (ch T q < ch T p ∨ (ch T q = ch T p ∧ ch T (q + 1) < ch T (p + 1))))
    (Q := fun q => (isBs T q ∧ ch T q = ch T p ∧ ch T (q + 1) = ch T (p + 1)) ∧ sless T q p)
  · intro q hq
    have hstep := sless_step hq hp.1.1
    constructor
    · rintro ⟨a, b⟩
      rcases hstep.mp b with c | c
      · exact Or.inl ⟨a, Or.inl c⟩
      · rcases (sless_step (isS_next a.1) (isS_next hp.1)).mp c.2 with d | d
        · exact Or.inl ⟨a, Or.inr ⟨c.1, d⟩⟩
        · exact Or.inr ⟨⟨a, c.1, d.1⟩, b⟩
    · rintro (⟨a, b | b⟩ | a)
      · exact ⟨a, hstep.mpr (Or.inl b)⟩
      · exact ⟨a, hstep.mpr (Or.inr ⟨b.1, (sless_step (isS_next a.1) (isS_next hp.1)).mpr (Or.inl b.2)⟩)⟩
      · exact ⟨a.1.1, a.2⟩
  · rintro q _ ⟨_, a | a⟩ b <;> omega

theorem row_star {p : Nat} (hp : isBs T p) : row T p = rowE T (ch T p) (ch T (p + 1)) + sameKey T p := by
  apply cnt_or (P := fun q => ch T q < ch T p ∨ (ch T q = ch T p ∧ (isL T q ∨ ch T (q + 1) < ch T (p + 1))))
    (Q := fun q => (isBs T q ∧ ch T q = ch T p ∧ ch T (q + 1) = ch T (p + 1)) ∧ sless T q p)
  · intro q hq
    have hstep := sless_step hq hp.1.1
    constructor
    · intro b
      rcases hstep.mp b with c | c
      · exact Or.inl (Or.inl c)
      · rcases type_total hq with t | t
        · exact Or.inl (Or.inr ⟨c.1, Or.inl t⟩)
        · have hq1 := isS_next t
          rcases (sless_step hq1 (isS_next hp.1)).mp c.2 with d | d
          · exact Or.inl (Or.inr ⟨c.1, Or.inr d⟩)
          · exact Or.inr ⟨⟨⟨t, same_below_L hp.2 hq1 d.1 c.2⟩, c.1, d.1⟩, b⟩
    · rintro ((a | ⟨a, b | b⟩) | a)
      · exact hstep.mpr (Or.inl a)
      · exact L_lt_S b hp.1 a
      · rcases type_total hq with t | t
        · exact L_lt_S t hp.1 a
        · exact hstep.mpr (Or.inr ⟨a, (sless_step (isS_next t) (isS_next hp.1)).mpr (Or.inl b)⟩)
      · exact a.2
  · rintro q _ (a | ⟨a, b | b⟩) c
    · omega
    · exact not_isL_isS b c.1.1.1
    · omega

theorem rkS_range {p : Nat} (hp : isBs T p) : jS T (ch T p) (ch T (p + 1)) ≤ rkS T p ∧ rkS T p < jS T (ch T p) (ch T (p + 1) + 1) := by
  have h1 := rkS_eq hp
  have h2 := jS_succ (T := T) (ch T p) (ch T (p + 1))
  have h3 : sameKey T p < cnt T.length (fun q => isBs T q ∧ ch T q = ch T p ∧ ch T (q + 1) = ch T (p + 1)) :=
    cnt_lt hp.1.1 (fun a => sless_irrefl p a.2) ⟨hp, rfl, rfl⟩ (fun q _ a => a.1)
  omega

theorem bucket_unique {x y x' y' r : Nat} (h1 : jS T x y ≤ r) (h2 : r < jS T x (y + 1)) (h3 : jS T x' y' ≤ r) (h4 : r < jS T x' (y' + 1)) :
    x = x' ∧ y = y' := by
  by_cases e : x < x' ∨ (x = x' ∧ y < y')
  · have := jS_next (T := T) e; omega
  · by_cases e2 : x' < x ∨ (x' = x ∧ y' < y)
    · have := jS_next (T := T) e2; omega
    · omega

/-! ## Lines 164-171 -/

/-- The B* suffixes from `b` on have been written to the cells of their ranks. -/
structure Set1 (T : List Nat) (rk : Nat → Nat) (b : Nat) (s : List Int × Nat) : Prop where
  size : s.1.length = T.length
  j : s.2 = idx T b
  isa : ∀ p, isBs T p → s.1[numS T + idx T p]? = some (rk p : Int)
  cell : ∀ p, isBs T p → b ≤ p → s.1[rk p]? = some (stB T p)

theorem setOne_spec {rk : Nat → Nat} (hrk : ∀ p, isBs T p → rk p < numS T)
    (hinj : ∀ p q, isBs T p → isBs T q → rk p = rk q → p = q) {t : Nat} (ht : isBs T t) {i : Int}
    (hi : (t = 0 ∨ 1 < (t : Int) - i) ↔ (t = 0 ∨ isS T (t - 1))) {s : List Int × Nat} (h : Set1 T rk (t + 1) s) :
    ∃ s', setOne (numS T) t i s = some s' ∧ Set1 T rk t s' := by
  have hj : s.2 = idx T t + 1 := by rw [h.j, idx_succ ht.1.1, if_pos ht]
  have h2 := two_numS (T := T)
  have hv : (if t = 0 ∨ 1 < (t : Int) - i then (t : Int) else inv t) = stB T t := by
    unfold stB
    by_cases e : t = 0
    · rw [if_pos (Or.inl e), if_pos e, e]; rfl
    · rw [if_neg e]
      by_cases e2 : isS T (t - 1)
      · rw [if_pos (hi.mpr (Or.inr e2)), if_pos e2]
      · rw [if_neg (fun a => (hi.mp a).elim e e2), if_neg e2]
  have hr := hrk t ht
  have hset := get_set1 (A := s.1) (i := rk t) (v := stB T t) (by rw [h.size]; omega)
  refine ⟨(s.1.set (rk t) (stB T t), idx T t), ?_, ?_, rfl, ?_, ?_⟩
  · unfold setOne
    rw [if_neg (by omega), show s.2 - 1 = idx T t by omega, bind_some' (h.isa t ht), hv, putI_nat,
      bind_some' (put_spec (by rw [h.size]; omega) _)]
    rfl
  · simp only [List.length_set]; exact h.size
  · intro p hp
    rw [hset.2 _ (by omega)]
    exact h.isa p hp
  · intro p hp hb
    by_cases e : p = t
    · subst e; exact hset.1
    · rw [hset.2 _ (fun a => e (hinj p t hp ht a))]
      exact h.cell p hp (by omega)

theorem Set1.shift {rk : Nat → Nat} {b b' : Nat} {s : List Int × Nat} (h : Set1 T rk b s) (hb : b' ≤ b) (hbn : b ≤ T.length)
    (hno : ∀ q, b' ≤ q → q < b → ¬ isBs T q) : Set1 T rk b' s := by
  refine ⟨h.size, ?_, h.isa, ?_⟩
  · rw [h.j]
    apply cnt_congr
    intro q _
    constructor
    · rintro ⟨a, c⟩
      refine ⟨?_, c⟩
      by_cases e : q < b'
      · exact e
      · exact absurd c (hno q (by omega) a)
    · rintro ⟨a, c⟩; exact ⟨by omega, c⟩
  · intro p hp hp'
    apply h.cell p hp
    by_cases e : b ≤ p
    · exact e
    · exact absurd hp (hno p hp' (by omega))

theorem setOrder_spec {rk : Nat → Nat} (hrk : ∀ p, isBs T p → rk p < numS T)
    (hinj : ∀ p q, isBs T p → isBs T q → rk p = rk q → p = q) (i : Nat) (hi : i < T.length) :
    (∀ s, isL T i → Set1 T rk i s → ∃ s', setOrder T (numS T) i (ch T i) none s = some s' ∧ Set1 T rk 0 s') ∧
    (∀ t s, isBs T t → i ≤ t → (∀ q, i ≤ q → q ≤ t → isS T q) → Set1 T rk (t + 1) s →
      ∃ s', setOrder T (numS T) i (ch T i) (some t) s = some s' ∧ Set1 T rk 0 s') := by
  induction i with
  | zero =>
    refine ⟨fun s _ h => ⟨s, rfl, h⟩, ?_⟩
    intro t s ht _ hS h
    obtain ⟨s', h1, h2⟩ := setOne_spec hrk hinj ht (i := -1) (by
      constructor
      · intro _
        by_cases e : t = 0
        · exact Or.inl e
        · exact Or.inr (hS (t - 1) (by omega) (by omega))
      · intro _
        by_cases e : t = 0
        · exact Or.inl e
        · exact Or.inr (by omega)) h
    refine ⟨s', h1, h2.shift (by omega) (by have := ht.1.1; omega) ?_⟩
    intro q _ hq hb
    have := hS (q + 1) (by omega) (by omega)
    exact not_isL_isS hb.2 this
  | succ i ih =>
    have hi' : i < T.length := by omega
    obtain ⟨ih1, ih2⟩ := ih hi'
    refine ⟨?_, ?_⟩
    · intro s hl h
      unfold setOrder
      rw [bind_some' (get_ch hi')]
      by_cases hc : ch T (i + 1) ≤ ch T i
      · rw [if_pos hc]
        have hli := (L_pred hl).mpr hc
        exact ih1 s hli (h.shift (by omega) (by omega) (fun q a b hb => by
          have : q = i := by omega
          subst this
          exact not_isL_isS hli hb.1))
      · rw [if_neg hc]
        have hs : isS T i := by
          apply (not_isL hi').mp
          intro a
          exact hc ((L_pred hl).mp a)
        exact ih2 i s ⟨hs, hl⟩ (Nat.le_refl _) (fun q a b => by
          have : q = i := by omega
          subst this; exact hs) h
    · intro t s ht hit hS h
      have hSi := hS (i + 1) (Nat.le_refl _) hit
      unfold setOrder
      rw [bind_some' (get_ch hi')]
      by_cases hc : ch T i ≤ ch T (i + 1)
      · rw [if_pos hc]
        have hs := (S_pred hSi).mpr hc
        exact ih2 t s ht (by omega) (fun q a b => by
          by_cases e : q = i
          · subst e; exact hs
          · exact hS q (by omega) b) h
      · rw [if_neg hc]
        have hl : isL T i := by
          apply (not_isS hi').mp
          intro a
          exact hc ((S_pred hSi).mp a)
        obtain ⟨s', h1, h2⟩ := setOne_spec hrk hinj ht (i := (i : Int)) (by
          constructor
          · rintro (a | a)
            · omega
            · exact Or.inr (hS (t - 1) (by omega) (by omega))
          · rintro (a | a)
            · omega
            · right
              by_cases e : t - 1 = i
              · rw [e] at a; exact (not_isL_isS hl a).elim
              · omega) h
        rw [bind_some' h1]
        apply ih1 s' hl
        apply h2.shift (by omega) (by have := ht.1.1; omega)
        intro q a b hb
        by_cases e : q = i
        · subst e; exact not_isL_isS hl hb.1
        · exact not_isL_isS hb.2 (hS (q + 1) (by omega) (by omega))

/-! ## Lines 174-188 -/

/-- The B* suffixes with ranks from `r` on are at their rows. -/
structure Moved (T : List Nat) (r : Nat) (sa : List Int) : Prop where
  size : sa.length = T.length
  row : ∀ p, isBs T p → r ≤ rkS T p → sa[row T p]? = some (stB T p)
  rank : ∀ p, isBs T p → rkS T p < r → sa[rkS T p]? = some (stB T p)

theorem moveDown_spec {c0 c1 : Nat} (d r : Nat) (h1 : jS T c0 c1 ≤ r - d) (hd : d ≤ r) (h2 : r ≤ jS T c0 (c1 + 1)) {sa : List Int}
    (h : Moved T r sa) : ∃ sa', moveDown d (sa, (rowE T c0 c1 : Int) + r - jS T c0 c1 - 1, (r : Int) - 1) =
      some (sa', (rowE T c0 c1 : Int) + r - jS T c0 c1 - 1 - d, (r : Int) - 1 - d) ∧ Moved T (r - d) sa' := by
  induction d generalizing r sa with
  | zero => exact ⟨sa, by simp [moveDown], h⟩
  | succ d ih =>
    have hle := jS_le (T := T) c0 (c1 + 1)
    obtain ⟨p, hp, hpr⟩ := rkS_surj (T := T) (r := r - 1) (by omega)
    have hrg := rkS_range hp
    have hkey := bucket_unique (T := T) (r := r - 1) (x := c0) (y := c1) (by omega) (by omega) (by rw [← hpr]; exact hrg.1) (by rw [← hpr]; exact hrg.2)
    have hrow : (rowE T c0 c1 : Int) + r - jS T c0 c1 - 1 = (row T p : Int) := by
      have a := rkS_eq hp
      have b := row_star hp
      rw [← hkey.1, ← hkey.2] at a b
      omega
    have hrn := row_lt hp.1.1
    have hset := get_set1 (A := sa) (i := row T p) (v := stB T p) (by rw [h.size]; exact hrn)
    have hlr := rkS_le_row (T := T) p
    have h' : Moved T (r - 1) (sa.set (row T p) (stB T p)) := by
      refine ⟨by rw [List.length_set]; exact h.size, ?_, ?_⟩
      · intro q hq hqr
        by_cases e : q = p
        · subst e; exact hset.1
        · rw [hset.2 _ (fun a => e (row_inj hq.1.1 hp.1.1 a))]
          apply h.row q hq
          have : rkS T q ≠ rkS T p := fun a => e (rkS_inj hq hp a)
          omega
      · intro q hq hqr
        rw [hset.2 _ (by omega)]
        exact h.rank q hq (by omega)
    obtain ⟨sa', g1, g2⟩ := ih (r - 1) (by omega) (by omega) (by omega) h'
    refine ⟨sa', ?_, by rw [show r - (d + 1) = r - 1 - d by omega]; exact g2⟩
    unfold moveDown
    simp only
    rw [hrow, show (r : Int) - 1 = ((r - 1 : Nat) : Int) by omega, getI_nat, bind_some' (by rw [← hpr]; exact h.rank p hp (by omega)),
      putI_nat, bind_some' (put_spec (by rw [h.size]; exact hrn) _)]
    rw [show (row T p : Int) - 1 = (rowE T c0 c1 : Int) + (r - 1 : Nat) - jS T c0 c1 - 1 by omega, g1]
    simp only [Option.some.injEq, Prod.mk.injEq, true_and]
    omega

/-- The buckets while line 176 is at `c0` and line 178 at `c1 - 1`. -/
structure MoveBk (T : List Nat) (k c0 c1 : Nat) (bk0 bk : Buckets) : Prop where
  A : ∀ c, bk.A c = bk0.A c
  S : ∀ x y, x < y → x < c0 ∨ (x = c0 ∧ y < c1) → bk.star x y = bk0.star x y
  Sdone : ∀ x, c0 < x → x + 1 < k → bk.star x (x + 1) = startS T x
  B : ∀ x y, x ≤ y → y < k → x < c0 ∨ (x = c0 ∧ (y < c1 ∨ y = c0)) → bk.b x y = bk0.b x y
  Bdone : ∀ x y, x ≤ y → y < k → x + 1 < k → c0 < x ∨ (x = c0 ∧ c1 ≤ y ∧ y ≠ c0) → bk.b x y = (stopB T (x, y) : Int) - 1

theorem rowE_top {k : Nat} (hk : ∀ p, p < T.length → ch T p < k) (c0 : Nat) : rowE T c0 k = startA T (c0 + 1) := by
  rw [rowE_eq, iB_top hk, jS_top hk, iA_jS]

theorem rowE_succ {c0 c1 : Nat} (h : c0 ≤ c1) : rowE T c0 (c1 + 1) = rowE T c0 c1 + cB T 0 c1 c0 + (jS T c0 (c1 + 1) - jS T c0 c1) := by
  rw [rowE_eq, rowE_eq, iB_succ, cB_B h]
  have := jS_succ (T := T) c0 c1
  omega

theorem rowE_diag (c0 : Nat) : rowE T c0 c0 = startS T c0 := by
  apply cnt_congr
  intro q hq
  constructor
  · rintro (a | ⟨a, b | b⟩)
    · exact Or.inl a
    · exact Or.inr ⟨a, b⟩
    · rcases type_total hq with t | t
      · exact Or.inr ⟨a, t⟩
      · have := S_ch t; omega
  · rintro (a | ⟨a, b⟩)
    · exact Or.inl a
    · exact Or.inr ⟨a, Or.inl b⟩

theorem moveInner_spec {k c0 c1 : Nat} (hc : c0 < c1) (hck : c1 < k) {bk0 : Buckets}
    (hB : bk0.b c0 c1 = cB T 0 c1 c0) (hS : bk0.star c0 c1 = jS T c0 c1) {s : Move} (hi : s.i = (rowE T c0 (c1 + 1) : Int) - 1)
    (hkk : s.k = (jS T c0 (c1 + 1) : Int) - 1) (hsa : Moved T (jS T c0 (c1 + 1)) s.sa) (hbk : MoveBk T k c0 (c1 + 1) bk0 s.bk) :
    ∃ s', moveInner c0 s (c1 - c0 - 1) = some s' ∧ s'.i = (rowE T c0 c1 : Int) - 1 ∧ s'.k = (jS T c0 c1 : Int) - 1 ∧
      Moved T (jS T c0 c1) s'.sa ∧ MoveBk T k c0 c1 bk0 s'.bk := by
  have hsucc := rowE_succ (T := T) (show c0 ≤ c1 by omega)
  have hjs := jS_succ (T := T) c0 c1
  obtain ⟨sa', g1, g2⟩ := moveDown_spec (c0 := c0) (c1 := c1) (jS T c0 (c1 + 1) - jS T c0 c1) (jS T c0 (c1 + 1)) (by omega) (by omega) (by omega) hsa
  refine ⟨⟨sa', (rowE T c0 c1 : Int) - 1, (jS T c0 c1 : Int) - 1, s.bk.setB c0 c1 s.i⟩, ?_, rfl, rfl, ?_, ?_⟩
  · unfold moveInner
    simp only
    have e1 : c0 + 1 + (c1 - c0 - 1) = c1 := by omega
    rw [e1]
    have e2 : (s.bk.setB c0 c1 s.i).star c0 c1 = jS T c0 c1 := by
      rw [← hS, ← hbk.S c0 c1 hc (Or.inr ⟨rfl, by omega⟩)]
      unfold Buckets.setB Buckets.set Buckets.star
      simp only
      rw [if_neg (by omega)]
    have e3 : s.bk.b c0 c1 = cB T 0 c1 c0 := by
      rw [← hB]
      exact hbk.B c0 c1 (by omega) hck (Or.inr ⟨rfl, Or.inl (by omega)⟩)
    rw [e2, e3, hkk, hi]
    rw [show ((jS T c0 (c1 + 1) : Int) - 1 - jS T c0 c1 + 1).toNat = jS T c0 (c1 + 1) - jS T c0 c1 by omega,
      show (rowE T c0 (c1 + 1) : Int) - 1 - cB T 0 c1 c0 = (rowE T c0 c1 : Int) + (jS T c0 (c1 + 1) : Nat) - jS T c0 c1 - 1 by omega,
      bind_some' g1]
    simp only [Option.pure_def, Option.some.injEq, Move.mk.injEq, true_and]
    refine ⟨by omega, by omega, trivial⟩
  · rw [show jS T c0 (c1 + 1) - (jS T c0 (c1 + 1) - jS T c0 c1) = jS T c0 c1 by omega] at g2
    exact g2
  · refine ⟨hbk.A, ?_, ?_, ?_, ?_⟩
    · intro x y hxy h
      refine Eq.trans ?_ (hbk.S x y hxy (by omega))
      unfold Buckets.setB Buckets.set Buckets.star
      simp only
      rw [if_neg (by omega)]
    · intro x h1 h2
      refine Eq.trans ?_ (hbk.Sdone x h1 h2)
      unfold Buckets.setB Buckets.set Buckets.star
      simp only
      rw [if_neg (by omega)]
    · intro x y hxy hy h
      refine Eq.trans ?_ (hbk.B x y hxy hy (by omega))
      unfold Buckets.setB Buckets.set Buckets.b
      simp only
      rw [if_neg (by omega)]
    · intro x y hxy hy hxk h
      by_cases e : x = c0 ∧ y = c1
      · obtain ⟨e1, e2⟩ := e
        subst e1; subst e2
        unfold Buckets.setB Buckets.set Buckets.b
        simp only
        rw [if_pos ⟨trivial, trivial⟩, hi, stopB_rowE]
      · refine Eq.trans ?_ (hbk.Bdone x y hxy hy hxk (by omega))
        unfold Buckets.setB Buckets.set Buckets.b
        simp only
        rw [if_neg (by omega)]

theorem moveOuter_spec {k c0 : Nat} (hk : ∀ p, p < T.length → ch T p < k) (hck : c0 + 1 < k) {bk0 : Buckets}
    (hA : ∀ c, c < k → bk0.A c = startA T c) (hB : ∀ x y, x ≤ y → y + 1 < k ∨ x < y → bk0.b x y = cB T 0 y x)
    (hS : ∀ x y, x < y → y < k → bk0.star x y = jS T x y) {s : Move}
    (hkk : s.k = (jS T (c0 + 1) 0 : Int) - 1) (hsa : Moved T (jS T (c0 + 1) 0) s.sa) (hbk : MoveBk T k c0 k bk0 s.bk) :
    ∃ s', moveOuter k s c0 = some s' ∧ s'.k = (jS T c0 0 : Int) - 1 ∧ Moved T (jS T c0 0) s'.sa ∧
      (∀ c, s'.bk.A c = bk0.A c) ∧
      (∀ x y, x < y → x < c0 → s'.bk.star x y = bk0.star x y) ∧
      (∀ x, c0 ≤ x → x + 1 < k → s'.bk.star x (x + 1) = startS T x) ∧
      (∀ x y, x ≤ y → y < k → x < c0 → s'.bk.b x y = bk0.b x y) ∧
      (∀ x y, x ≤ y → y < k → x + 1 < k → c0 ≤ x → s'.bk.b x y = (stopB T (x, y) : Int) - 1) := by
  have h0 : s.bk.A (c0 + 1) - 1 = (rowE T c0 k : Int) - 1 := by rw [hbk.A, hA _ hck, rowE_top hk]
  obtain ⟨s1, g1, g2, g3, g4, g5⟩ := loopDown_spec (f := moveInner c0) (k - 1 - c0)
    (fun t (s : Move) => s.i = (rowE T c0 (k - t) : Int) - 1 ∧ s.k = (jS T c0 (k - t) : Int) - 1 ∧ Moved T (jS T c0 (k - t)) s.sa ∧
      MoveBk T k c0 (k - t) bk0 s.bk) (k - 1 - c0) (Nat.le_refl _) { s with i := s.bk.A (c0 + 1) - 1 }
    (fun t s ht hs => by
      obtain ⟨a, b, c, d⟩ := hs
      rw [show k - t = k - (t + 1) + 1 by omega] at a b c d
      have := moveInner_spec (c1 := k - (t + 1)) (by omega) (by omega) (hB _ _ (by omega) (Or.inr (by omega))) (hS _ _ (by omega) (by omega)) a b c d
      rw [show k - 1 - c0 - 1 - t = k - (t + 1) - c0 - 1 by omega]
      exact this)
    (by rw [Nat.sub_self, Nat.sub_zero, jS_top hk]; exact ⟨h0, hkk, hsa, hbk⟩)
  rw [show k - (k - 1 - c0) = c0 + 1 by omega] at g2 g3 g4 g5
  rw [jS_diag c0 (c0 + 1) (Nat.le_refl _)] at g3 g4
  have hbd : s1.bk.b c0 c0 = cB T 0 c0 c0 := by
    rw [← hB c0 c0 (Nat.le_refl _) (Or.inl (by omega))]
    exact g5.B c0 c0 (Nat.le_refl _) (by omega) (Or.inr ⟨rfl, Or.inr rfl⟩)
  have hsucc := rowE_succ (T := T) (Nat.le_refl c0)
  have hd1 := jS_diag (T := T) c0 (c0 + 1) (Nat.le_refl _)
  have hd2 := jS_diag (T := T) c0 c0 (by omega)
  refine ⟨{ s1 with bk := ((s1.bk.setStar c0 (c0 + 1) (s1.i - s1.bk.b c0 c0 + 1)).setB c0 c0 s1.i) }, ?_, g3, g4, g5.A, ?_, ?_, ?_, ?_⟩
  · unfold moveOuter
    rw [bind_some' g1]
    rfl
  · intro x y hxy hx
    refine Eq.trans ?_ (g5.S x y hxy (Or.inl hx))
    unfold Buckets.setB Buckets.setStar Buckets.set Buckets.star
    simp only
    rw [if_neg (by omega), if_neg (by omega)]
  · intro x hx hxk
    by_cases e : x = c0
    · subst e
      unfold Buckets.setB Buckets.setStar Buckets.set Buckets.star
      simp only
      rw [if_neg (by omega), if_pos ⟨trivial, trivial⟩, g2, hbd, ← rowE_diag]
      omega
    · refine Eq.trans ?_ (g5.Sdone x (by omega) hxk)
      unfold Buckets.setB Buckets.setStar Buckets.set Buckets.star
      simp only
      rw [if_neg (by omega), if_neg (by omega)]
  · intro x y hxy hy hx
    refine Eq.trans ?_ (g5.B x y hxy hy (Or.inl hx))
    unfold Buckets.setB Buckets.setStar Buckets.set Buckets.b
    simp only
    rw [if_neg (by omega), if_neg (by omega)]
  · intro x y hxy hy hxk hx
    by_cases e : x = c0 ∧ y = c0
    · obtain ⟨e1, e2⟩ := e
      subst e1; subst e2
      unfold Buckets.setB Buckets.setStar Buckets.set Buckets.b
      simp only
      rw [if_pos ⟨trivial, trivial⟩, g2, stopB_rowE]
    · refine Eq.trans ?_ (g5.Bdone x y hxy hy hxk (by omega))
      unfold Buckets.setB Buckets.setStar Buckets.set Buckets.b
      simp only
      rw [if_neg (by omega), if_neg (by omega)]

/-- The B* suffixes at their rows, the buckets as `construct_BWT` needs them. -/
theorem moveStars_spec {k : Nat} (hk : ∀ p, p < T.length → ch T p < k) (hk0 : 0 < k) {sa : List Int} {bk : Buckets}
    (hA : ∀ c, c < k → bk.A c = startA T c) (hB : ∀ x y, x ≤ y → bk.b x y = cB T 0 y x)
    (hS : ∀ x y, x < y → y < k → bk.star x y = jS T x y) (hsz : sa.length = T.length)
    (hcell : ∀ p, isBs T p → sa[rkS T p]? = some (stB T p)) :
    ∃ sa' bk', moveStars T.length k (numS T) sa bk = some (sa', bk') ∧ Ready T k sa' bk' := by
  have hall : jS T (k - 1) 0 = numS T := by
    apply cnt_congr
    intro q hq
    constructor
    · intro a; exact a.1
    · intro a
      have := hk _ (isS_next a.1)
      have := Bs_ch a
      exact ⟨a, Or.inl (by omega)⟩
  have hb0 : ∀ x y, x ≤ y → y + 1 < k ∨ x < y → (bk.setB (k - 1) (k - 1) T.length).b x y = cB T 0 y x := by
    intro x y hxy h
    rw [← hB x y hxy]
    unfold Buckets.setB Buckets.set Buckets.b
    simp only
    rw [if_neg (by omega)]
  have hs0 : ∀ x y, x < y → y < k → (bk.setB (k - 1) (k - 1) T.length).star x y = jS T x y := by
    intro x y hxy hy
    rw [← hS x y hxy hy]
    unfold Buckets.setB Buckets.set Buckets.star
    simp only
    rw [if_neg (by omega)]
  obtain ⟨s, g1, g2, g3, g4, _, g6, _, g8⟩ := loopDown_spec (f := moveOuter k) (k - 1)
    (fun t (s : Move) => s.k = (jS T (k - 1 - t) 0 : Int) - 1 ∧ Moved T (jS T (k - 1 - t) 0) s.sa ∧
      (∀ c, s.bk.A c = (bk.setB (k - 1) (k - 1) T.length).A c) ∧
      (∀ x y, x < y → x < k - 1 - t → s.bk.star x y = (bk.setB (k - 1) (k - 1) T.length).star x y) ∧
      (∀ x, k - 1 - t ≤ x → x + 1 < k → s.bk.star x (x + 1) = startS T x) ∧
      (∀ x y, x ≤ y → y < k → x < k - 1 - t → s.bk.b x y = (bk.setB (k - 1) (k - 1) T.length).b x y) ∧
      (∀ x y, x ≤ y → y < k → x + 1 < k → k - 1 - t ≤ x → s.bk.b x y = (stopB T (x, y) : Int) - 1)) (k - 1) (Nat.le_refl _)
    ⟨sa, 0, (numS T : Int) - 1, bk.setB (k - 1) (k - 1) T.length⟩
    (fun t s ht hs => by
      obtain ⟨a, b, c, d, e, f, g⟩ := hs
      rw [show k - 1 - t = k - 1 - 1 - t + 1 by omega] at a b d e f g
      have := moveOuter_spec (c0 := k - 1 - 1 - t) (bk0 := bk.setB (k - 1) (k - 1) T.length) hk (by omega) hA hb0 hs0 a b
        ⟨c, fun x y hxy h => d x y hxy (by omega), fun x h1 h2 => e x (by omega) h2, fun x y h1 h2 h3 => f x y h1 h2 (by omega),
          fun x y h1 h2 h3 h4 => g x y h1 h2 h3 (by omega)⟩
      rw [show k - 1 - (t + 1) = k - 1 - 1 - t by omega]
      exact this)
    (by
      rw [Nat.sub_self, Nat.sub_zero, hall]
      refine ⟨rfl, ⟨hsz, fun p hp h => by have := rkS_lt hp; omega, fun p hp _ => hcell p hp⟩, fun _ => rfl, fun _ _ _ _ => rfl,
        fun x h1 h2 => by omega, fun _ _ _ _ _ => rfl, fun x y h1 h2 h3 h4 => by omega⟩)
  rw [Nat.sub_self] at g3 g6 g8
  refine ⟨s.sa, s.bk, ?_, g3.size, ?_, ?_, ?_, ?_⟩
  · unfold moveStars
    simp only
    rw [bind_some' g1]
    rfl
  · intro p hp
    apply g3.row p hp
    have : jS T 0 0 = 0 := cnt_false (fun q _ a => by omega)
    omega
  · intro c hc
    rw [g4]
    exact hA c hc
  · intro c hc
    exact g6 c (by omega) hc
  · intro p hp
    have h1 := hk p hp.1.1
    have h2 := hk _ (isS_next hp.1)
    apply g8 _ _ (S_ch hp.1) h2 _ (by omega)
    by_cases e : ch T p + 1 < k
    · exact e
    · exact (not_isL_isS (top_L hk hp.1.1 (by omega)) hp.1).elim

end Bwtc.Divsuf
