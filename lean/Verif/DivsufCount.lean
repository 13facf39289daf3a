import Verif.DivsufPassB

/-!
# `sort_typeBstar`: counting, the starting points of the buckets, and the B* suffixes in their buckets
-/

set_option autoImplicit false

namespace Bwtc.Divsuf
open Induce Suffix Classical
open Sais (inv put bind_some' put_spec loopDown_spec get_set1)

variable {T : List Nat}

/-! ## Counts -/

/-- The number of type B* suffixes. -/
noncomputable def numS (T : List Nat) : Nat := cnt T.length (isBs T)

/-- The number of type B* suffixes in front of `p` in the text. -/
noncomputable def idx (T : List Nat) (p : Nat) : Nat := cnt T.length (fun q => q < p ∧ isBs T q)

noncomputable def cA (T : List Nat) (i c : Nat) : Nat := cnt T.length (fun q => i ≤ q ∧ isL T q ∧ ch T q = c)

/-- The cell of `bucket_B` counts type B suffixes or type B* suffixes. -/
noncomputable def cB (T : List Nat) (i hi lo : Nat) : Nat :=
  if lo ≤ hi then cnt T.length (fun q => i ≤ q ∧ isB T q ∧ ch T q = lo ∧ ch T (q + 1) = hi)
  else cnt T.length (fun q => i ≤ q ∧ isBs T q ∧ ch T q = hi ∧ ch T (q + 1) = lo)

theorem cnt_down {n i : Nat} (hi : i < n) (P : Nat → Prop) :
    cnt n (fun q => i ≤ q ∧ P q) = cnt n (fun q => i + 1 ≤ q ∧ P q) + if P i then 1 else 0 := by
  by_cases h : P i
  · rw [if_pos h]
    apply cnt_insert (P := fun q => i + 1 ≤ q ∧ P q) (a := i) hi (by omega)
    intro q _
    constructor
    · rintro ⟨a, b⟩
      by_cases e : q = i
      · exact Or.inr e
      · exact Or.inl ⟨by omega, b⟩
    · rintro (⟨a, b⟩ | rfl)
      · exact ⟨by omega, b⟩
      · exact ⟨Nat.le_refl _, h⟩
  · rw [if_neg h, Nat.add_zero]
    apply cnt_congr
    intro q _
    constructor
    · rintro ⟨a, b⟩
      refine ⟨?_, b⟩
      by_cases e : q = i
      · subst e; exact absurd b h
      · omega
    · rintro ⟨a, b⟩
      exact ⟨by omega, b⟩

theorem idx_split (p : Nat) : idx T p + cnt T.length (fun q => p ≤ q ∧ isBs T q) = numS T :=
  (cnt_or (P := fun q => q < p ∧ isBs T q) (Q := fun q => p ≤ q ∧ isBs T q) (R := isBs T)
    (fun q _ => by
      constructor
      · intro h
        by_cases e : q < p
        · exact Or.inl ⟨e, h⟩
        · exact Or.inr ⟨by omega, h⟩
      · rintro (h | h) <;> exact h.2) (fun q _ a b => by omega)).symm

theorem idx_lt {p : Nat} (hp : isBs T p) : idx T p < numS T := by
  have h1 := idx_split (T := T) p
  have h2 : 0 < cnt T.length (fun q => p ≤ q ∧ isBs T q) := cnt_pos hp.1.1 ⟨Nat.le_refl _, hp⟩
  omega

theorem idx_mono {p q : Nat} (hp : isBs T p) (h : p < q) : idx T p < idx T q :=
  cnt_lt (P := fun r => r < p ∧ isBs T r) hp.1.1 (fun a => by omega) ⟨h, hp⟩ (fun r _ a => ⟨by omega, a.2⟩)

theorem idx_inj {p q : Nat} (hp : isBs T p) (hq : isBs T q) (h : idx T p = idx T q) : p = q := by
  rcases Nat.lt_trichotomy p q with a | a | a
  · have := idx_mono hp a; omega
  · exact a
  · have := idx_mono hq a; omega

/-- The state after the positions from `i` on have been counted. -/
structure Counted (T : List Nat) (i : Nat) (s : Count) : Prop where
  A : ∀ c, s.bk.A c = cA T i c
  B : ∀ hi lo, s.bk.B hi lo = cB T i hi lo
  size : s.sa.length = T.length
  m : s.m + cnt T.length (fun q => i ≤ q ∧ isBs T q) = T.length
  star : ∀ p, i ≤ p → isBs T p → s.sa[T.length - numS T + idx T p]? = some (p : Int)

theorem numS_le : numS T ≤ T.length := cnt_le_n _ _

theorem cA_down {i : Nat} (hi : i < T.length) (c : Nat) : cA T i c = cA T (i + 1) c + if isL T i ∧ ch T i = c then 1 else 0 := by
  unfold cA
  rw [cnt_down hi]
  congr

theorem cB_down {i : Nat} (hi : i < T.length) (h l : Nat) : cB T i h l = cB T (i + 1) h l +
    if (isB T i ∧ ch T i = l ∧ ch T (i + 1) = h) ∨ (isBs T i ∧ ch T i = h ∧ ch T (i + 1) = l) then 1 else 0 := by
  unfold cB
  by_cases e : l ≤ h
  · rw [if_pos e, if_pos e, cnt_down hi]
    congr 1
    by_cases hx : isB T i ∧ ch T i = l ∧ ch T (i + 1) = h
    · rw [if_pos hx, if_pos (Or.inl hx)]
    · rw [if_neg hx, if_neg]
      rintro (a | a)
      · exact hx a
      · have := Bs_ch a.1; omega
  · rw [if_neg e, if_neg e, cnt_down hi]
    congr 1
    by_cases hx : isBs T i ∧ ch T i = h ∧ ch T (i + 1) = l
    · rw [if_pos hx, if_pos (Or.inr hx)]
    · rw [if_neg hx, if_neg]
      rintro (a | a)
      · have := S_ch a.1.1; omega
      · exact hx a

theorem count_L {i : Nat} {s : Count} (h : Counted T (i + 1) s) (hl : isL T i) :
    Counted T i { s with bk := s.bk.setA (ch T i) (s.bk.A (ch T i) + 1) } := by
  have hi := hl.1
  have hnS : ¬ isS T i := (not_isS hi).mpr hl
  refine ⟨?_, ?_, h.size, ?_, ?_⟩
  · intro c
    rw [cA_down hi]
    unfold Buckets.setA
    simp only
    by_cases e : c = ch T i
    · subst e
      rw [if_pos rfl, if_pos ⟨hl, rfl⟩, h.A]; omega
    · rw [if_neg e, if_neg (fun a => e a.2.symm), h.A]; omega
  · intro x y
    rw [cB_down hi, if_neg (by
      rintro (a | a)
      · exact hnS a.1.1
      · exact hnS a.1.1), ← Nat.add_zero (cB T (i + 1) x y)]
    exact h.B x y
  · rw [cnt_down hi, if_neg (fun a => hnS a.1)]
    exact h.m
  · intro p hp hs
    by_cases e : p = i
    · subst e; exact absurd hs.1 hnS
    · exact h.star p (by omega) hs

theorem count_B {i : Nat} {s : Count} (h : Counted T (i + 1) s) (hb : isB T i) :
    Counted T i { s with bk := s.bk.setB (ch T i) (ch T (i + 1)) (s.bk.b (ch T i) (ch T (i + 1)) + 1) } := by
  have hi := hb.1.1
  have hnL : ¬ isL T i := (not_isL hi).mpr hb.1
  have hnS : ¬ isBs T i := fun a => not_isL_isS a.2 hb.2
  refine ⟨?_, ?_, h.size, ?_, ?_⟩
  · intro c
    rw [cA_down hi, if_neg (fun a => hnL a.1)]
    exact h.A c
  · intro x y
    rw [cB_down hi]
    have hbB := h.B (ch T (i + 1)) (ch T i)
    unfold Buckets.setB Buckets.set Buckets.b
    simp only
    by_cases e : x = ch T (i + 1) ∧ y = ch T i
    · rw [if_pos e, if_pos (Or.inl ⟨hb, e.2.symm, e.1.symm⟩), hbB, e.1, e.2]; omega
    · rw [if_neg e, if_neg (by
        rintro (a | a)
        · exact e ⟨a.2.2.symm, a.2.1.symm⟩
        · exact hnS a.1), h.B]; omega
  · rw [cnt_down hi, if_neg hnS]
    exact h.m
  · intro p hp hs
    by_cases e : p = i
    · subst e; exact absurd hs hnS
    · exact h.star p (by omega) hs

theorem count_Bs {i : Nat} {s : Count} (h : Counted T (i + 1) s) (hb : isBs T i) : s.m ≠ 0 ∧ ∃ sa, put s.sa (s.m - 1) i = some sa ∧
    Counted T i ⟨s.bk.setStar (ch T i) (ch T (i + 1)) (s.bk.star (ch T i) (ch T (i + 1)) + 1), sa, s.m - 1⟩ := by
  have hi := hb.1.1
  have hnL : ¬ isL T i := (not_isL hi).mpr hb.1
  have hnB : ¬ isB T i := fun a => not_isL_isS hb.2 a.2
  have hc := cnt_down hi (isBs T)
  rw [if_pos hb] at hc
  have hm := h.m
  have hx := idx_split (T := T) i
  have hle := cnt_le_n T.length (fun q => i ≤ q ∧ isBs T q)
  have hpos : s.m ≠ 0 := by omega
  have hcell : s.m - 1 = T.length - numS T + idx T i := by have := numS_le (T := T); omega
  refine ⟨hpos, _, put_spec (by rw [h.size]; omega) _, ?_, ?_, ?_, ?_, ?_⟩
  · intro c
    rw [cA_down hi, if_neg (fun a => hnL a.1)]
    exact h.A c
  · intro x y
    rw [cB_down hi]
    have hbB := h.B (ch T i) (ch T (i + 1))
    unfold Buckets.setStar Buckets.set Buckets.star
    simp only
    by_cases e : x = ch T i ∧ y = ch T (i + 1)
    · rw [if_pos e, if_pos (Or.inr ⟨hb, e.1.symm, e.2.symm⟩), hbB, e.1, e.2]; omega
    · rw [if_neg e, if_neg (by
        rintro (a | a)
        · exact hnB a.1
        · exact e ⟨a.2.1.symm, a.2.2.symm⟩), h.B]; omega
  · simp only [List.length_set]; exact h.size
  · simp only; omega
  · intro p hp hs
    simp only
    rw [hcell]
    have hset := get_set1 (A := s.sa) (i := T.length - numS T + idx T i) (v := (i : Int)) (by rw [h.size]; omega)
    by_cases e : p = i
    · subst e; exact hset.1
    · rw [hset.2 _ (by
        intro a
        exact e (idx_inj hs hb (by omega)))]
      exact h.star p (by omega) hs

theorem count_spec (i : Nat) (hi : i < T.length) (s : Count) (h : Counted T i s) (a : Bool) (ha : a = true ↔ isL T i) :
    ∃ s', count T i (ch T i) a s = some s' ∧ Counted T 0 s' := by
  induction i generalizing s a with
  | zero => exact ⟨s, rfl, h⟩
  | succ i ih =>
    have hi' : i < T.length := by omega
    unfold count
    rw [bind_some' (get_ch hi')]
    cases a with
    | true =>
      have hl := ha.mp rfl
      rw [if_pos (c := true = true) rfl]
      by_cases hc : ch T (i + 1) ≤ ch T i
      · rw [if_pos hc]
        have hli := (L_pred hl).mpr hc
        exact ih hi' _ (count_L h hli) true ⟨fun _ => hli, fun _ => rfl⟩
      · have hb : isBs T i := ⟨by
          apply (not_isL hi').mp
          intro a
          exact hc ((L_pred hl).mp a), hl⟩
        obtain ⟨h1, sa, h2, h3⟩ := count_Bs h hb
        rw [if_neg hc, if_neg h1, bind_some' h2]
        exact ih hi' _ h3 false ⟨fun a => by simp at a, fun a => (not_isL_isS a hb.1).elim⟩
    | false =>
      have hs : isS T (i + 1) := (not_isL hi).mp (fun a => by have := ha.mpr a; simp at this)
      rw [if_neg (c := false = true) (by simp)]
      by_cases hc : ch T i ≤ ch T (i + 1)
      · rw [if_pos hc]
        have hb : isB T i := ⟨(S_pred hs).mpr hc, hs⟩
        exact ih hi' _ (count_B h hb) false ⟨fun a => by simp at a, fun a => (not_isL_isS a hb.1).elim⟩
      · rw [if_neg hc]
        have hli : isL T i := by
          apply (not_isS hi').mp
          intro a
          exact hc ((S_pred hs).mp a)
        exact ih hi' _ (count_L h hli) true ⟨fun _ => hli, fun _ => rfl⟩

theorem countAll_spec (hn : 0 < T.length) {sa : List Int} (hsa : sa.length = T.length) :
    ∃ s, countAll T sa = some s ∧ s.m = numS T ∧ s.sa.length = T.length ∧ (∀ c, s.bk.A c = cA T 0 c) ∧
      (∀ hi lo, s.bk.B hi lo = cB T 0 hi lo) ∧
      ∀ p, isBs T p → s.sa[T.length - numS T + idx T p]? = some (p : Int) := by
  have hL : isL T (T.length - 1) := isL_last (by omega)
  have hz : ∀ P : Nat → Prop, cnt T.length (fun q => T.length - 1 + 1 ≤ q ∧ P q) = 0 := fun P => cnt_false (fun q _ a => by omega)
  have h0 : Counted T (T.length - 1 + 1) ⟨⟨fun _ => 0, fun _ _ => 0⟩, sa, T.length⟩ := by
    refine ⟨?_, ?_, hsa, ?_, ?_⟩
    · intro c; unfold cA; rw [hz]; rfl
    · intro x y; unfold cB; rw [hz, hz]; split <;> rfl
    · rw [hz]; rfl
    · intro p hp hs; have := hs.1.1; omega
  have h1 := count_L h0 hL
  obtain ⟨s, g1, g2⟩ := count_spec (T.length - 1) (by omega) _ h1 true ⟨fun _ => hL, fun _ => rfl⟩
  refine ⟨{ s with m := T.length - s.m }, ?_, ?_, g2.size, g2.A, g2.B, fun p hp => g2.star p (by omega) hp⟩
  · unfold countAll
    simp only
    rw [if_neg (by omega), bind_some' (get_ch (show T.length - 1 < T.length by omega)), bind_some' g1]
    rfl
  · have hm := g2.m
    have : cnt T.length (fun q => 0 ≤ q ∧ isBs T q) = numS T := cnt_congr (fun q _ => by simp)
    simp only
    omega

/-! ## The starting points -/

theorem forUp_spec {σ : Type} {f : σ → Nat → σ} (P : Nat → σ → Prop) (m i : Nat) (s : σ)
    (hstep : ∀ j s, i ≤ j → j < i + m → P j s → P (j + 1) (f s j)) (h : P i s) : P (i + m) (forUp f m i s) := by
  induction m generalizing i s with
  | zero => exact h
  | succ m ih =>
    unfold forUp
    rw [show i + (m + 1) = i + 1 + m by omega]
    exact ih (i + 1) (f s i) (fun j s a b => hstep j s (by omega) (by omega)) (hstep i s (by omega) (by omega) h)

/-- The number of B* suffixes whose first two characters are below `(c0, c1)`. -/
noncomputable def jS (T : List Nat) (c0 c1 : Nat) : Nat :=
  cnt T.length (fun q => isBs T q ∧ (ch T q < c0 ∨ (ch T q = c0 ∧ ch T (q + 1) < c1)))

/-- The other suffixes that are in front of the type B suffixes with `(c0, c1)`. -/
noncomputable def iB (T : List Nat) (c0 c1 : Nat) : Nat :=
  cnt T.length (fun q => ¬ isBs T q ∧ (ch T q < c0 ∨ (ch T q = c0 ∧ (isL T q ∨ ch T (q + 1) < c1))))

theorem cB_B {c0 c1 : Nat} (h : c0 ≤ c1) : cB T 0 c1 c0 = cnt T.length (fun q => isB T q ∧ ch T q = c0 ∧ ch T (q + 1) = c1) := by
  unfold cB
  rw [if_pos h]
  exact cnt_congr (fun q _ => by simp)

theorem cB_S {c0 c1 : Nat} (h : c0 < c1) : cB T 0 c0 c1 = cnt T.length (fun q => isBs T q ∧ ch T q = c0 ∧ ch T (q + 1) = c1) := by
  unfold cB
  rw [if_neg (by omega)]
  exact cnt_congr (fun q _ => by simp)

theorem jS_succ (c0 c1 : Nat) : jS T c0 (c1 + 1) = jS T c0 c1 + cnt T.length (fun q => isBs T q ∧ ch T q = c0 ∧ ch T (q + 1) = c1) := by
  apply cnt_or (P := fun q => isBs T q ∧ (ch T q < c0 ∨ (ch T q = c0 ∧ ch T (q + 1) < c1)))
  · intro q _
    constructor
    · rintro ⟨a, b | b⟩
      · exact Or.inl ⟨a, Or.inl b⟩
      · by_cases e : ch T (q + 1) = c1
        · exact Or.inr ⟨a, b.1, e⟩
        · exact Or.inl ⟨a, Or.inr ⟨b.1, by omega⟩⟩
    · rintro (⟨a, b | b⟩ | ⟨a, b⟩)
      · exact ⟨a, Or.inl b⟩
      · exact ⟨a, Or.inr ⟨b.1, by omega⟩⟩
      · exact ⟨a, Or.inr ⟨b.1, by omega⟩⟩
  · intro q _ a b
    omega

theorem notS_cases {q : Nat} (hq : q < T.length) : ¬ isBs T q ↔ isL T q ∨ isB T q := by
  constructor
  · intro h
    rcases type_total hq with a | a
    · exact Or.inl a
    · rcases S_cases a with b | b
      · exact absurd b h
      · exact Or.inr b
  · rintro (a | a) b
    · exact not_isL_isS a b.1
    · exact not_isL_isS b.2 a.2

theorem iB_succ (c0 c1 : Nat) : iB T c0 (c1 + 1) = iB T c0 c1 + cnt T.length (fun q => isB T q ∧ ch T q = c0 ∧ ch T (q + 1) = c1) := by
  apply cnt_or (P := fun q => ¬ isBs T q ∧ (ch T q < c0 ∨ (ch T q = c0 ∧ (isL T q ∨ ch T (q + 1) < c1))))
  · intro q hq
    constructor
    · rintro ⟨a, b | ⟨b, c | c⟩⟩
      · exact Or.inl ⟨a, Or.inl b⟩
      · exact Or.inl ⟨a, Or.inr ⟨b, Or.inl c⟩⟩
      · rcases (notS_cases hq).mp a with d | d
        · exact Or.inl ⟨a, Or.inr ⟨b, Or.inl d⟩⟩
        · by_cases e : ch T (q + 1) = c1
          · exact Or.inr ⟨d, b, e⟩
          · exact Or.inl ⟨a, Or.inr ⟨b, Or.inr (by omega)⟩⟩
    · rintro (⟨a, b | ⟨b, c | c⟩⟩ | ⟨a, b, c⟩)
      · exact ⟨a, Or.inl b⟩
      · exact ⟨a, Or.inr ⟨b, Or.inl c⟩⟩
      · exact ⟨a, Or.inr ⟨b, Or.inr (by omega)⟩⟩
      · exact ⟨(notS_cases hq).mpr (Or.inr a), Or.inr ⟨b, Or.inr (by omega)⟩⟩
  · rintro q _ ⟨_, b | ⟨_, c | c⟩⟩ ⟨d, e, f⟩
    · omega
    · exact not_isL_isS c d.1
    · omega

/-- Nothing of type B or B* has a smaller second character. -/
theorem jS_diag (c0 c1 : Nat) (h : c1 ≤ c0 + 1) : jS T c0 c1 = jS T c0 0 := by
  apply cnt_congr
  intro q _
  constructor
  · rintro ⟨a, b | b⟩
    · exact ⟨a, Or.inl b⟩
    · have := Bs_ch a; omega
  · rintro ⟨a, b | b⟩
    · exact ⟨a, Or.inl b⟩
    · omega

theorem iB_diag (c0 : Nat) : iB T c0 c0 = iB T c0 0 := by
  apply cnt_congr
  intro q hq
  constructor
  · rintro ⟨a, b | ⟨b, c | c⟩⟩
    · exact ⟨a, Or.inl b⟩
    · exact ⟨a, Or.inr ⟨b, Or.inl c⟩⟩
    · rcases (notS_cases hq).mp a with d | d
      · exact ⟨a, Or.inr ⟨b, Or.inl d⟩⟩
      · have := S_ch d.1; omega
  · rintro ⟨a, b | ⟨b, c | c⟩⟩
    · exact ⟨a, Or.inl b⟩
    · exact ⟨a, Or.inr ⟨b, Or.inl c⟩⟩
    · omega

theorem jS_top {k : Nat} (hk : ∀ p, p < T.length → ch T p < k) (c0 : Nat) : jS T c0 k = jS T (c0 + 1) 0 := by
  apply cnt_congr
  intro q _
  constructor
  · rintro ⟨a, b | b⟩
    · exact ⟨a, Or.inl (by omega)⟩
    · exact ⟨a, Or.inl (by omega)⟩
  · rintro ⟨a, b | b⟩
    · have := hk (q + 1) (isS_next a.1)
      by_cases e : ch T q = c0
      · exact ⟨a, Or.inr ⟨e, this⟩⟩
      · exact ⟨a, Or.inl (by omega)⟩
    · omega

/-- The type A and type B suffixes with smaller first character. -/
noncomputable def iA (T : List Nat) (c0 : Nat) : Nat := cnt T.length (fun q => ¬ isBs T q ∧ ch T q < c0)

theorem iB_top {k : Nat} (hk : ∀ p, p < T.length → ch T p < k) (c0 : Nat) : iB T c0 k = iA T (c0 + 1) := by
  apply cnt_congr
  intro q hq
  constructor
  · rintro ⟨a, b | ⟨b, _⟩⟩
    · exact ⟨a, by omega⟩
    · exact ⟨a, by omega⟩
  · rintro ⟨a, b⟩
    by_cases e : ch T q = c0
    · rcases (notS_cases hq).mp a with d | d
      · exact ⟨a, Or.inr ⟨e, Or.inl d⟩⟩
      · exact ⟨a, Or.inr ⟨e, Or.inr (hk (q + 1) (isS_next d.1))⟩⟩
    · exact ⟨a, Or.inl (by omega)⟩

theorem iA_add (c0 : Nat) : iA T c0 + cA T 0 c0 = iB T c0 0 := by
  symm
  apply cnt_or (P := fun q => ¬ isBs T q ∧ ch T q < c0) (Q := fun q => 0 ≤ q ∧ isL T q ∧ ch T q = c0)
  · intro q hq
    constructor
    · rintro ⟨a, b | ⟨b, c | c⟩⟩
      · exact Or.inl ⟨a, b⟩
      · exact Or.inr ⟨by omega, c, b⟩
      · omega
    · rintro (⟨a, b⟩ | ⟨_, a, b⟩)
      · exact ⟨a, Or.inl b⟩
      · exact ⟨(notS_cases hq).mpr (Or.inl a), Or.inr ⟨b, Or.inl a⟩⟩
  · intro q _ a b
    omega

theorem iA_jS (c0 : Nat) : iA T c0 + jS T c0 0 = startA T c0 := by
  symm
  apply cnt_or (P := fun q => ¬ isBs T q ∧ ch T q < c0) (Q := fun q => isBs T q ∧ (ch T q < c0 ∨ (ch T q = c0 ∧ ch T (q + 1) < 0)))
  · intro q _
    constructor
    · intro a
      by_cases e : isBs T q
      · exact Or.inr ⟨e, Or.inl a⟩
      · exact Or.inl ⟨e, a⟩
    · rintro (a | ⟨_, a | a⟩)
      · exact a.2
      · exact a
      · omega
  · intro q _ a b
    exact a.1 b.1

/-- The buckets after lines 83-92 for the characters below `c0`, and for `c0` up to `c1`. -/
structure Begun (T : List Nat) (k c0 c1 : Nat) (bk : Buckets) : Prop where
  A : ∀ c, bk.A c = if c < c0 then (startA T c : Int) else cA T 0 c
  S : ∀ x y, x < y → y < k → bk.star x y = if x < c0 ∧ y < k ∨ (x = c0 ∧ y < c1) then (jS T x (y + 1) : Int) else cB T 0 x y
  B : ∀ x y, x ≤ y → bk.b x y = cB T 0 y x

theorem starts_spec {k : Nat} (hk : ∀ p, p < T.length → ch T p < k) {bk : Buckets} (hA : ∀ c, bk.A c = cA T 0 c)
    (hB : ∀ hi lo, bk.B hi lo = cB T 0 hi lo) :
    (∀ c, c < k → (starts k bk).A c = startA T c) ∧
    (∀ x y, x < y → y < k → (starts k bk).star x y = jS T x (y + 1)) ∧
    ∀ x y, x ≤ y → (starts k bk).b x y = cB T 0 y x := by
  have hin : ∀ c0, c0 < k → ∀ s : Int × Int × Buckets, s.1 = iA T c0 → s.2.1 = jS T c0 0 → Begun T k c0 0 s.2.2 →
      (startsOuter k s c0).1 = iA T (c0 + 1) ∧ (startsOuter k s c0).2.1 = jS T (c0 + 1) 0 ∧
      Begun T k (c0 + 1) 0 (startsOuter k s c0).2.2 := by
    intro c0 hc0 s h1 h2 h3
    have hbd : (s.2.2.setA c0 (s.1 + s.2.1)).b c0 c0 = cB T 0 c0 c0 := h3.B c0 c0 (Nat.le_refl _)
    have hAc : s.2.2.A c0 = cA T 0 c0 := by rw [h3.A, if_neg (by omega)]
    have key := forUp_spec (f := startsInner c0)
      (fun c1 (t : Int × Int × Buckets) => t.1 = iB T c0 c1 ∧ t.2.1 = jS T c0 c1 ∧
        (∀ c, t.2.2.A c = if c < c0 + 1 then (startA T c : Int) else cA T 0 c) ∧
        (∀ x y, x < y → y < k → t.2.2.star x y = if x < c0 ∧ y < k ∨ (x = c0 ∧ y < c1) then (jS T x (y + 1) : Int) else cB T 0 x y) ∧
        (∀ x y, x ≤ y → t.2.2.b x y = cB T 0 y x))
      (k - 1 - c0) (c0 + 1) (s.1 + s.2.2.A c0 + (s.2.2.setA c0 (s.1 + s.2.1)).b c0 c0, s.2.1, s.2.2.setA c0 (s.1 + s.2.1)) ?_ ?_
    · rw [show c0 + 1 + (k - 1 - c0) = k by omega, iB_top hk, jS_top hk] at key
      obtain ⟨a, b, c, d, e⟩ := key
      refine ⟨a, b, c, ?_, e⟩
      intro x y hxy hy
      have := d x y hxy hy
      refine this.trans ?_
      by_cases hx : x < c0 + 1
      · rw [if_pos (by omega), if_pos (by omega)]
      · rw [if_neg (by omega), if_neg (by omega)]
    · rintro c1 t hc1 hc1' ⟨a, b, c, d, e⟩
      have hst : t.2.2.star c0 c1 = cB T 0 c0 c1 := by
        rw [d c0 c1 (by omega) (by omega), if_neg (by omega)]
      have hbb : t.2.2.b c0 c1 = cB T 0 c1 c0 := e c0 c1 (by omega)
      have hj : t.2.1 + t.2.2.star c0 c1 = jS T c0 (c1 + 1) := by
        rw [b, hst, cB_S (by omega), jS_succ]; omega
      refine ⟨?_, hj, c, ?_, ?_⟩
      · unfold startsInner
        simp only
        rw [a, hbb, cB_B (by omega), iB_succ]; omega
      · intro x y hxy hy
        unfold startsInner
        simp only
        rw [hj]
        unfold Buckets.setStar Buckets.set Buckets.star
        simp only
        by_cases hh : x = c0 ∧ y = c1
        · rw [if_pos hh, if_pos (by omega), hh.1, hh.2]
        · rw [if_neg hh]
          have := d x y hxy hy
          unfold Buckets.star at this
          rw [this]
          by_cases hx : x < c0 ∧ y < k ∨ x = c0 ∧ y < c1
          · rw [if_pos hx, if_pos (by omega)]
          · rw [if_neg hx, if_neg (by omega)]
      · intro x y hxy
        unfold startsInner Buckets.setStar Buckets.set Buckets.b
        simp only
        rw [if_neg (by omega)]
        exact e x y hxy
    · refine ⟨?_, ?_, ?_, ?_, ?_⟩
      · simp only
        rw [hbd, h1, hAc, cB_B (Nat.le_refl _), iB_succ, iB_diag, ← iA_add]; omega
      · rw [jS_diag c0 (c0 + 1) (Nat.le_refl _)]; exact h2
      · intro c
        unfold Buckets.setA
        simp only
        by_cases e : c = c0
        · subst e
          rw [if_pos (c := c = c) rfl, if_pos (by omega), h1, h2, ← iA_jS]; omega
        · rw [if_neg e, h3.A]
          by_cases e2 : c < c0
          · rw [if_pos e2, if_pos (by omega)]
          · rw [if_neg e2, if_neg (by omega)]
      · intro x y hxy hy
        have := h3.S x y hxy hy
        refine Eq.trans (show _ = s.2.2.star x y from rfl) (this.trans ?_)
        by_cases hx : x < c0
        · rw [if_pos (by omega), if_pos (by omega)]
        · rw [if_neg (by omega), if_neg (by omega)]
      · exact h3.B
  have key := forUp_spec (f := startsOuter k)
    (fun c0 (s : Int × Int × Buckets) => s.1 = iA T c0 ∧ s.2.1 = jS T c0 0 ∧ Begun T k c0 0 s.2.2) k 0 (0, 0, bk)
    (fun c0 s _ hc h => hin c0 (by omega) s h.1 h.2.1 h.2.2) ?_
  · rw [Nat.zero_add] at key
    obtain ⟨_, _, h⟩ := key
    refine ⟨?_, ?_, h.B⟩
    · intro c hc
      have := h.A c
      rwa [if_pos hc] at this
    · intro x y hxy hy
      have := h.S x y hxy hy
      rwa [if_pos (by omega)] at this
  · refine ⟨?_, ?_, ?_, ?_, ?_⟩
    · have : iA T 0 = 0 := cnt_false (fun q _ a => by omega)
      rw [this]; rfl
    · have : jS T 0 0 = 0 := cnt_false (fun q _ a => by omega)
      rw [this]; rfl
    · intro c; rw [if_neg (by omega)]; exact hA c
    · intro x y _ _; rw [if_neg (by omega)]; exact hB x y
    · intro x y _; exact hB y x

end Bwtc.Divsuf
