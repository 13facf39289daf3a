import Verif.InvBWT

/-!
# The tables of the inverse transform

Lemmas for the property theorems of `Verif.Props.BWT`.
-/

set_option autoImplicit false

namespace Bwtc.InvBWT

open Bwtc.BWT

theorem bump_apply (f : Nat → Nat) (k j : Nat) :
    bump f k j = f j + (if j = k then 1 else 0) := by
  unfold bump; split <;> simp

/-! ## Counting -/

theorem foldl_bump {α : Type} (l : List α) (c : α → Bool) (g : α → Nat) (f : Nat → Nat)
    (k : Nat) :
    l.foldl (fun f a => if c a = true then bump f (g a) else f) f k =
      f k + l.countP (fun a => c a && decide (k = g a)) := by
  induction l generalizing f with
  | nil => simp
  | cons a l ih =>
    rw [List.foldl_cons, ih, List.countP_cons]
    cases h : c a
    · simp
    · simp only [if_true, bump_apply, Bool.true_and, decide_eq_true_eq]; omega

theorem countRaw_apply (b : List UInt8) (e k : Nat) :
    countRaw b e k = (if k = 0 then 1 else 0) +
      b.zipIdx.countP (fun cp => decide (cp.2 ≠ e) && decide (k = cp.1.toNat + 1)) := by
  have := foldl_bump b.zipIdx (fun cp => decide (cp.2 ≠ e)) (fun cp => cp.1.toNat + 1)
    (fun k => if k = 0 then 1 else 0) k
  simp only [decide_eq_true_eq] at this
  exact this

/-- Counting is determined by the pointwise answers. -/
theorem countP_pointwise {α β : Type} (l : List α) (l' : List β) (p : α → Bool) (q : β → Bool)
    (h : ∀ i : Nat, l[i]?.map p = l'[i]?.map q) : l.countP p = l'.countP q := by
  have : l.map p = l'.map q := by
    apply List.ext_getElem?
    intro i
    rw [List.getElem?_map, List.getElem?_map, h]
  have h1 : l.countP p = (l.map p).countP id := by rw [List.countP_map]; rfl
  have h2 : l'.countP q = (l'.map q).countP id := by rw [List.countP_map]; rfl
  rw [h1, h2, this]

theorem prevChar_count {w : List UInt8} {sa : List Nat} (h : IsSA w sa) (c : UInt8) :
    sa.countP (fun t => decide (prevChar w t = some c)) = w.countP (fun x => decide (x = c)) := by
  rw [← h.countP_range]
  have e1 : (List.range (w.length + 1)).countP (fun t => decide (prevChar w t = some c)) =
      (List.range (w.length + 1)).countP
        (fun t => decide (0 < t) && decide (prevChar w t = some c)) := by
    apply List.countP_congr
    intro t _
    by_cases h0 : t = 0
    · subst h0; simp [prevChar]
    · have : 0 < t := by omega
      simp [this]
  rw [e1, ← countP_shift w.length (fun t => decide (prevChar w t = some c)),
    ← countP_index_succ w (fun x => decide (x = c))]
  apply List.countP_congr
  intro t ht
  by_cases hl : t < w.length
  · simp [hl, prevChar]
  · simp [hl]

section

variable {w : List UInt8} {sa : List Nat} {b : List UInt8} {e : Nat}

theorem row_cases (h : IsSA w sa) {p : Nat} (hp : p < w.length + 1) :
    ∃ s, sa[p]? = some s ∧ s ≤ w.length ∧ p = rk w s := by
  have hp' : p < sa.length := by rw [h.length]; exact hp
  refine ⟨sa[p], List.getElem?_eq_getElem hp', ?_, ?_⟩
  · exact h.mem.mp (List.getElem_mem hp')
  · exact h.index_eq (List.getElem?_eq_getElem hp')

theorem eob_eq (h : IsSA w sa) (hb : IsBWT w sa b e) : e = rk w 0 := h.index_eq hb.2.1

theorem bwt_at (h : IsSA w sa) (hb : IsBWT w sa b e) {s : Nat} (hs : s < w.length) :
    b[rk w (s + 1)]? = some w[s] := by
  rw [hb.2.2 _ s (h.at_rk (by omega)), List.getElem?_eq_getElem hs]

theorem countRaw_eq (h : IsSA w sa) (hb : IsBWT w sa b e) (k : Nat) :
    countRaw b e k = (if k = 0 then 1 else 0) +
      w.countP (fun x => decide (k = x.toNat + 1)) := by
  rw [countRaw_apply]
  congr 1
  by_cases hk : ∃ c : UInt8, k = c.toNat + 1
  · obtain ⟨c, hc⟩ := hk
    have e1 : w.countP (fun x => decide (k = x.toNat + 1)) =
        w.countP (fun x => decide (x = c)) := by
      apply List.countP_congr
      intro x _
      simp only [decide_eq_true_eq, hc, ← UInt8.toNat_inj]
      omega
    rw [e1, ← prevChar_count h c]
    apply countP_pointwise
    intro i
    rw [List.getElem?_zipIdx]
    by_cases hi : i < w.length + 1
    · obtain ⟨s, hs, hsw, hr⟩ := row_cases h hi
      rw [hs]
      have hib : i < b.length := by rw [hb.1]; exact hi
      rw [List.getElem?_eq_getElem hib]
      simp only [Option.map_some, Nat.zero_add, Option.some.injEq]
      cases s with
      | zero =>
        have : i = e := by rw [eob_eq h hb]; exact hr
        simp [prevChar, this]
      | succ s =>
        have hne : i ≠ e := by
          rw [eob_eq h hb, hr]
          intro hc'
          have := h.rk_inj hsw (by omega) hc'
          omega
        have := bwt_at h hb (s := s) (by omega)
        rw [← hr, List.getElem?_eq_getElem hib] at this
        simp only [Option.some.injEq] at this
        rw [this]
        simp only [hne, ne_eq, not_false_iff, decide_true, Bool.true_and, prevChar,
          Nat.add_eq_zero_iff, Nat.one_ne_zero, and_false, if_false, Nat.add_sub_cancel,
          List.getElem?_eq_getElem (show s < w.length by omega), Option.some.injEq]
        rw [hc, decide_eq_decide, ← UInt8.toNat_inj]
        omega
    · have h1 : b[i]? = none := by rw [List.getElem?_eq_none_iff, hb.1]; omega
      have h2 : sa[i]? = none := by rw [List.getElem?_eq_none_iff, h.length]; omega
      simp [h1, h2]
  · have h1 : w.countP (fun x => decide (k = x.toNat + 1)) = 0 := by
      rw [List.countP_eq_zero]
      intro x _ hx
      exact hk ⟨x, by simpa using hx⟩
    have h2 : b.zipIdx.countP (fun cp => decide (cp.2 ≠ e) && decide (k = cp.1.toNat + 1)) = 0 := by
      rw [List.countP_eq_zero]
      intro x _ hx
      simp only [Bool.and_eq_true, decide_eq_true_eq] at hx
      exact hk ⟨x.1, hx.2⟩
    rw [h1, h2]

theorem before_succ (w : List UInt8) (k : Nat) :
    before w (k + 1) = before w k + w.countP (fun x => decide (x.toNat = k)) := by
  unfold before
  rw [countP_add w (fun x => decide (x.toNat < k + 1)) (fun x => decide (x.toNat < k))
    (fun x => decide (x.toNat = k))]
  · omega
  · intro x _
    rw [Bool.eq_iff_iff]
    simp only [decide_eq_true_eq, Bool.or_eq_true]
    omega
  · intro x _
    simp only [decide_eq_true_eq]
    omega

theorem count_eq (h : IsSA w sa) (hb : IsBWT w sa b e) (k : Nat) :
    psum (countRaw b e) k = before w k := by
  induction k with
  | zero =>
    rw [psum, countRaw_eq h hb]
    simp [before]
  | succ k ih =>
    rw [psum, ih, countRaw_eq h hb, before_succ]
    simp only [Nat.add_eq_zero_iff, Nat.one_ne_zero, and_false, if_false, Nat.zero_add]
    congr 1
    apply List.countP_congr
    intro x _
    simp only [decide_eq_true_eq]
    omega

theorem before_mono (w : List UInt8) {j k : Nat} (hjk : j ≤ k) : before w j ≤ before w k := by
  unfold before
  apply Nat.add_le_add_left
  apply List.countP_mono_left
  intro x _ hx
  simp only [decide_eq_true_eq] at *
  omega

/-- Rows starting with `c` lie between `before c` and `before (c + 1)`. -/
theorem row_range (h : IsSA w sa) {s : Nat} (hs : s < w.length) :
    before w w[s].toNat ≤ rk w s ∧ rk w s < before w (w[s].toNat + 1) := by
  have h1 := rk_step h hs
  refine ⟨by omega, ?_⟩
  rw [before_succ, h1]
  apply Nat.add_lt_add_left
  have h2 := prevChar_count h w[s]
  have h3 : w.countP (fun x => decide (x.toNat = w[s].toNat)) =
      w.countP (fun x => decide (x = w[s])) := by
    apply List.countP_congr
    intro x _
    simp [← UInt8.toNat_inj]
  rw [h3, ← h2]
  have hlt := h.rk_lt (s := s + 1) (by omega)
  have hget := (List.getElem?_eq_some_iff.mp (h.at_rk (s := s + 1) (by omega))).2
  conv => rhs; rw [← List.take_append_drop (rk w (s + 1)) sa]
  rw [List.countP_append, List.drop_eq_getElem_cons hlt, List.countP_cons, hget]
  have : prevChar w (s + 1) = some w[s] := by simp [prevChar, hs]
  simp only [this, decide_true, if_true]
  omega

theorem advance_eq (h : IsSA w sa) {count : Nat → Nat} (hc : ∀ k, count k = before w k)
    {s : Nat} (hs : s < w.length) (first : Nat) (hf : first ≤ w[s].toNat) :
    advance count (rk w s) first = some w[s].toNat := by
  have hlt := w[s].toNat_lt
  obtain ⟨d, hd⟩ : ∃ d, d = w[s].toNat - first := ⟨_, rfl⟩
  induction d generalizing first with
  | zero =>
    have : first = w[s].toNat := by omega
    rw [advance, if_neg (by omega), if_neg, this]
    rw [hc, this]
    have := (row_range h hs).2
    omega
  | succ d ih =>
    rw [advance, if_neg (by omega), if_pos, ih (first + 1) (by omega) (by omega)]
    rw [hc]
    exact Nat.le_trans (before_mono w (by omega)) (row_range h hs).1

/-- First characters of rows are non-decreasing. -/
theorem first_mono (h : IsSA w sa) {i j s t : Nat} (hi : sa[i]? = some s) (hj : sa[j]? = some t)
    (hij : i < j) (hs : s < w.length) (ht : t < w.length) : w[s].toNat ≤ w[t].toNat := by
  have := h.lt_of_lt hi hj hij
  rw [drop_cons w s hs, drop_cons w t ht, lt_cons_iff, u8_lt] at this
  rcases this with h1 | ⟨h1, _⟩
  · omega
  · rw [h1]; exact Nat.le_refl _

/-! ## The scan -/

/-- What the pair of the row of suffix `s` must contain. -/
def PairOK (w : List UInt8) (s : Nat) (pr : UInt8 × UInt8) : Prop :=
  (∀ c, prevChar w s = some c → pr.1 = c) ∧
  (∀ a c, prevPair w s = some (a, c) → pr.2 = a) ∧
  (s = 0 → w[w.length - 1]? = some pr.2)

/-- The cell of `pairs_count` incremented for the row of suffix `s`. -/
def colKey (w : List UInt8) (s : Nat) : Option Nat :=
  if s = 0 then none else
    match w[s]?, w[s - 1]? with
    | some a, some c => some (a.toNat * 256 + c.toNat + 1)
    | _, _ => none

/-- Invariant of the scan after `p` rows. -/
structure ScanInv (w : List UInt8) (sa : List Nat) (p : Nat) (st : Scan) : Prop where
  rank : ∀ c : UInt8, st.rank c.toNat = before w c.toNat +
    (sa.take p).countP (fun t => decide (prevChar w t = some c))
  len : st.pairs.length = p
  pairs : ∀ (j s : Nat) (pr : UInt8 × UInt8), sa[j]? = some s → st.pairs[j]? = some pr → PairOK w s pr
  pcount : ∀ k, st.pcount k = (sa.take p).countP (fun t => decide (colKey w t = some k))
  first : ∀ (j s : Nat) (c : UInt8), p ≤ j → sa[j]? = some s → w[s]? = some c → st.first ≤ c.toNat
  second : ∀ j : Nat, 1 ≤ j → j < p → sa[j]? = some 1 → st.second = j
  second' : st.second = 0 ∨ sa[st.second]? = some 1

theorem take_countP_succ (sa : List Nat) (p s : Nat) (hp : sa[p]? = some s) (q : Nat → Bool) :
    (sa.take (p + 1)).countP q = (sa.take p).countP q + (if q s = true then 1 else 0) := by
  rw [List.take_add_one, hp]
  simp [List.countP_append, List.countP_cons]

theorem pairs_append {w : List UInt8} {sa : List Nat} {p s : Nat} {l : List (UInt8 × UInt8)}
    {x : UInt8 × UInt8} (hlen : l.length = p) (hp : sa[p]? = some s)
    (hl : ∀ (j s : Nat) (pr : UInt8 × UInt8), sa[j]? = some s → l[j]? = some pr → PairOK w s pr) (hx : PairOK w s x) :
    ∀ (j s : Nat) (pr : UInt8 × UInt8), sa[j]? = some s → (l ++ [x])[j]? = some pr → PairOK w s pr := by
  intro j t pr hj hpr
  by_cases hjp : j < l.length
  · rw [List.getElem?_append_left hjp] at hpr
    exact hl j t pr hj hpr
  · rw [List.getElem?_append_right (by omega)] at hpr
    by_cases hjl : j = l.length
    · subst hjl
      rw [Nat.sub_self] at hpr
      rw [hlen, hp] at hj
      cases hj; cases hpr
      exact hx
    · have : j - l.length ≠ 0 := by omega
      rw [List.getElem?_eq_none (by simp; omega)] at hpr
      cases hpr

theorem scanRow_inv (h : IsSA w sa) (hb : IsBWT w sa b e) {count : Nat → Nat}
    (hc : ∀ k, count k = before w k) (hm : 1 ≤ w.length) {p : Nat} (hp : p < w.length + 1)
    {st : Scan} (inv : ScanInv w sa p st) :
    ∃ st', scanRow count b e st p = some st' ∧ ScanInv w sa (p + 1) st' := by
  obtain ⟨s, hps, hsw, hr⟩ := row_cases h hp
  have hb0 : b[0]? = some (w[w.length - 1]'(by omega)) := by
    have := bwt_at h hb (s := w.length - 1) (by omega)
    rwa [show w.length - 1 + 1 = w.length by omega, rk_length] at this
  cases s with
  | zero =>
    have hpe : p = e := by rw [eob_eq h hb]; exact hr
    refine ⟨{ st with pairs := st.pairs ++ [(0, w[w.length - 1]'(by omega))] }, ?_, ?_⟩
    · unfold scanRow
      rw [if_pos hpe, hb0]; rfl
    · refine ⟨?_, by simp [inv.len], ?_, ?_, ?_, ?_, inv.second'⟩
      · intro c
        rw [take_countP_succ sa p 0 hps, inv.rank]
        simp [prevChar]
      · refine pairs_append inv.len hps inv.pairs ⟨?_, ?_, ?_⟩
        · intro c hc'; simp [prevChar] at hc'
        · intro a c hc'; simp [prevPair] at hc'
        · intro _; rw [List.getElem?_eq_getElem]
      · intro k
        rw [take_countP_succ sa p 0 hps, inv.pcount]
        simp [colKey]
      · intro j s c hj; exact inv.first j s c (by omega)
      · intro j h1 h2 h3
        by_cases hjp : j = p
        · subst hjp; rw [hps] at h3; simp at h3
        · exact inv.second j h1 (by omega) h3
  | succ s =>
    have hsw' : s < w.length := by omega
    have hpe : p ≠ e := by
      rw [eob_eq h hb, hr]
      intro hc'
      have := h.rk_inj hsw (by omega) hc'
      omega
    have hcur : b[p]? = some w[s] := by rw [hr]; exact bwt_at h hb hsw'
    have hlf : st.rank w[s].toNat = rk w s := by
      rw [inv.rank, rk_step h hsw', hr]
    have hlfl : rk w s < b.length := by
      rw [hb.1, ← h.length]; exact h.rk_lt (by omega)
    have hprev : b[rk w s]? = some b[rk w s] := List.getElem?_eq_getElem hlfl
    have hpc : prevChar w (s + 1) = some w[s] := by simp [prevChar, hsw']
    have hpair : PairOK w (s + 1) (w[s], b[rk w s]) := by
      refine ⟨?_, ?_, by intro hc'; omega⟩
      · intro c hc'; rw [hpc] at hc'; cases hc'; rfl
      · intro a c hc'
        unfold prevPair at hc'
        split at hc'
        · cases hc'
        · rename_i h2
          have hs1 : s + 1 - 2 = s - 1 := by omega
          rw [hs1, List.getElem?_eq_getElem (show s - 1 < w.length by omega),
            show s + 1 - 1 = s by omega, List.getElem?_eq_getElem hsw'] at hc'
          simp only [Option.some.injEq, Prod.mk.injEq] at hc'
          have := bwt_at h hb (s := s - 1) (by omega)
          rw [show s - 1 + 1 = s by omega, hprev] at this
          simp only [Option.some.injEq] at this
          simp only [this]
          exact hc'.1
    have hrank : ∀ c : UInt8, bump st.rank w[s].toNat c.toNat = before w c.toNat +
        (sa.take (p + 1)).countP (fun t => decide (prevChar w t = some c)) := by
      intro c
      rw [bump_apply, inv.rank, take_countP_succ sa p _ hps, hpc]
      simp only [decide_eq_true_eq, Option.some.injEq, UInt8.toNat_inj]
      by_cases hcw : c = w[s]
      · subst hcw; simp; omega
      · have : w[s] ≠ c := fun h => hcw h.symm
        simp [hcw, this]
    by_cases hp0 : p = 0
    · have hsm : s + 1 = w.length := by
        have := h.at_rk (s := w.length) (Nat.le_refl _)
        rw [rk_length, ← hp0, hps] at this
        simpa using this
      refine ⟨{ st with rank := bump st.rank w[s].toNat,
                        pairs := st.pairs ++ [(w[s], b[rk w s])] }, ?_, ?_⟩
      · unfold scanRow
        rw [if_neg hpe, hcur]
        simp only [Option.bind_eq_bind, Option.bind_some, hlf, hprev, if_pos hp0]
        rfl
      · refine ⟨hrank, by simp [inv.len], pairs_append inv.len hps inv.pairs hpair, ?_, ?_, ?_,
          inv.second'⟩
        · intro k
          rw [take_countP_succ sa p _ hps, inv.pcount]
          have : w[s + 1]? = none := by rw [hsm]; simp
          simp [colKey, this]
        · intro j s c hj; exact inv.first j s c (by omega)
        · intro j h1 h2 h3; omega
    · have hsm : s + 1 < w.length := by
        apply Decidable.byContradiction
        intro hc'
        have : s + 1 = w.length := by omega
        rw [this, rk_length] at hr
        exact hp0 hr
      have hadv : advance count p st.first = some w[s + 1].toNat := by
        rw [hr]
        apply advance_eq h hc hsm
        exact inv.first p (s + 1) _ (Nat.le_refl _) hps (List.getElem?_eq_getElem hsm)
      refine ⟨⟨bump st.rank w[s].toNat, st.pairs ++ [(w[s], b[rk w s])],
        bump st.pcount (w[s + 1].toNat * 256 + w[s].toNat + 1), w[s + 1].toNat,
        if rk w s = e then p else st.second⟩, ?_, ?_⟩
      · unfold scanRow
        rw [if_neg hpe, hcur]
        simp only [Option.bind_eq_bind, Option.bind_some, hlf, hprev, if_neg hp0, hadv]
        rfl
      · have hse : rk w s = e ↔ s = 0 := by
          rw [eob_eq h hb]
          constructor
          · intro h'; exact h.rk_inj (by omega) (by omega) h'
          · intro h'; rw [h']
        refine ⟨hrank, by simp [inv.len], pairs_append inv.len hps inv.pairs hpair, ?_, ?_, ?_, ?_⟩
        · intro k
          have hck : colKey w (s + 1) = some (w[s + 1].toNat * 256 + w[s].toNat + 1) := by
            simp [colKey, hsm, hsw']
          simp only
          rw [take_countP_succ sa p _ hps, bump_apply, inv.pcount, hck]
          simp only [decide_eq_true_eq, Option.some.injEq]
          congr 1
          generalize w[s + 1].toNat * 256 + w[s].toNat + 1 = c
          by_cases hkc : k = c
          · simp [hkc]
          · have : c ≠ k := fun hc' => hkc hc'.symm
            simp [hkc, this]
        · intro j t c hj hjt htc
          obtain ⟨ht, htc⟩ := List.getElem?_eq_some_iff.mp htc
          simp only
          rw [← htc]
          exact first_mono h hps hjt (by omega) hsm ht
        · intro j h1 h2 h3
          by_cases hjp : j = p
          · subst hjp
            rw [hps] at h3
            have : s = 0 := by simpa using h3
            simp [hse.mpr this]
          · have hs0 : s ≠ 0 := by
              intro hs0
              subst hs0
              exact hjp (by rw [h.index_eq h3, hr])
            have : ¬ rk w s = e := fun hc' => hs0 (hse.mp hc')
            simp only [this, if_false]
            exact inv.second j h1 (by omega) h3
        · simp only
          split
          · rename_i hh
            right
            rw [hps, hse.mp hh]
          · exact inv.second'

/-- Running a loop body over `p, p+1, …` preserving an invariant. -/
theorem foldlM_range_inv {σ : Type} (f : σ → Nat → Option σ) (P : Nat → σ → Prop) (n : Nat)
    (step : ∀ p st, p < n → P p st → ∃ st', f st p = some st' ∧ P (p + 1) st') (st : σ)
    (h0 : P 0 st) : ∃ st', (List.range n).foldlM f st = some st' ∧ P n st' := by
  induction n with
  | zero => exact ⟨st, rfl, h0⟩
  | succ n ih =>
    obtain ⟨st1, h1, hP1⟩ := ih (fun p st hp => step p st (by omega))
    obtain ⟨st2, h2, hP2⟩ := step n st1 (by omega) hP1
    refine ⟨st2, ?_, hP2⟩
    rw [List.range_succ, List.foldlM_append, h1]
    simp [h2]

theorem scan_spec (h : IsSA w sa) (hb : IsBWT w sa b e) (hm : 1 ≤ w.length) :
    ∃ st, (List.range b.length).foldlM (scanRow (psum (countRaw b e)) b e)
        ⟨psum (countRaw b e), [], fun _ => 0, 0, 0⟩ = some st ∧ ScanInv w sa b.length st := by
  apply foldlM_range_inv _ (ScanInv w sa)
  · intro p st hp inv
    exact scanRow_inv h hb (count_eq h hb) hm (by rw [← hb.1]; exact hp) inv
  · refine ⟨?_, rfl, ?_, ?_, ?_, ?_, Or.inl rfl⟩
    · intro c; simp [count_eq h hb]
    · intro j s pr _ hpr; simp at hpr
    · intro k; simp
    · intros; exact Nat.zero_le _
    · intro j _ hj; omega

/-! ## Transposition -/

theorem cell_eq (h l a c : Nat) (hl : l < 256) (hc : c < 256) :
    h * 256 + l + 1 = a * 256 + c + 1 ↔ h = a ∧ l = c := by omega

theorem swap_fold (L : List (Nat × Nat)) (hL : L.Pairwise (· ≠ ·))
    (hlt : ∀ x ∈ L, x.1 < x.2 ∧ x.2 < 256) (f : Nat → Nat) (h l : Nat) (hh : h < 256)
    (hl : l < 256) :
    L.foldl (fun f lh => swapAt f (lh.1 * 256 + lh.2 + 1) (lh.2 * 256 + lh.1 + 1)) f
        (h * 256 + l + 1) =
      if (h, l) ∈ L ∨ (l, h) ∈ L then f (l * 256 + h + 1) else f (h * 256 + l + 1) := by
  induction L generalizing f with
  | nil => simp
  | cons x L ih =>
    obtain ⟨a, c⟩ := x
    have hac := hlt (a, c) (by simp)
    simp only at hac
    have hnin : (a, c) ∉ L := by
      intro hin
      exact (List.pairwise_cons.mp hL).1 _ hin rfl
    have hnin' : (c, a) ∉ L := by
      intro hin
      have := hlt (c, a) (by simp [hin])
      simp only at this
      omega
    rw [List.foldl_cons, ih (List.pairwise_cons.mp hL).2 (fun x hx => hlt x (by simp [hx]))]
    simp only [List.mem_cons, Prod.mk.injEq, swapAt]
    by_cases c1 : h = a ∧ l = c
    · obtain ⟨rfl, rfl⟩ := c1
      simp [hnin, hnin']
    · by_cases c2 : h = c ∧ l = a
      · obtain ⟨rfl, rfl⟩ := c2
        have : ¬ (h * 256 + l + 1 = l * 256 + h + 1) := by
          rw [cell_eq _ _ _ _ hl hh]; exact c1
        simp only [hnin, hnin', this, if_false, if_true, or_self, and_self]
        rw [if_pos (Or.inr (Or.inl trivial))]
      · have n1 : ¬ (l = a ∧ h = c) := fun hc => c2 ⟨hc.2, hc.1⟩
        have n2 : ¬ (l = c ∧ h = a) := fun hc => c1 ⟨hc.2, hc.1⟩
        have d1 : ¬ (h * 256 + l + 1 = a * 256 + c + 1) := by
          rw [cell_eq _ _ _ _ hl (by omega)]; exact c1
        have d2 : ¬ (h * 256 + l + 1 = c * 256 + a + 1) := by
          rw [cell_eq _ _ _ _ hl (by omega)]; exact c2
        have d3 : ¬ (l * 256 + h + 1 = a * 256 + c + 1) := by
          rw [cell_eq _ _ _ _ hh (by omega)]; exact n1
        have d4 : ¬ (l * 256 + h + 1 = c * 256 + a + 1) := by
          rw [cell_eq _ _ _ _ hh (by omega)]; exact n2
        simp only [c1, n1, false_or, d1, d2, d3, d4, if_false]

theorem mem_swapPairs (h l : Nat) : (h, l) ∈ swapPairs ↔ h < l ∧ l < 256 := by
  unfold swapPairs
  simp only [List.mem_flatMap, List.mem_range, List.mem_map, List.mem_filter, decide_eq_true_eq,
    Prod.mk.injEq]
  constructor
  · rintro ⟨a, _, c, ⟨h1, h2⟩, rfl, rfl⟩
    exact ⟨h2, h1⟩
  · rintro ⟨h1, h2⟩
    exact ⟨h, by omega, l, ⟨h2, h1⟩, rfl, rfl⟩

theorem swapPairs_nodup : swapPairs.Pairwise (· ≠ ·) := by
  unfold swapPairs
  rw [List.pairwise_flatMap]
  refine ⟨?_, ?_⟩
  · intro a _
    rw [List.pairwise_map]
    apply List.Pairwise.filter
    exact List.nodup_range.imp (by intro x y hxy hc; exact hxy (by simpa using hc))
  · refine List.nodup_range.imp ?_
    intro x y hxy p hp q hq hpq
    simp only [List.mem_map, List.mem_filter] at hp hq
    obtain ⟨_, _, rfl⟩ := hp
    obtain ⟨_, _, rfl⟩ := hq
    exact hxy (by simpa using congrArg Prod.fst hpq)

theorem swap_fold_zero (L : List (Nat × Nat)) (f : Nat → Nat) :
    L.foldl (fun f lh => swapAt f (lh.1 * 256 + lh.2 + 1) (lh.2 * 256 + lh.1 + 1)) f 0 = f 0 := by
  induction L generalizing f with
  | nil => rfl
  | cons x L ih =>
    rw [List.foldl_cons, ih]
    simp [swapAt]

theorem transpose_apply (f : Nat → Nat) (h l : Nat) (hh : h < 256) (hl : l < 256) :
    transpose f (h * 256 + l + 1) = f (l * 256 + h + 1) := by
  unfold transpose
  rw [swap_fold _ swapPairs_nodup (fun x hx => (mem_swapPairs x.1 x.2).mp hx) _ _ _ hh hl]
  split
  · rfl
  · rename_i hn
    rw [mem_swapPairs, mem_swapPairs] at hn
    have : h = l := by omega
    rw [this]

/-! ## The pair counters -/

theorem pc_cell (h : IsSA w sa) (hm : 1 ≤ w.length) {st : Scan}
    (inv : ScanInv w sa (w.length + 1) st) (k : Nat) (hk : k ≤ 65536) :
    bump (bump (transpose st.pcount) 0) ((w[w.length - 1]'(by omega)).toNat * 256) k =
      (List.range (w.length + 1)).countP (fun t => decide (pairKey w t = k)) := by
  have hpc : ∀ k, st.pcount k = sa.countP (fun t => decide (colKey w t = some k)) := by
    intro k
    rw [inv.pcount, List.take_of_length_le (by rw [h.length]; exact Nat.le_refl _)]
  -- the cells of the proper pairs
  have key : transpose st.pcount k =
      (List.range (w.length - 1)).countP (fun t => decide (pairKey w t = k)) := by
    have hpk : ∀ t, t ∈ List.range (w.length - 1) → ∃ h1 : t + 1 < w.length,
        pairKey w t = w[t].toNat * 256 + w[t + 1].toNat + 1 := by
      intro t ht
      have := List.mem_range.mp ht
      refine ⟨by omega, ?_⟩
      simp [pairKey, List.getElem?_eq_getElem (show t < w.length by omega),
        List.getElem?_eq_getElem (show t + 1 < w.length by omega)]
    rcases Nat.eq_zero_or_pos k with hk0 | hk0
    · subst hk0
      have h1 : transpose st.pcount 0 = st.pcount 0 := swap_fold_zero _ _
      rw [h1, hpc]
      have z1 : sa.countP (fun t => decide (colKey w t = some 0)) = 0 := by
        rw [List.countP_eq_zero]
        intro t _
        unfold colKey
        split
        · simp
        · split <;> simp
      rw [z1, eq_comm, List.countP_eq_zero]
      intro t ht
      obtain ⟨_, h2⟩ := hpk t ht
      simp [h2]
    · obtain ⟨hi, lo, hhi, hlo, hkk⟩ : ∃ hi lo, hi < 256 ∧ lo < 256 ∧ k = hi * 256 + lo + 1 :=
        ⟨(k - 1) / 256, (k - 1) % 256, by omega, by omega, by omega⟩
      rw [hkk, transpose_apply _ _ _ hhi hlo, hpc, ← h.countP_range]
      have hs := countP_shift w.length (fun t => decide (colKey w t = some (lo * 256 + hi + 1)))
      have e1 : (List.range (w.length + 1)).countP
            (fun t => decide (colKey w t = some (lo * 256 + hi + 1))) =
          (List.range (w.length + 1)).countP (fun t => decide (0 < t) &&
            decide (colKey w t = some (lo * 256 + hi + 1))) := by
        apply List.countP_congr
        intro t _
        by_cases h0 : t = 0
        · subst h0; simp [colKey]
        · have : 0 < t := by omega
          simp [this]
      rw [e1, ← hs]
      have e2 : List.range (w.length + 1) =
          List.range (w.length - 1) ++ [w.length - 1, w.length] := by
        have : w.length + 1 = w.length - 1 + 1 + 1 := by omega
        rw [this, List.range_succ, List.range_succ]
        simp
        omega
      rw [e2, List.countP_append]
      have e3 : [w.length - 1, w.length].countP (fun s => decide (s < w.length) &&
          decide (colKey w (s + 1) = some (lo * 256 + hi + 1))) = 0 := by
        rw [List.countP_eq_zero]
        intro t ht
        simp only [List.mem_cons, List.not_mem_nil, or_false] at ht
        rcases ht with rfl | rfl
        · have : w[w.length - 1 + 1]? = none := by
            rw [List.getElem?_eq_none_iff]; omega
          simp [colKey, this]
        · simp
      rw [e3, Nat.add_zero]
      apply List.countP_congr
      intro t ht
      obtain ⟨h1, h2⟩ := hpk t ht
      have h3 : t < w.length := by omega
      have b1 := w[t].toNat_lt
      have b2 := w[t + 1].toNat_lt
      simp only [h2, h3, decide_true, Bool.true_and, colKey, Nat.add_eq_zero_iff, Nat.one_ne_zero,
        and_false, if_false, List.getElem?_eq_getElem h1, Nat.add_sub_cancel,
        List.getElem?_eq_getElem h3, Option.some.injEq, decide_eq_true_eq]
      omega
  rw [bump_apply, bump_apply, key]
  have e2 : List.range (w.length + 1) =
      List.range (w.length - 1) ++ [w.length - 1, w.length] := by
    have : w.length + 1 = w.length - 1 + 1 + 1 := by omega
    rw [this, List.range_succ, List.range_succ]
    simp
    omega
  rw [e2, List.countP_append]
  have k1 : pairKey w (w.length - 1) = (w[w.length - 1]'(by omega)).toNat * 256 := by
    have g1 : w[w.length - 1 + 1]? = none := by rw [List.getElem?_eq_none_iff]; omega
    simp [pairKey, g1, List.getElem?_eq_getElem (show w.length - 1 < w.length by omega)]
  have k2 : pairKey w w.length = 0 := by
    simp [pairKey]
  simp only [List.countP_cons, List.countP_nil, k1, k2, decide_eq_true_eq]
  have c1 : (k = 0) ↔ (0 = k) := eq_comm
  have c2 : (k = (w[w.length - 1]'(by omega)).toNat * 256) ↔
    ((w[w.length - 1]'(by omega)).toNat * 256 = k) := eq_comm
  simp only [c1, c2]
  omega

theorem pc_sum (h : IsSA w sa) (hm : 1 ≤ w.length) {st : Scan}
    (inv : ScanInv w sa (w.length + 1) st) (k : Nat) (hk : k ≤ 65536) :
    psum (bump (bump (transpose st.pcount) 0) ((w[w.length - 1]'(by omega)).toNat * 256)) k =
      (List.range (w.length + 1)).countP (fun t => decide (pairKey w t ≤ k)) := by
  induction k with
  | zero =>
    rw [psum, pc_cell h hm inv 0 hk]
    apply List.countP_congr
    intro t _
    simp
  | succ k ih =>
    rw [psum, ih (by omega), pc_cell h hm inv (k + 1) hk, eq_comm]
    apply countP_add
    · intro t _
      rw [Bool.eq_iff_iff]
      simp only [decide_eq_true_eq, Bool.or_eq_true]
      omega
    · intro t _
      simp only [decide_eq_true_eq]
      omega

/-! ## The LF² table -/

/-- The row two characters further, cyclically. -/
def next2 (w : List UInt8) (s : Nat) : Nat :=
  if s = 0 then rk w (w.length - 1) else if s = 1 then 0 else rk w (s - 2)

/-- Invariant of filling the LF² table. -/
structure FillInv (w : List UInt8) (sa : List Nat) (p : Nat) (st : (Nat → Nat) × List Nat) :
    Prop where
  pc : ∀ a c : UInt8, st.1 (c.toNat + a.toNat * 256) =
    (List.range (w.length + 1)).countP (fun t => decide (pairKey w t ≤ a.toNat * 256 + c.toNat)) +
    (sa.take p).countP (fun t => decide (prevPair w t = some (a, c)))
  len : st.2.length = p
  lf : ∀ j s v : Nat, sa[j]? = some s → st.2[j]? = some v → v = next2 w s

theorem lf_append {w : List UInt8} {sa : List Nat} {p s : Nat} {l : List Nat}
    {x : Nat} (hlen : l.length = p) (hp : sa[p]? = some s)
    (hl : ∀ j s v : Nat, sa[j]? = some s → l[j]? = some v → v = next2 w s) (hx : x = next2 w s) :
    ∀ j s v : Nat, sa[j]? = some s → (l ++ [x])[j]? = some v → v = next2 w s := by
  intro j t v hj hv
  by_cases hjp : j < l.length
  · rw [List.getElem?_append_left hjp] at hv
    exact hl j t v hj hv
  · rw [List.getElem?_append_right (by omega)] at hv
    by_cases hjl : j = l.length
    · subst hjl
      rw [Nat.sub_self] at hv
      rw [hlen, hp] at hj
      cases hj; cases hv
      exact hx
    · rw [List.getElem?_eq_none (by simp; omega)] at hv
      cases hv

theorem fillRow_inv (h : IsSA w sa) (hb : IsBWT w sa b e) {sc : Scan}
    (inv : ScanInv w sa (w.length + 1) sc) (hsec : sc.second = rk w 1) {lf0 : Nat}
    (hlf0 : lf0 = rk w (w.length - 1)) (hm : 1 ≤ w.length) {p : Nat} (hp : p < w.length + 1)
    {st : (Nat → Nat) × List Nat} (fi : FillInv w sa p st) :
    ∃ st', fillRow sc.pairs e sc.second lf0 st p = some st' ∧ FillInv w sa (p + 1) st' := by
  obtain ⟨s, hps, hsw, hr⟩ := row_cases h hp
  have heq : ∀ t, t ≤ w.length → (p = rk w t ↔ s = t) := by
    intro t ht
    rw [hr]
    constructor
    · intro h'; exact h.rk_inj hsw ht h'
    · intro h'; rw [h']
  have hpe : p = e ↔ s = 0 := by rw [eob_eq h hb]; exact heq 0 (by omega)
  have hp1 : p = sc.second ↔ s = 1 := by rw [hsec]; exact heq 1 hm
  by_cases h0 : s = 0
  · refine ⟨(st.1, st.2 ++ [lf0]), ?_, ?_⟩
    · unfold fillRow; rw [if_pos (hpe.mpr h0)]; rfl
    · subst h0
      refine ⟨?_, by simp [fi.len], lf_append fi.len hps fi.lf (by simp [next2, hlf0])⟩
      intro a c
      rw [take_countP_succ sa p _ hps, fi.pc]
      simp [prevPair]
  · by_cases h1 : s = 1
    · refine ⟨(st.1, st.2 ++ [0]), ?_, ?_⟩
      · unfold fillRow; rw [if_neg (fun hc => h0 (hpe.mp hc)), if_pos (hp1.mpr h1)]; rfl
      · subst h1
        refine ⟨?_, by simp [fi.len], lf_append fi.len hps fi.lf (by simp [next2])⟩
        intro a c
        rw [take_countP_succ sa p _ hps, fi.pc]
        simp [prevPair]
    · obtain ⟨u, rfl⟩ : ∃ u, s = u + 2 := ⟨s - 2, by omega⟩
      have hu : u + 1 < w.length := by omega
      have hlen : p < sc.pairs.length := by rw [inv.len]; exact hp
      have hpp : prevPair w (u + 2) = some (w[u], w[u + 1]) := by
        simp [prevPair, List.getElem?_eq_getElem hu,
          List.getElem?_eq_getElem (show u < w.length by omega)]
      have hpc : prevChar w (u + 2) = some w[u + 1] := by
        simp [prevChar, List.getElem?_eq_getElem hu]
      have hok := inv.pairs p _ _ hps (List.getElem?_eq_getElem hlen)
      have q1 : sc.pairs[p].1 = w[u + 1] := hok.1 _ hpc
      have q2 : sc.pairs[p].2 = w[u] := hok.2.1 _ _ hpp
      have hval : st.1 (w[u + 1].toNat + w[u].toNat * 256) = rk w u := by
        rw [fi.pc, rk_step2 h hu, ← hr]
      refine ⟨(bump st.1 (w[u + 1].toNat + w[u].toNat * 256), st.2 ++ [rk w u]), ?_, ?_⟩
      · unfold fillRow
        rw [if_neg (fun hc => h0 (hpe.mp hc)), if_neg (fun hc => h1 (hp1.mp hc)),
          List.getElem?_eq_getElem hlen]
        simp only [Option.bind_eq_bind, Option.bind_some, q1, q2, hval]
        rfl
      · refine ⟨?_, by simp [fi.len], lf_append fi.len hps fi.lf ?_⟩
        · intro a c
          simp only
          rw [take_countP_succ sa p _ hps, bump_apply, fi.pc, hpp]
          have b1 := a.toNat_lt
          have b2 := c.toNat_lt
          have b3 := w[u].toNat_lt
          have b4 := w[u + 1].toNat_lt
          have : (c.toNat + a.toNat * 256 = w[u + 1].toNat + w[u].toNat * 256) ↔
              (w[u] = a ∧ w[u + 1] = c) := by
            rw [← UInt8.toNat_inj, ← UInt8.toNat_inj]
            omega
          simp only [this, decide_eq_true_eq, Option.some.injEq, Prod.mk.injEq]
          omega
        · simp [next2]

/-- What the tables must contain. -/
structure TablesOK (w : List UInt8) (t : List Nat × List (UInt8 × UInt8)) : Prop where
  row : ∀ s, s ≤ w.length → ∃ pr, fetch t (rk w s) = some (next2 w s, pr) ∧ PairOK w s pr

theorem computeData_spec (h : IsSA w sa) (hb : IsBWT w sa b e) (hm : 1 ≤ w.length) :
    ∃ t, computeData b e = some t ∧ TablesOK w t := by
  obtain ⟨sc, hsc, inv⟩ := scan_spec h hb hm
  rw [hb.1] at inv
  have hb0 : b[0]? = some (w[w.length - 1]'(by omega)) := by
    have := bwt_at h hb (s := w.length - 1) (by omega)
    rwa [show w.length - 1 + 1 = w.length by omega, rk_length] at this
  have hsec : sc.second = rk w 1 := by
    by_cases hr1 : rk w 1 = 0
    · rcases inv.second' with h' | h'
      · rw [h', hr1]
      · exact h.index_eq h'
    · apply inv.second _ (by omega) _ (h.at_rk hm)
      rw [← h.length]; exact h.rk_lt hm
  have hlf0 : psum (countRaw b e) (w[w.length - 1]'(by omega)).toNat = rk w (w.length - 1) := by
    rw [count_eq h hb, rk_step h (s := w.length - 1) (by omega),
      show w.length - 1 + 1 = w.length by omega, rk_length]
    simp
  obtain ⟨fl, hfl, fi⟩ : ∃ fl, (List.range b.length).foldlM (fillRow sc.pairs e sc.second
        (psum (countRaw b e) (w[w.length - 1]'(by omega)).toNat))
        (psum (bump (bump (transpose sc.pcount) 0)
          ((w[w.length - 1]'(by omega)).toNat * 256)), []) = some fl ∧
        FillInv w sa b.length fl := by
    apply foldlM_range_inv _ (FillInv w sa)
    · intro p st hp inv'
      exact fillRow_inv h hb inv hsec hlf0 hm (by rw [← hb.1]; exact hp) inv'
    · refine ⟨?_, rfl, ?_⟩
      · intro a c
        have b1 := a.toNat_lt
        have b2 := c.toNat_lt
        simp only [List.take_zero, List.countP_nil, Nat.add_zero]
        rw [pc_sum h hm inv _ (by omega), Nat.add_comm]
      · intro j s v _ hv; simp at hv
  refine ⟨(fl.2, sc.pairs), ?_, ?_⟩
  · unfold computeData
    have he0 : e ≠ 0 := by
      intro hc
      have := h.at_rk (s := w.length) (Nat.le_refl _)
      rw [rk_length, ← hc, hb.2.1] at this
      simp only [Option.some.injEq] at this
      omega
    have hel : e < b.length := by
      rw [hb.1, ← h.length]
      exact (List.getElem?_eq_some_iff.mp hb.2.1).1
    rw [if_neg (by omega), hb0]
    simp only [Option.bind_eq_bind, Option.bind_some]
    rw [hsc]
    simp only [Option.bind_some]
    rw [hfl]
    rfl
  · constructor
    intro s hs
    have hrl := h.rk_lt hs
    rw [h.length] at hrl
    have l1 : rk w s < fl.2.length := by rw [fi.len, hb.1]; exact hrl
    have l2 : rk w s < sc.pairs.length := by rw [inv.len]; exact hrl
    refine ⟨sc.pairs[rk w s], ?_, inv.pairs _ _ _ (h.at_rk hs) (List.getElem?_eq_getElem l2)⟩
    unfold fetch
    simp only [List.getElem?_eq_getElem l1, List.getElem?_eq_getElem l2, Option.bind_eq_bind,
      Option.bind_some]
    rw [fi.lf _ _ _ (h.at_rk hs) (List.getElem?_eq_getElem l1)]
    rfl

end

end Bwtc.InvBWT
