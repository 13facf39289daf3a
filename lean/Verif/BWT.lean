/-!
# The Burrows-Wheeler transform: specification and the LF mapping

The text `w` is the reversed block.  The sorters work on `w` followed by a zero
byte (BWTransform.cpp:40-44) and compare suffixes with the usual "a proper prefix
is smaller" order; `sentinel_order` shows that this is the order of the suffixes
of `w`, the empty one included.  Everything below is about that order.
-/

set_option autoImplicit false

namespace Bwtc.BWT

/-- `sa` lists the starting positions of all suffixes of `w` (also of the empty
one) in increasing order of the suffixes.  Specification of a suffix array. -/
def IsSA (w : List UInt8) (sa : List Nat) : Prop :=
  sa.Perm (List.range (w.length + 1)) ∧
    sa.Pairwise (fun a b => w.drop a < w.drop b)

/-- `b` is the Burrows-Wheeler transform of `w` with the end-of-block row `e`:
row `j` holds the character in front of the `j`-th smallest suffix; row `e`
belongs to the whole text, its entry in `b` carries no information. -/
def IsBWT (w : List UInt8) (sa : List Nat) (b : List UInt8) (e : Nat) : Prop :=
  b.length = w.length + 1 ∧ sa[e]? = some 0 ∧
    ∀ j s : Nat, sa[j]? = some (s + 1) → b[j]? = w[s]?

/-- The number of suffixes of `w` smaller than the suffix starting at `s`. -/
def rk (w : List UInt8) (s : Nat) : Nat :=
  (List.range (w.length + 1)).countP (fun t => decide (w.drop t < w.drop s))

/-! ## Order of suffixes -/

theorem lt_cons_iff (a b : UInt8) (u v : List UInt8) :
    a :: u < b :: v ↔ a < b ∨ (a = b ∧ u < v) := List.cons_lt_cons_iff

theorem append_zero_lt (u v : List UInt8) :
    u ++ [0] < v ++ [0] ↔ u < v := by
  induction u generalizing v with
  | nil =>
    cases v with
    | nil => simp [List.lt_irrefl]
    | cons b v =>
      simp only [List.nil_append, List.cons_append, lt_cons_iff]
      constructor
      · intro _; exact List.nil_lt_cons _ _
      · intro _
        by_cases hb : (0 : UInt8) < b
        · exact Or.inl hb
        · right
          refine ⟨?_, ?_⟩
          · apply UInt8.toNat_inj.mp
            have : ¬ (0 : UInt8).toNat < b.toNat := fun h => hb (UInt8.lt_iff_toNat_lt.mpr h)
            simp at this
            simp [this]
          · cases v <;> exact List.nil_lt_cons _ _
  | cons a u ih =>
    cases v with
    | nil =>
      simp only [List.nil_append, List.cons_append, lt_cons_iff]
      constructor
      · intro h
        rcases h with h | ⟨_, h⟩
        · exact absurd (UInt8.lt_iff_toNat_lt.mp h) (by simp)
        · exact absurd h (List.not_lt_nil _)
      · intro h; exact absurd h (List.not_lt_nil _)
    | cons b v =>
      simp only [List.cons_append, lt_cons_iff, ih]

/-- Comparing suffixes of the zero-terminated text is comparing suffixes of the
text. -/
theorem sentinel_order (w : List UInt8) (s t : Nat) (hs : s ≤ w.length)
    (ht : t ≤ w.length) :
    (w ++ [0]).drop s < (w ++ [0]).drop t ↔ w.drop s < w.drop t := by
  rw [List.drop_append_of_le_length hs, List.drop_append_of_le_length ht, append_zero_lt]

theorem drop_cons (w : List UInt8) (s : Nat) (h : s < w.length) :
    w.drop s = w[s] :: w.drop (s + 1) := List.drop_eq_getElem_cons h

/-! ## Suffix arrays and ranks -/

namespace IsSA

variable {w : List UInt8} {sa : List Nat} (h : IsSA w sa)
include h

theorem length : sa.length = w.length + 1 := by
  rw [h.1.length_eq, List.length_range]

theorem mem {s : Nat} : s ∈ sa ↔ s ≤ w.length := by
  rw [h.1.mem_iff, List.mem_range]; omega

theorem lt_of_lt {i j s t : Nat} (hi : sa[i]? = some s) (hj : sa[j]? = some t) (hij : i < j) :
    w.drop s < w.drop t := by
  have h2 := List.pairwise_iff_getElem.mp h.2
  obtain ⟨hi', hi⟩ := List.getElem?_eq_some_iff.mp hi
  obtain ⟨hj', hj⟩ := List.getElem?_eq_some_iff.mp hj
  have := h2 i j hi' hj' hij
  rwa [hi, hj] at this

/-- Counting among the suffixes smaller than the `i`-th one is counting among the
first `i` entries. -/
theorem countP_take {i s : Nat} (hi : sa[i]? = some s) (p : Nat → Bool) :
    sa.countP (fun t => decide (w.drop t < w.drop s) && p t) = (sa.take i).countP p := by
  obtain ⟨hi', his⟩ := List.getElem?_eq_some_iff.mp hi
  conv => lhs; rw [← List.take_append_drop i sa]
  rw [List.countP_append]
  have h1 : (sa.take i).countP (fun t => decide (w.drop t < w.drop s) && p t)
      = (sa.take i).countP p := by
    apply List.countP_congr
    intro t ht
    obtain ⟨j, hj, hjt⟩ := List.mem_iff_getElem.mp ht
    simp only [List.length_take] at hj
    have hj? : sa[j]? = some t := by
      rw [List.getElem?_eq_some_iff]
      refine ⟨by omega, ?_⟩
      rw [← hjt, List.getElem_take]
    have := h.lt_of_lt hj? hi (by omega)
    simp [this]
  have h2 : (sa.drop i).countP (fun t => decide (w.drop t < w.drop s) && p t) = 0 := by
    rw [List.countP_eq_zero]
    intro t ht
    obtain ⟨j, hj, hjt⟩ := List.mem_iff_getElem.mp ht
    simp only [List.length_drop] at hj
    have hj? : sa[i + j]? = some t := by
      rw [List.getElem?_eq_some_iff]
      refine ⟨by omega, ?_⟩
      rw [← hjt, List.getElem_drop]
    have hn : ¬ w.drop t < w.drop s := by
      rcases Nat.eq_zero_or_pos j with hj0 | hj0
      · subst hj0
        rw [Nat.add_zero, hi] at hj?
        cases hj?
        exact List.lt_irrefl _
      · have := h.lt_of_lt hi hj? (by omega)
        exact List.lt_asymm this
    simp [hn]
  omega

theorem countP_range (p : Nat → Bool) :
    (List.range (w.length + 1)).countP p = sa.countP p := (h.1.countP_eq p).symm

theorem index_eq {i s : Nat} (hi : sa[i]? = some s) : i = rk w s := by
  have := h.countP_take hi (fun _ => true)
  simp only [Bool.and_true, List.countP_true, List.length_take] at this
  obtain ⟨hi', _⟩ := List.getElem?_eq_some_iff.mp hi
  rw [rk, h.countP_range, this]; omega

theorem at_rk {s : Nat} (hs : s ≤ w.length) : sa[rk w s]? = some s := by
  obtain ⟨i, hi⟩ := List.mem_iff_getElem?.mp (h.mem.mpr hs)
  rw [← h.index_eq hi]; exact hi

theorem rk_lt {s : Nat} (hs : s ≤ w.length) : rk w s < sa.length := by
  obtain ⟨hi', _⟩ := List.getElem?_eq_some_iff.mp (h.at_rk hs)
  exact hi'

theorem rk_inj {s t : Nat} (hs : s ≤ w.length) (ht : t ≤ w.length) (e : rk w s = rk w t) :
    s = t := by
  have h1 := h.at_rk hs
  have h2 := h.at_rk ht
  rw [e, h2] at h1
  cases h1; rfl

end IsSA

/-- The empty suffix is the smallest. -/
theorem rk_length (w : List UInt8) : rk w w.length = 0 := by
  rw [rk, List.countP_eq_zero]
  intro t _
  simp [List.not_lt_nil]

/-- Shifting a count over the suffixes by one position. -/
theorem countP_shift (m : Nat) (p : Nat → Bool) :
    (List.range (m + 1)).countP (fun s => decide (s < m) && p (s + 1)) =
      (List.range (m + 1)).countP (fun s => decide (0 < s) && p s) := by
  conv => lhs; rw [List.range_succ]
  conv => rhs; rw [List.range_succ_eq_map]
  rw [List.countP_append]
  simp only [List.countP_cons, List.countP_map, List.countP_nil, Nat.lt_irrefl, decide_false, Bool.false_and,
    Bool.false_eq_true, if_false, Nat.add_zero]
  apply List.countP_congr
  intro s hs
  have := List.mem_range.mp hs
  simp [this]

theorem countP_add {α : Type} (l : List α) (p q r : α → Bool)
    (hpq : ∀ a ∈ l, p a = (q a || r a)) (hd : ∀ a ∈ l, ¬ (q a = true ∧ r a = true)) :
    l.countP p = l.countP q + l.countP r := by
  induction l with
  | nil => rfl
  | cons a l ih =>
    have h1 := hpq a (by simp)
    have h2 := hd a (by simp)
    have := ih (fun b hb => hpq b (by simp [hb])) (fun b hb => hd b (by simp [hb]))
    rw [List.countP_cons, List.countP_cons, List.countP_cons, this, h1]
    cases hq : q a <;> cases hr : r a <;> simp_all <;> omega

/-- Counting indices is counting elements. -/
theorem countP_index {α : Type} (l : List α) (p : α → Bool) :
    (List.range l.length).countP (fun s => l[s]?.any p) = l.countP p := by
  induction l with
  | nil => rfl
  | cons a l ih =>
    rw [List.length_cons, List.range_succ_eq_map, List.countP_cons, List.countP_map,
      List.countP_cons, ← ih]
    simp only [List.getElem?_cons_zero, Option.any_some]
    rfl

/-- The same with one index past the end. -/
theorem countP_index_succ {α : Type} (l : List α) (p : α → Bool) :
    (List.range (l.length + 1)).countP (fun s => l[s]?.any p) = l.countP p := by
  rw [List.range_succ, List.countP_append, countP_index]
  simp

/-! ## One LF step -/

/-- The character in front of suffix `s`. -/
def prevChar (w : List UInt8) (s : Nat) : Option UInt8 :=
  if s = 0 then none else w[s - 1]?

/-- The two characters in front of suffix `s`. -/
def prevPair (w : List UInt8) (s : Nat) : Option (UInt8 × UInt8) :=
  if s < 2 then none else
    match w[s - 2]?, w[s - 1]? with
    | some a, some b => some (a, b)
    | _, _ => none

/-- Number of suffixes (with the empty one) whose first character is below `c`. -/
def before (w : List UInt8) (c : Nat) : Nat := 1 + w.countP (fun x => decide (x.toNat < c))

theorem u8_lt (a b : UInt8) : a < b ↔ a.toNat < b.toNat := UInt8.lt_iff_toNat_lt

/-- The LF mapping: the row of the suffix one character longer. -/
theorem rk_step {w : List UInt8} {sa : List Nat} (h : IsSA w sa) {s : Nat}
    (hs : s < w.length) :
    rk w s = before w w[s].toNat +
      (sa.take (rk w (s + 1))).countP (fun t => decide (prevChar w t = some w[s])) := by
  have e1 : (List.range (w.length + 1)).countP (fun t => decide (w.drop t < w.drop s)) =
      (List.range (w.length + 1)).countP (fun t => decide (t = w.length) ||
          w[t]?.any (fun x => decide (x.toNat < w[s].toNat))) +
      (List.range (w.length + 1)).countP (fun t => decide (t < w.length) &&
          (decide (w.drop (t + 1) < w.drop (s + 1)) &&
            decide (prevChar w (t + 1) = some w[s]))) := by
    apply countP_add
    · intro t ht
      have ht := List.mem_range.mp ht
      rw [drop_cons w s hs]
      by_cases hm : t = w.length
      · subst hm
        have hnil : w.drop w.length < w[s] :: w.drop (s + 1) := by
          rw [List.drop_length]; exact List.nil_lt_cons _ _
        rw [decide_eq_true hnil]; simp
      · have ht' : t < w.length := by omega
        rw [drop_cons w t ht']
        rw [Bool.eq_iff_iff]
        simp only [decide_eq_true_eq, lt_cons_iff, Bool.or_eq_true, Bool.and_eq_true, hm, false_or,
          List.getElem?_eq_getElem ht', Option.any_some, ht', true_and, prevChar,
          Nat.add_sub_cancel, u8_lt]
        simp only [Nat.add_eq_zero_iff, Nat.one_ne_zero, and_false, if_false, Option.some.injEq]
        constructor
        · rintro (h1 | ⟨h1, h2⟩)
          · exact Or.inl h1
          · exact Or.inr ⟨h2, h1⟩
        · rintro (h1 | ⟨h1, h2⟩)
          · exact Or.inl h1
          · exact Or.inr ⟨h2, h1⟩
    · intro t ht
      have ht := List.mem_range.mp ht
      simp only [Bool.or_eq_true, Bool.and_eq_true, decide_eq_true_eq, prevChar,
        Nat.add_sub_cancel, Nat.add_eq_zero_iff, Nat.one_ne_zero, and_false, if_false]
      rintro ⟨h1 | h1, h2, _, h4⟩
      · omega
      · rw [h4] at h1
        simp at h1
  have e2 : (List.range (w.length + 1)).countP (fun t => decide (t = w.length) ||
          w[t]?.any (fun x => decide (x.toNat < w[s].toNat))) = before w w[s].toNat := by
    rw [List.range_succ, List.countP_append, before]
    have : (List.range w.length).countP (fun t => decide (t = w.length) ||
          w[t]?.any (fun x => decide (x.toNat < w[s].toNat))) =
        (List.range w.length).countP
          (fun t => w[t]?.any (fun x => decide (x.toNat < w[s].toNat))) := by
      apply List.countP_congr
      intro t ht
      have := List.mem_range.mp ht
      have hne : t ≠ w.length := by omega
      simp [hne]
    rw [this, countP_index]
    simp [Nat.add_comm]
  have e3 := countP_shift w.length (fun t => decide (w.drop t < w.drop (s + 1)) &&
            decide (prevChar w t = some w[s]))
  have e4 : (List.range (w.length + 1)).countP (fun t => decide (0 < t) &&
        (decide (w.drop t < w.drop (s + 1)) && decide (prevChar w t = some w[s]))) =
      (List.range (w.length + 1)).countP (fun t => decide (w.drop t < w.drop (s + 1)) &&
        decide (prevChar w t = some w[s])) := by
    apply List.countP_congr
    intro t _
    by_cases h0 : t = 0
    · subst h0; simp [prevChar]
    · have : 0 < t := by omega
      simp [this]
  have e5 := h.countP_take (h.at_rk (s := s + 1) (by omega))
    (fun t => decide (prevChar w t = some w[s]))
  rw [rk, e1, e2, e3, e4, h.countP_range, e5]

/-! ## Two LF steps -/

/-- Index of the cell of `pairs_count` in which the two leading characters of
suffix `s` are counted (MtlSaInverseBWT.cpp:124-149, 185-194). -/
def pairKey (w : List UInt8) (s : Nat) : Nat :=
  match w[s]?, w[s + 1]? with
  | none, _ => 0
  | some a, none => a.toNat * 256
  | some a, some b => a.toNat * 256 + b.toNat + 1

theorem rk_step2 {w : List UInt8} {sa : List Nat} (h : IsSA w sa) {s : Nat}
    (hs : s + 1 < w.length) :
    rk w s = (List.range (w.length + 1)).countP
        (fun t => decide (pairKey w t ≤ w[s].toNat * 256 + w[s + 1].toNat)) +
      (sa.take (rk w (s + 2))).countP
        (fun t => decide (prevPair w t = some (w[s], w[s + 1]))) := by
  have e1 : (List.range (w.length + 1)).countP (fun t => decide (w.drop t < w.drop s)) =
      (List.range (w.length + 1)).countP
        (fun t => decide (pairKey w t ≤ w[s].toNat * 256 + w[s + 1].toNat)) +
      (List.range (w.length + 1)).countP (fun t => decide (t < w.length) &&
        (fun t' => decide (t' < w.length) && 
          (decide (w.drop (t' + 1) < w.drop (s + 2)) &&
            decide (prevPair w (t' + 1) = some (w[s], w[s + 1])))) (t + 1)) := by
    apply countP_add
    · intro t ht
      have ht := List.mem_range.mp ht
      rw [drop_cons w s (by omega), drop_cons w (s + 1) hs]
      have ha := (w[s]'(by omega)).toNat_lt
      have hb := w[s + 1].toNat_lt
      by_cases hm : t = w.length
      · subst hm
        have hnil : w.drop w.length < w[s] :: w[s + 1] :: w.drop (s + 1 + 1) := by
          rw [List.drop_length]; exact List.nil_lt_cons _ _
        rw [decide_eq_true hnil]; simp [pairKey]
      · have ht' : t < w.length := by omega
        rw [drop_cons w t ht', Bool.eq_iff_iff]
        have hc := w[t].toNat_lt
        by_cases hm1 : t + 1 = w.length
        · have hd : w.drop (t + 1) = [] := by rw [hm1]; simp
          have hg : w[t + 1]? = none := by rw [hm1]; simp
          simp only [hd, pairKey, List.getElem?_eq_getElem ht', hg, decide_eq_true_eq, lt_cons_iff,
            Bool.or_eq_true, Bool.and_eq_true, List.nil_lt_cons, and_true]
          have hnl : ¬ t + 1 < w.length := by omega
          simp only [hnl, false_and, and_false, or_false, u8_lt]
          constructor
          · rintro (h1 | h1)
            · omega
            · rw [h1]; omega
          · intro h1
            by_cases hlt : w[t].toNat < w[s].toNat
            · exact Or.inl hlt
            · right
              apply UInt8.toNat_inj.mp; omega
        · have ht2 : t + 1 < w.length := by omega
          have hd' := w[t + 1].toNat_lt
          rw [drop_cons w (t + 1) ht2]
          have hnl : ¬ t + 1 + 1 < 2 := by omega
          simp only [pairKey, List.getElem?_eq_getElem ht', List.getElem?_eq_getElem ht2,
            decide_eq_true_eq, lt_cons_iff, Bool.or_eq_true, Bool.and_eq_true, ht2, ht', true_and,
            prevPair, hnl, if_false, Nat.add_sub_cancel, show t + 1 + 1 - 2 = t by omega,
            Option.some.injEq, Prod.mk.injEq, u8_lt, ← UInt8.toNat_inj]
          constructor
          · rintro (h1 | ⟨h1, h2 | ⟨h2, h3⟩⟩)
            · left; omega
            · left; omega
            · right; exact ⟨h3, h1, h2⟩
          · rintro (h1 | ⟨h1, h2, h3⟩)
            · by_cases hlt : w[t].toNat < w[s].toNat
              · exact Or.inl hlt
              · right; refine ⟨by omega, Or.inl (by omega)⟩
            · exact Or.inr ⟨h2, Or.inr ⟨h3, h1⟩⟩
    · intro t ht
      simp only [Bool.and_eq_true, decide_eq_true_eq]
      rintro ⟨h1, h2, h3, h4, h5⟩
      have hnl : ¬ t + 1 + 1 < 2 := by omega
      simp only [prevPair, hnl, if_false, show t + 1 + 1 - 2 = t by omega, Nat.add_sub_cancel,
        List.getElem?_eq_getElem h2, List.getElem?_eq_getElem h3, Option.some.injEq,
        Prod.mk.injEq] at h5
      simp only [pairKey, List.getElem?_eq_getElem h2, List.getElem?_eq_getElem h3, h5.1,
        h5.2] at h1
      omega
  have e3 := countP_shift w.length (fun t' => decide (t' < w.length) && 
          (decide (w.drop (t' + 1) < w.drop (s + 2)) &&
            decide (prevPair w (t' + 1) = some (w[s], w[s + 1]))))
  have e4 : (List.range (w.length + 1)).countP (fun t => decide (0 < t) &&
        (fun t' => decide (t' < w.length) && 
          (decide (w.drop (t' + 1) < w.drop (s + 2)) &&
            decide (prevPair w (t' + 1) = some (w[s], w[s + 1])))) t) =
      (List.range (w.length + 1)).countP (fun t => decide (t < w.length) &&
        (fun t' => (decide (w.drop t' < w.drop (s + 2)) &&
            decide (prevPair w t' = some (w[s], w[s + 1])))) (t + 1)) := by
    apply List.countP_congr
    intro t _
    by_cases h0 : t = 0
    · subst h0; simp [prevPair]
    · have : 0 < t := by omega
      simp [this]
  have e5 := countP_shift w.length (fun t' => (decide (w.drop t' < w.drop (s + 2)) &&
            decide (prevPair w t' = some (w[s], w[s + 1]))))
  have e6 : (List.range (w.length + 1)).countP (fun t => decide (0 < t) &&
        (decide (w.drop t < w.drop (s + 2)) && decide (prevPair w t = some (w[s], w[s + 1])))) =
      (List.range (w.length + 1)).countP (fun t => decide (w.drop t < w.drop (s + 2)) &&
        decide (prevPair w t = some (w[s], w[s + 1]))) := by
    apply List.countP_congr
    intro t _
    by_cases h0 : t = 0
    · subst h0; simp [prevPair]
    · have : 0 < t := by omega
      simp [this]
  have e7 := h.countP_take (h.at_rk (s := s + 2) (by omega))
    (fun t => decide (prevPair w t = some (w[s], w[s + 1])))
  rw [rk, e1, e3, e4, e5, e6, h.countP_range (fun t => decide (w.drop t < w.drop (s + 2)) &&
        decide (prevPair w t = some (w[s], w[s + 1]))), e7]

end Bwtc.BWT
