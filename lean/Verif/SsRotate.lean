import Verif.SsBackward

/-!
# `ss_rotate` exchanges two ranges next to each other
-/

set_option autoImplicit false

namespace Bwtc.Ss
open Sais (put inv put_spec inv_inv bind_some')
open Divsuf (getI dec sub)

/-- The cells from `first` to `middle` and those from `middle` to `last` have changed places. -/
structure Rotd (first middle last : Nat) (sa sa' : List Int) : Prop where
  len : sa'.length = sa.length
  low : ∀ i, middle + i < last → cel sa' (first + i) = cel sa (middle + i)
  high : ∀ i, first + i < middle → cel sa' (first + (last - middle) + i) = cel sa (first + i)
  off : ∀ r, r < first ∨ last ≤ r → cel sa' r = cel sa r

/-- One pass of the inner loop for `l < r`. -/
theorem rotDown_pass {first middle l : Nat} {t : Int} {r : Nat} : ∀ (k : Nat) (sa : List Int) (a' : Nat), 1 ≤ k → first + k ≤ a' → a' + k < sa.length →
    ∃ sa', sa'.length = sa.length ∧ (∀ i, i < k → cel sa' (a' + 1 + i) = cel sa (first + i)) ∧ (∀ i, i < k → cel sa' (first + i) = cel sa (a' + i)) ∧
      cel sa' a' = t ∧ (∀ j, j < a' ∨ a' + k < j → j < first ∨ first + k ≤ j → cel sa' j = cel sa j) ∧
      rotDown first middle l t sa (a' + k) (first + k) r = (if r < l + 1 then none else if r - (l + 1) ≤ l then some (sa', a', r - (l + 1))
        else if a' = 0 then none else (sa'[a' - 1]?).bind (fun t => rotDown first middle l t sa' (a' - 1) middle (r - (l + 1)))) := by
  intro k
  induction k with
  | zero => intro sa a' h; omega
  | succ k ih =>
    intro sa a' h1 h2 h3
    rw [rotDown.eq_def]
    show ∃ sa', _ ∧ _ ∧ _ ∧ _ ∧ _ ∧ (do
      let x ← sa[first + k]?
      let sa ← put sa (a' + k + 1) x
      let y ← sa[a' + k]?
      let sa ← put sa (first + k) y
      if first + k ≤ first then
        let sa ← put sa (a' + k) t
        if r < l + 1 then none
        else if r - (l + 1) ≤ l then return (sa, a' + k, r - (l + 1))
        else if a' + k = 0 then none
        else
          let t ← sa[a' + k - 1]?
          rotDown first middle l t sa (a' + k - 1) middle (r - (l + 1))
      else rotDown first middle l t sa (a' + k) (first + k) r) = _
    rw [bind_some' (get_cel (by omega)), bind_some' (put_spec (by omega) _), bind_some' (get_cel (by rw [List.length_set]; omega)), cel_set_ne _ (by omega),
      bind_some' (put_spec (by rw [List.length_set]; omega) _)]
    have hc : ∀ j, cel ((sa.set (a' + k + 1) (cel sa (first + k))).set (first + k) (cel sa (a' + k))) j =
        if j = first + k then cel sa (a' + k) else if j = a' + k + 1 then cel sa (first + k) else cel sa j := fun j => by
      rw [cel_set (by rw [List.length_set]; omega), cel_set (by omega)]
    by_cases hk : k = 0
    · subst hk
      rw [if_pos (by omega), bind_some' (put_spec (by rw [List.length_set, List.length_set]; omega) _)]
      refine ⟨_, ?_, ?_, ?_, ?_, ?_, rfl⟩
      · simp
      · intro i hi
        rw [cel_set_ne _ (by omega), hc, if_neg (by omega), if_pos (by omega), show first + i = first + 0 by omega]
      · intro i hi
        rw [cel_set_ne _ (by omega), hc, if_pos (by omega), show a' + i = a' + 0 by omega]
      · exact cel_set_self (by rw [List.length_set, List.length_set]; omega) _
      · intro j hj1 hj2
        rw [cel_set_ne _ (by omega), hc, if_neg (by omega), if_neg (by omega)]
    · rw [if_neg (by omega)]
      obtain ⟨sa', k1, k2, k3, k4, k5, k6⟩ := ih ((sa.set (a' + k + 1) (cel sa (first + k))).set (first + k) (cel sa (a' + k))) a' (by omega) (by omega) (by simp; omega)
      refine ⟨sa', by rw [k1]; simp, ?_, ?_, k4, ?_, k6⟩
      · intro i hi
        by_cases hi' : i = k
        · subst hi'
          rw [k5 _ (by omega) (by omega), hc, if_neg (by omega), if_pos (by omega)]
        · rw [k2 i (by omega), hc, if_neg (by omega), if_neg (by omega)]
      · intro i hi
        by_cases hi' : i = k
        · subst hi'
          rw [k5 _ (by omega) (by omega), hc, if_pos (by omega)]
        · rw [k3 i (by omega), hc, if_neg (by omega), if_neg (by omega)]
      · intro j hj1 hj2
        rw [k5 j (by omega) (by omega), hc, if_neg (by omega), if_neg (by omega)]

theorem rotDown_spec {first middle l : Nat} (hm : first + l = middle) (hl : 1 ≤ l) : ∀ (n : Nat) (sa : List Int) (r : Nat), r ≤ n → l < r → middle + r ≤ sa.length →
    ∃ sa' r', rotDown first middle l (cel sa (middle + r - 1)) sa (middle + r - 1) middle r = some (sa', middle + r', r') ∧ r' < r ∧ sa'.length = sa.length ∧
      ∀ sa2, Rotd first middle (middle + r') sa' sa2 → Rotd first middle (middle + r) sa sa2 := by
  intro n
  induction n with
  | zero => intro sa r h1 h2; omega
  | succ n ih =>
    intro sa r h1 h2 h3
    obtain ⟨sa', k1, k2, k3, k4, k5, k6⟩ := rotDown_pass (first := first) (middle := middle) (l := l) (t := cel sa (middle + r - 1)) (r := r) l sa (middle + r - 1 - l) hl (by omega) (by omega)
    rw [show middle + r - 1 - l + l = middle + r - 1 by omega, hm, if_neg (by omega)] at k6
    have pass : ∀ sa2, Rotd first middle (middle + (r - (l + 1))) sa' sa2 → Rotd first middle (middle + r) sa sa2 := by
      intro sa2 q
      refine ⟨by rw [q.len, k1], ?_, ?_, ?_⟩
      · intro i hi
        by_cases hi1 : i < r - (l + 1)
        · rw [q.low i (by omega), k5 _ (by omega) (by omega)]
        · by_cases hi2 : i = r - 1
          · subst hi2
            rw [q.off _ (by omega), show first + (r - 1) = middle + r - 1 - l by omega, k4, show middle + (r - 1) = middle + r - 1 by omega]
          · have := q.high (i - (r - (l + 1))) (by omega)
            rw [show first + (middle + (r - (l + 1)) - middle) + (i - (r - (l + 1))) = first + i by omega] at this
            rw [this, k3 _ (by omega), show middle + r - 1 - l + (i - (r - (l + 1))) = middle + i by omega]
      · intro i hi
        rw [q.off _ (by omega), show first + (middle + r - middle) + i = middle + r - 1 - l + 1 + i by omega, k2 i (by omega)]
      · intro j hj
        rw [q.off j (by omega), k5 j (by omega) (by omega)]
    by_cases hb : r - (l + 1) ≤ l
    · rw [if_pos hb] at k6
      refine ⟨sa', r - (l + 1), ?_, by omega, k1, pass⟩
      rw [k6, show middle + r - 1 - l = middle + (r - (l + 1)) by omega]
    · rw [if_neg hb, if_neg (by omega), get_cel (show middle + r - 1 - l - 1 < sa'.length by omega)] at k6
      obtain ⟨sa3, r', e, q1, q2, q3⟩ := ih sa' (r - (l + 1)) (by omega) (by omega) (by omega)
      refine ⟨sa3, r', ?_, by omega, by omega, fun sa2 q => pass sa2 (q3 sa2 q)⟩
      rw [k6, ← e, show middle + r - 1 - l - 1 = middle + (r - (l + 1)) - 1 by omega]
      rfl

/-- One pass of the inner loop for `r < l`; `k` moves are left. -/
theorem rotUp_pass {middle r : Nat} {t : Int} {l : Nat} : ∀ (k : Nat) (sa : List Int) (a b : Nat), 1 ≤ k → a + k < b → b + k ≤ sa.length →
    ∃ sa', sa'.length = sa.length ∧ (∀ i, i < k → cel sa' (a + i) = cel sa (b + i)) ∧ (∀ i, i < k → cel sa' (b + i) = cel sa (a + 1 + i)) ∧
      cel sa' (a + k) = t ∧ (∀ j, j < a ∨ a + k < j → j < b ∨ b + k ≤ j → cel sa' j = cel sa j) ∧
      rotUp middle (b + k) r t sa a b l = (if l < r + 1 then none else if l - (r + 1) ≤ r then some (sa', a + k + 1, l - (r + 1))
        else (sa'[a + k + 1]?).bind (fun t => rotUp middle (b + k) r t sa' (a + k + 1) middle (l - (r + 1)))) := by
  intro k
  induction k with
  | zero => intro sa a b h; omega
  | succ k ih =>
    intro sa a b h1 h2 h3
    rw [rotUp, bind_some' (get_cel (by omega)), bind_some' (put_spec (by omega) _), bind_some' (get_cel (by rw [List.length_set]; omega)), cel_set_ne _ (by omega),
      bind_some' (put_spec (by rw [List.length_set]; omega) _)]
    have hc : ∀ j, cel ((sa.set a (cel sa b)).set b (cel sa (a + 1))) j =
        if j = b then cel sa (a + 1) else if j = a then cel sa b else cel sa j := fun j => by
      rw [cel_set (by rw [List.length_set]; omega), cel_set (by omega)]
    by_cases hk : k = 0
    · subst hk
      rw [if_pos (by omega), bind_some' (put_spec (by rw [List.length_set, List.length_set]; omega) _)]
      refine ⟨_, ?_, ?_, ?_, ?_, ?_, rfl⟩
      · simp
      · intro i hi
        rw [cel_set_ne _ (by omega), hc, if_neg (by omega), if_pos (by omega), show b + i = b by omega]
      · intro i hi
        rw [cel_set_ne _ (by omega), hc, if_pos (by omega), show a + 1 + i = a + 1 by omega]
      · exact cel_set_self (by rw [List.length_set, List.length_set]; omega) _
      · intro j hj1 hj2
        rw [cel_set_ne _ (by omega), hc, if_neg (by omega), if_neg (by omega)]
    · rw [if_neg (by omega)]
      obtain ⟨sa', k1, k2, k3, k4, k5, k6⟩ := ih ((sa.set a (cel sa b)).set b (cel sa (a + 1))) (a + 1) (b + 1) (by omega) (by omega) (by simp; omega)
      rw [show b + 1 + k = b + (k + 1) by omega, show a + 1 + k = a + (k + 1) by omega] at k6
      refine ⟨sa', by rw [k1]; simp, ?_, ?_, by rw [show a + (k + 1) = a + 1 + k by omega]; exact k4, ?_, k6⟩
      · intro i hi
        by_cases hi' : i = 0
        · subst hi'
          rw [k5 _ (by omega) (by omega), hc, if_neg (by omega), if_pos (by omega)]; rfl
        · have := k2 (i - 1) (by omega)
          rw [hc, if_neg (by omega), if_neg (by omega), show a + 1 + (i - 1) = a + i by omega, show b + 1 + (i - 1) = b + i by omega] at this
          exact this
      · intro i hi
        by_cases hi' : i = 0
        · subst hi'
          rw [k5 _ (by omega) (by omega), hc, if_pos (by omega)]
        · have := k3 (i - 1) (by omega)
          rw [hc, if_neg (by omega), if_neg (by omega), show a + 1 + 1 + (i - 1) = a + 1 + i by omega, show b + 1 + (i - 1) = b + i by omega] at this
          exact this
      · intro j hj1 hj2
        rw [k5 j (by omega) (by omega), hc, if_neg (by omega), if_neg (by omega)]

theorem rotUp_spec {middle r : Nat} (hr : 1 ≤ r) : ∀ (n : Nat) (sa : List Int) (first l : Nat), l ≤ n → first + l = middle → r < l → middle + r ≤ sa.length →
    ∃ sa' first' l', rotUp middle (middle + r) r (cel sa first) sa first middle l = some (sa', first', l') ∧ l' < l ∧ first' + l' = middle ∧ sa'.length = sa.length ∧
      ∀ sa2, Rotd first' middle (middle + r) sa' sa2 → Rotd first middle (middle + r) sa sa2 := by
  intro n
  induction n with
  | zero => intro sa first l h1 h2; omega
  | succ n ih =>
    intro sa first l h1 h0 h2 h3
    obtain ⟨sa', k1, k2, k3, k4, k5, k6⟩ := rotUp_pass (middle := middle) (r := r) (t := cel sa first) (l := l) r sa first middle hr (by omega) (by omega)
    rw [if_neg (by omega)] at k6
    have pass : ∀ sa2, Rotd (first + r + 1) middle (middle + r) sa' sa2 → Rotd first middle (middle + r) sa sa2 := by
      intro sa2 q
      refine ⟨by rw [q.len, k1], ?_, ?_, ?_⟩
      · intro i hi
        rw [q.off _ (by omega), k2 i (by omega)]
      · intro i hi
        rw [show first + (middle + r - middle) + i = first + r + i by omega]
        by_cases hi0 : i = 0
        · subst hi0
          rw [q.off _ (by omega)]; exact k4
        · by_cases hi1 : i ≤ r
          · have := q.low (i - 1) (by omega)
            rw [show first + r + 1 + (i - 1) = first + r + i by omega, k3 _ (by omega), show first + 1 + (i - 1) = first + i by omega] at this
            exact this
          · have := q.high (i - 1 - r) (by omega)
            rw [show first + r + 1 + (middle + r - middle) + (i - 1 - r) = first + r + i by omega, k5 _ (by omega) (by omega),
              show first + r + 1 + (i - 1 - r) = first + i by omega] at this
            exact this
      · intro j hj
        rw [q.off j (by omega), k5 j (by omega) (by omega)]
    by_cases hb : l - (r + 1) ≤ r
    · rw [if_pos hb] at k6
      exact ⟨sa', first + r + 1, l - (r + 1), k6, by omega, by omega, k1, pass⟩
    · rw [if_neg hb, get_cel (show first + r + 1 < sa'.length by omega)] at k6
      obtain ⟨sa3, first', l', e, q1, q2, q3, q4⟩ := ih sa' (first + r + 1) (l - (r + 1)) (by omega) (by omega) (by omega) (by omega)
      refine ⟨sa3, first', l', ?_, by omega, q2, by omega, fun sa2 q => pass sa2 (q4 sa2 q)⟩
      rw [k6, ← e]
      rfl

theorem rotLoop_spec {middle : Nat} : ∀ (n : Nat) (sa : List Int) (first l r : Nat), l + r ≤ n → first + l = middle → middle + r ≤ sa.length →
    ∃ sa', rotLoop middle sa first (middle + r) l r = some sa' ∧ Rotd first middle (middle + r) sa sa' := by
  have stop : ∀ (sa : List Int) (first l r : Nat), first + l = middle → ¬ (0 < l ∧ 0 < r) → Rotd first middle (middle + r) sa sa := by
    intro sa first l r h1 h2
    refine ⟨rfl, fun i hi => ?_, fun i hi => ?_, fun _ _ => rfl⟩
    · rw [show first = middle by omega]
    · rw [show first + (middle + r - middle) + i = first + i by omega]
  intro n
  induction n with
  | zero =>
    intro sa first l r h1 h2 h3
    rw [rotLoop, if_neg (by omega)]
    exact ⟨sa, rfl, stop sa first l r h2 (by omega)⟩
  | succ n ih =>
    intro sa first l r h1 h2 h3
    rw [rotLoop]
    by_cases h0 : 0 < l ∧ 0 < r
    · rw [if_pos h0]
      by_cases hlr : l = r
      · subst hlr
        rw [if_pos rfl]
        obtain ⟨sa', e, k1, k2, k3, k4⟩ := blockswap_spec' l sa first middle (by omega) (by omega) (by omega)
        refine ⟨sa', e, k1, fun i hi => k2 i (by omega), fun i hi => ?_, fun j hj => k4 j (by omega) (by omega)⟩
        rw [show first + (middle + l - middle) + i = middle + i by omega]
        exact k3 i (by omega)
      · rw [if_neg hlr]
        by_cases hlt : l < r
        · rw [if_pos hlt, if_neg (by omega), bind_some' (get_cel (by omega))]
          obtain ⟨sa1, r', e, k1, k2, k3⟩ := rotDown_spec (first := first) h2 (by omega) r sa r (Nat.le_refl _) hlt h3
          rw [bind_some' e]
          obtain ⟨sa', e', q⟩ := ih sa1 first l r' (by omega) h2 (by omega)
          exact ⟨sa', e', k3 sa' q⟩
        · rw [if_neg hlt, bind_some' (get_cel (by omega))]
          obtain ⟨sa1, first', l', e, k1, k2, k3, k4⟩ := rotUp_spec (r := r) (by omega) l sa first l (Nat.le_refl _) h2 (by omega) h3
          rw [bind_some' e]
          obtain ⟨sa', e', q⟩ := ih sa1 first' l' r (by omega) k2 (by omega)
          exact ⟨sa', e', k4 sa' q⟩
    · rw [if_neg h0]
      exact ⟨sa, rfl, stop sa first l r h2 h0⟩

/-- `ss_rotate` exchanges the two ranges. -/
theorem rotate_spec {sa : List Int} {first middle last : Nat} (h1 : first ≤ middle) (h2 : middle ≤ last) (h3 : last ≤ sa.length) :
    ∃ sa', rotate sa first middle last = some sa' ∧ Rotd first middle last sa sa' := by
  obtain ⟨sa', e, q⟩ := rotLoop_spec (middle := middle) _ sa first (middle - first) (last - middle) (Nat.le_refl _) (by omega) (by omega)
  rw [show middle + (last - middle) = last by omega] at e q
  exact ⟨sa', e, q⟩

end Bwtc.Ss
