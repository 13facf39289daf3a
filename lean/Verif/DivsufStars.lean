import Verif.DivsufMove
import Verif.DivsufSpec

/-!
# The order of the B* suffixes from the order of their substrings
-/

set_option autoImplicit false

namespace Bwtc.Divsuf
open Induce Suffix Classical

variable {T : List Nat}

theorem sless_shift {p q : Nat} (d : Nat) (hp : p + d ≤ T.length) (hq : q + d ≤ T.length) (h : ∀ j, j < d → ch T (p + j) = ch T (q + j)) :
    sless T p q ↔ sless T (p + d) (q + d) := by
  induction d generalizing p q with
  | zero => exact Iff.rfl
  | succ d ih =>
    rw [sless_step (by omega) (by omega)]
    have h0 := h 0 (by omega)
    rw [Nat.add_zero, Nat.add_zero] at h0
    have := ih (p := p + 1) (q := q + 1) (by omega) (by omega) (fun j hj => by
      have := h (j + 1) (by omega)
      rwa [show p + 1 + j = p + (j + 1) by omega, show q + 1 + j = q + (j + 1) by omega])
    rw [show p + (d + 1) = p + 1 + d by omega, show q + (d + 1) = q + 1 + d by omega, ← this]
    constructor
    · rintro (a | a)
      · omega
      · exact a.2
    · intro a; exact Or.inr ⟨h0, a⟩

/-- The end of a substring. -/
theorem sub_length {P : Nat → Nat} {m i : Nat} (h1 : i + 1 < m → P i < P (i + 1) ∧ P (i + 1) + 2 ≤ T.length) (h2 : P i ≤ T.length) :
    (sub T P m i).length = if i + 1 < m then P (i + 1) + 2 - P i else T.length - P i := by
  unfold sub
  by_cases e : i + 1 < m
  · have := h1 e
    rw [if_pos e, if_pos e, List.length_take, List.length_drop]; omega
  · rw [if_neg e, if_neg e, List.length_drop]

theorem sub_get {P : Nat → Nat} {m i j : Nat} (h : j < (sub T P m i).length) : (sub T P m i)[j]? = some (ch T (P i + j)) ∧ P i + j < T.length := by
  unfold sub at h ⊢
  by_cases e : i + 1 < m
  · rw [if_pos e] at h ⊢
    rw [List.length_take, List.length_drop] at h
    have hlt : P i + j < T.length := by omega
    rw [List.getElem?_take, if_pos (by omega), List.getElem?_drop, get_ch hlt]
    exact ⟨rfl, hlt⟩
  · rw [if_neg e] at h ⊢
    rw [List.length_drop] at h
    have hlt : P i + j < T.length := by omega
    rw [List.getElem?_drop, get_ch hlt]
    exact ⟨rfl, hlt⟩

theorem PA_up {i : Nat} (h : i + 1 < numS T) : PA T i < PA T (i + 1) ∧ PA T (i + 1) + 2 ≤ T.length := by
  refine ⟨PA_lt h (by omega), ?_⟩
  have := isS_next (PA_spec h).1.1
  omega

theorem PA_room {i : Nat} (h : i < numS T) : PA T i + 2 ≤ T.length := by
  have := isS_next (PA_spec h).1.1
  omega

theorem len_sub {i : Nat} (h : i < numS T) : (sub T (PA T) (numS T) i).length =
    if i + 1 < numS T then PA T (i + 1) + 2 - PA T i else T.length - PA T i :=
  sub_length (fun e => PA_up e) (by have := PA_room h; omega)

theorem sless_mismatch {p q d : Nat} (h : ∀ j, j < d → ch T (p + j) = ch T (q + j)) (hp : p + d < T.length) (hq : q + d < T.length)
    (hlt : ch T (p + d) < ch T (q + d)) : sless T p q := by
  rw [sless_shift d (by omega) (by omega) h]
  exact (sless_step hp hq).mpr (Or.inl hlt)

/-- A smaller substring belongs to a smaller suffix. -/
theorem before_sless {i j : Nat} (hi : i < numS T) (hj : j < numS T) (h : before T (PA T) (numS T) i j) : sless T (PA T i) (PA T j) := by
  have li := len_sub hi
  have lj := len_sub hj
  have ri := PA_room hi
  have rj := PA_room hj
  -- the characters agree as long as the first substring goes on
  have key : (∀ x, x < (sub T (PA T) (numS T) i).length → ch T (PA T i + x) = ch T (PA T j + x)) →
      (sub T (PA T) (numS T) i).length < (sub T (PA T) (numS T) j).length → sless T (PA T i) (PA T j) := by
    intro hag hlen
    by_cases e : i + 1 < numS T
    · rw [if_pos e] at li
      have hu := PA_up e
      have hend := (sub_get (P := PA T) (m := numS T) (j := PA T (i + 1) - PA T i + 2) (i := j) (by omega) : _ ∧ PA T j + (PA T (i + 1) - PA T i + 2) < T.length).2
      rw [sless_shift (PA T (i + 1) - PA T i) (by omega) (by omega) (fun x hx => hag x (by omega)),
        show PA T i + (PA T (i + 1) - PA T i) = PA T (i + 1) by omega]
      have c0 := hag (PA T (i + 1) - PA T i) (by omega)
      have c1 := hag (PA T (i + 1) - PA T i + 1) (by omega)
      rw [show PA T i + (PA T (i + 1) - PA T i) = PA T (i + 1) by omega] at c0
      rw [show PA T i + (PA T (i + 1) - PA T i + 1) = PA T (i + 1) + 1 by omega,
        show PA T j + (PA T (i + 1) - PA T i + 1) = PA T j + (PA T (i + 1) - PA T i) + 1 by omega] at c1
      have hst := (PA_spec e).1
      have hlt := Bs_ch hst
      have hqS : isS T (PA T j + (PA T (i + 1) - PA T i)) := (isS_iff (by omega)).mpr (Or.inl (by omega))
      have hqn : ¬ isBs T (PA T j + (PA T (i + 1) - PA T i)) := by
        intro hb
        have hg := PA_gap hj hb (by omega)
        rw [if_pos hg.1] at lj
        omega
      have hq1 : isS T (PA T j + (PA T (i + 1) - PA T i) + 1) := by
        rcases S_cases hqS with a | a
        · exact absurd a hqn
        · exact a.2
      exact (sless_step hst.1.1 hqS.1).mpr (Or.inr ⟨c0, L_lt_S hst.2 hq1 c1⟩)
    · rw [if_neg e] at li
      have hend := (sub_get (P := PA T) (m := numS T) (j := T.length - PA T i) (i := j) (by omega) : _ ∧ PA T j + (T.length - PA T i) < T.length).2
      rw [sless_shift (T.length - PA T i) (by omega) (by omega) (fun x hx => hag x (by omega)),
        show PA T i + (T.length - PA T i) = T.length by omega]
      exact sless_end hend
  rcases h with h | ⟨h, hl, hnl⟩
  · rw [List.lt_iff_exists] at h
    rcases h with ⟨h1, h2⟩ | ⟨d, h1, h2, h3, h4⟩
    · apply key _ h2
      intro x hx
      have a := (sub_get (i := i) hx).1
      have b := (sub_get (i := j) (show x < (sub T (PA T) (numS T) j).length by omega)).1
      rw [h1, List.getElem?_take, if_pos hx, b] at a
      exact (Option.some.inj a).symm
    · have a := sub_get (i := i) h1
      have b := sub_get (i := j) h2
      apply sless_mismatch (d := d) _ a.2 b.2
      · rw [List.getElem?_eq_getElem h1] at a
        rw [List.getElem?_eq_getElem h2] at b
        rw [← Option.some.inj a.1, ← Option.some.inj b.1]
        exact h4
      · intro x hx
        have a' := (sub_get (i := i) (show x < (sub T (PA T) (numS T) i).length by omega)).1
        have b' := (sub_get (i := j) (show x < (sub T (PA T) (numS T) j).length by omega)).1
        rw [List.getElem?_eq_getElem] at a' b'
        rw [← Option.some.inj a', ← Option.some.inj b']
        exact h3 x hx
  · rw [if_neg (by omega)] at li
    rw [if_pos (by omega)] at lj
    have hu := PA_up (T := T) (i := j) (by omega)
    have hl2 : (sub T (PA T) (numS T) i).length = (sub T (PA T) (numS T) j).length := by rw [h]
    have hne : PA T i ≠ PA T j := by
      intro e
      have a := (PA_spec hi).2
      have b := (PA_spec hj).2
      rw [e] at a
      omega
    have hag : ∀ x, x < T.length - PA T i → ch T (PA T i + x) = ch T (PA T j + x) := by
      intro x hx
      have a' := (sub_get (i := i) (show x < (sub T (PA T) (numS T) i).length by omega)).1
      have b' := (sub_get (i := j) (show x < (sub T (PA T) (numS T) j).length by omega)).1
      rw [h, b'] at a'
      exact (Option.some.inj a').symm
    rw [sless_shift (T.length - PA T i) (by omega) (by omega) hag, show PA T i + (T.length - PA T i) = T.length by omega]
    exact sless_end (by omega)

theorem same_step {i j : Nat} (hi : i < numS T) (hj : j < numS T) (h : same T (PA T) (numS T) i j) :
    i + 1 < numS T ∧ j + 1 < numS T ∧ (sless T (PA T i) (PA T j) ↔ sless T (PA T (i + 1)) (PA T (j + 1))) := by
  obtain ⟨h1, h2, h3⟩ := h
  have hi1 : i + 1 < numS T := by omega
  have hj1 : j + 1 < numS T := by omega
  refine ⟨hi1, hj1, ?_⟩
  have li := len_sub hi
  have lj := len_sub hj
  rw [if_pos hi1] at li
  rw [if_pos hj1] at lj
  have ui := PA_up hi1
  have uj := PA_up hj1
  have hl : (sub T (PA T) (numS T) i).length = (sub T (PA T) (numS T) j).length := by rw [h1]
  rw [sless_shift (PA T (i + 1) - PA T i) (by omega) (by omega) (by
      intro x hx
      have a' := (sub_get (i := i) (show x < (sub T (PA T) (numS T) i).length by omega)).1
      have b' := (sub_get (i := j) (show x < (sub T (PA T) (numS T) j).length by omega)).1
      rw [h1, b'] at a'
      exact (Option.some.inj a').symm),
    show PA T i + (PA T (i + 1) - PA T i) = PA T (i + 1) by omega,
    show PA T j + (PA T (i + 1) - PA T i) = PA T (j + 1) by omega]

/-- The suffixes of the sequence of ranks are in the order of the B* suffixes. -/
theorem ranks_sless {rs : List Nat} (hlen : rs.length = numS T)
    (hlt : ∀ i j, i < numS T → j < numS T → ch rs i < ch rs j → before T (PA T) (numS T) i j)
    (heq : ∀ i j, i < numS T → j < numS T → i ≠ j → ch rs i = ch rs j → same T (PA T) (numS T) i j) {i j : Nat} (hi : i < numS T) (hj : j < numS T) :
    sless rs i j ↔ sless T (PA T i) (PA T j) := by
  suffices H : ∀ d i j, numS T - i ≤ d → i < numS T → j < numS T → (sless rs i j ↔ sless T (PA T i) (PA T j)) from
    H _ i j (Nat.le_refl _) hi hj
  intro d
  induction d with
  | zero => intro i j hd hi; omega
  | succ d ih =>
    intro i j hd hi hj
    rcases Nat.lt_trichotomy (ch rs i) (ch rs j) with h | h | h
    · exact ⟨fun _ => before_sless hi hj (hlt i j hi hj h), fun _ => (sless_step (by omega) (by omega)).mpr (Or.inl h)⟩
    · by_cases e : i = j
      · subst e
        exact ⟨fun a => (sless_irrefl _ a).elim, fun a => (sless_irrefl _ a).elim⟩
      · obtain ⟨h1, h2, h3⟩ := same_step hi hj (heq i j hi hj e h)
        rw [h3, sless_step (by omega) (by omega), ← ih (i + 1) (j + 1) (by omega) h1 h2]
        constructor
        · rintro (a | a)
          · omega
          · exact a.2
        · intro a; exact Or.inr ⟨h, a⟩
    · have := before_sless hj hi (hlt j i hj hi h)
      constructor
      · intro a
        rcases (sless_step (by omega) (by omega)).mp a with b | b <;> omega
      · intro a; exact (sless_irrefl _ (sless_trans a this)).elim

theorem cnt_stars (Q : Nat → Prop) : cnt T.length (fun q => isBs T q ∧ Q q) = cnt (numS T) (fun j => Q (PA T j)) := by
  suffices H : ∀ p, p ≤ T.length → cnt p (fun q => isBs T q ∧ Q q) = cnt (idx T p) (fun j => Q (PA T j)) by
    rw [← idx_all]; exact H _ (Nat.le_refl _)
  intro p
  induction p with
  | zero => intro _; rw [idx_zero]; rfl
  | succ p ih =>
    intro hp
    rw [cnt_succ, ih (by omega), idx_succ (by omega)]
    by_cases hb : isBs T p
    · rw [if_pos hb, cnt_succ, PA_idx hb]
      congr 1
      by_cases hq : Q p
      · rw [if_pos hq, if_pos ⟨hb, hq⟩]
      · rw [if_neg hq, if_neg (fun a => hq a.2)]
    · rw [if_neg hb, if_neg (fun a => hb a.1)]
      rfl

theorem row_ranks {rs : List Nat} (hlen : rs.length = numS T)
    (hlt : ∀ i j, i < numS T → j < numS T → ch rs i < ch rs j → before T (PA T) (numS T) i j)
    (heq : ∀ i j, i < numS T → j < numS T → i ≠ j → ch rs i = ch rs j → same T (PA T) (numS T) i j) {i : Nat} (hi : i < numS T) :
    row rs i = rkS T (PA T i) := by
  unfold row rkS
  rw [hlen, cnt_stars (fun q => sless T q (PA T i))]
  exact cnt_congr (fun j hj => ranks_sless hlen hlt heq hj hi)

end Bwtc.Divsuf
