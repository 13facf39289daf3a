import Verif.SsInplace

/-!
# `ss_swapmerge` merges: the steps
-/

set_option autoImplicit false

namespace Bwtc.Ss
open Sais (put inv put_spec inv_inv bind_some')
open Divsuf (getI dec sub)
open Suffix

variable {T : List Nat} {P : Nat → Nat} {m pa : Nat} {W : List Nat}

theorem Steps.le {K : Nat → List Nat} {a b : Nat} {f : Nat → Int} (h : Steps K a b f) {r s : Nat} (hr : a ≤ r) (hrs : r ≤ s) (hs : s < b) :
    K (dec (f r)) < K (dec (f s)) ∨ K (dec (f r)) = K (dec (f s)) := by
  induction s with
  | zero => have : r = 0 := by omega
            subst this; exact Or.inr rfl
  | succ s ih =>
    by_cases hrs' : r = s + 1
    · subst hrs'; exact Or.inr rfl
    · have h1 := ih (by omega) (by omega)
      have h2 : K (dec (f s)) < K (dec (f (s + 1))) ∨ K (dec (f s)) = K (dec (f (s + 1))) := by
        rcases h s (by omega) hs with h3 | h3
        · exact Or.inl h3.2
        · exact Or.inr h3.2
      rcases h2 with h2 | h2
      · exact Or.inl (lt_of_le_lt h1 h2)
      · rw [← h2]; exact h1

theorem Merged.extend {K : Nat → List Nat} {J : Int → Prop} {first last buf n N : Nat} {sa sa' : List Int} (h : Merged K J first last buf n sa sa') (hn : n ≤ N) (hl : last ≤ buf) :
    Merged K J first last buf N sa sa' := by
  refine ⟨h.len, fun r h1 h2 => h.off r h1 (by omega), h.perm, h.srt, ?_, ?_⟩
  · exact h.bperm.extend (Nat.le_refl _) (by omega) (by omega) (fun r h1 h2 h3 => by rw [h.off r (by omega) h3])
  · intro hJ r h1 h2
    by_cases h3 : r < buf + n
    · exact h.bj (fun r h4 h5 => hJ r h4 (by omega)) r h1 h3
    · rw [h.off r (by omega) (by omega)]; exact hJ r h1 h2

/-- The cell is marked if its key is that of the cell before it, and not marked otherwise. -/
def Mark (K : Nat → List Nat) (sa : List Int) (i : Nat) : Prop :=
  (K (dec (cel sa (i - 1))) = K (dec (cel sa i)) ∧ cel sa i < 0) ∨ (K (dec (cel sa (i - 1))) ≠ K (dec (cel sa i)) ∧ 0 ≤ cel sa i)

theorem Mark.congr {K : Nat → List Nat} {sa sa' : List Int} {i : Nat} (h : Mark K sa i) (h1 : dec (cel sa' (i - 1)) = dec (cel sa (i - 1))) (h2 : cel sa' i = cel sa i) : Mark K sa' i := by
  unfold Mark at h ⊢; rw [h1, h2]; exact h

theorem Mark.stp {K : Nat → List Nat} {sa : List Int} {i : Nat} (h : Mark K sa i) (h1 : ¬ K (dec (cel sa i)) < K (dec (cel sa (i - 1)))) : Stp K (cel sa (i - 1)) (cel sa i) := by
  rcases h with h | h
  · exact Or.inr ⟨h.2, h.1⟩
  · refine Or.inl ⟨h.2, ?_⟩
    rcases list_total (K (dec (cel sa (i - 1)))) (K (dec (cel sa i))) with h2 | h2 | h2
    · exact h2
    · exact absurd h2 h.1
    · exact absurd h2 h1

theorem eqPrev_spec {sa : List Int} {i : Nat} (hE : Env T P m pa sa) (h1 : 0 < i) (h2 : i < sa.length) (hp : Good T P m W (dec (cel sa (i - 1))))
    (hi : Good T P m W (dec (cel sa i))) (h0 : 0 ≤ cel sa i) :
    ∃ e, eqPrev T pa W.length sa i = some e ∧ (e = true ↔ sub T P m (dec (cel sa (i - 1))) = sub T P m (dec (cel sa i))) := by
  unfold eqPrev
  rw [if_neg (by omega), bind_some' (get_cel (by omega)), bind_some' (get_cel h2), idx_eq]
  obtain ⟨r, e, hr⟩ := hE.compare hp hi
  rw [← nat_of h0] at e
  rw [bind_some' e]
  refine ⟨decide (r = 0), rfl, ?_⟩
  rw [decide_eq_true_iff]
  constructor
  · exact hr.eq
  · intro h
    rcases Int.lt_trichotomy r 0 with h3 | h3 | h3
    · have := hr.lt h3; rw [h] at this; exact absurd this (List.lt_irrefl _)
    · exact h3
    · have := hr.gt h3; rw [h] at this; exact absurd this (List.lt_irrefl _)

theorem markIf_spec {sa : List Int} {i : Nat} (hE : Env T P m pa sa) (h1 : 0 < i) (h2 : i < sa.length) (hp : Good T P m W (dec (cel sa (i - 1))))
    (hi : Good T P m W (dec (cel sa i))) (h0 : 0 ≤ cel sa i) :
    ∃ e sa', eqPrev T pa W.length sa i = some e ∧ (if e then flip sa i else some sa) = some sa' ∧ sa'.length = sa.length ∧ (∀ j, j ≠ i → cel sa' j = cel sa j) ∧
      dec (cel sa' i) = dec (cel sa i) ∧ Mark (sub T P m) sa' i := by
  obtain ⟨e, k1, k2⟩ := eqPrev_spec hE h1 h2 hp hi h0
  cases e with
  | true =>
    have e1 : cel (sa.set i (inv (cel sa i))) i = inv (cel sa i) := cel_set_self h2 _
    refine ⟨true, _, k1, by rw [if_pos rfl]; exact flip_spec h2, by simp, fun j hj => cel_set_ne _ hj, by rw [e1, dec_inv], Or.inl ⟨?_, by rw [e1]; exact (inv_neg_iff _).2 h0⟩⟩
    rw [e1, dec_inv, cel_set_ne _ (by omega)]; exact k2.1 rfl
  | false =>
    exact ⟨false, sa, k1, rfl, rfl, fun _ _ => rfl, rfl, Or.inr ⟨fun h => by simpa using k2.2 h, h0⟩⟩

/-- The state of a frame before it is merged; `F` and `E` are the ends of the whole range. -/
structure Pre (T : List Nat) (P : Nat → Nat) (m pa : Nat) (W : List Nat) (F E : Nat) (f : MFrame) (sa : List Int) : Prop where
  lo : F ≤ f.first
  le1 : f.first ≤ f.middle
  le2 : f.middle ≤ f.last
  ne : f.first < f.last
  hi : f.last ≤ E
  env : Env T P m pa sa
  size : pa ≤ sa.length
  good : ∀ r, F ≤ r → r < E → Good T P m W (dec (cel sa r))
  left : Steps (sub T P m) f.first f.middle (cel sa)
  right : Srt (sub T P m) f.middle f.last (cel sa)
  neg : cel sa f.first < 0 → f.middle = f.last ∧ f.check.one = false ∧ f.check.two = false
  prev : f.check.two = true → F < f.first
  next : f.check.four = true → f.last < E ∧ 0 ≤ cel sa f.last

/-- What is done to a frame. -/
structure Post (K : Nat → List Nat) (J : Int → Prop) (buf N : Nat) (f : MFrame) (sa sa' : List Int) : Prop where
  len : sa'.length = sa.length
  off : ∀ r, r < f.first ∨ f.last ≤ r → r < buf ∨ buf + N ≤ r → (f.check.four = true → r ≠ f.last) → cel sa' r = cel sa r
  perm : Perm f.first f.last (cel sa) (cel sa')
  steps : Steps K f.first f.last (cel sa')
  head1 : f.check.one = true → cel sa' f.first < 0
  head2 : f.check.one = false → f.check.two = true → Mark K sa' f.first
  head3 : f.check.one = false → f.check.two = false → (0 ≤ cel sa f.first → 0 ≤ cel sa' f.first) ∧ (cel sa f.first < 0 → cel sa' f.first = cel sa f.first)
  last : f.check.four = true → dec (cel sa' f.last) = dec (cel sa f.last) ∧ Mark K sa' f.last
  bperm : Perm buf (buf + N) (cel sa) (cel sa')
  bj : (∀ r, buf ≤ r → r < buf + N → J (cel sa r)) → ∀ r, buf ≤ r → r < buf + N → J (cel sa' r)

/-- What is done to a frame before the checks. -/
structure Half (K : Nat → List Nat) (J : Int → Prop) (buf N : Nat) (f : MFrame) (sa sa' : List Int) : Prop where
  len : sa'.length = sa.length
  off : ∀ r, r < f.first ∨ f.last ≤ r → r < buf ∨ buf + N ≤ r → cel sa' r = cel sa r
  perm : Perm f.first f.last (cel sa) (cel sa')
  steps : Steps K f.first f.last (cel sa')
  head : (0 ≤ cel sa f.first → 0 ≤ cel sa' f.first) ∧ (cel sa f.first < 0 → cel sa' f.first = cel sa f.first)
  bperm : Perm buf (buf + N) (cel sa) (cel sa')
  bj : (∀ r, buf ≤ r → r < buf + N → J (cel sa r)) → ∀ r, buf ≤ r → r < buf + N → J (cel sa' r)

variable {F E buf N : Nat} {J : Int → Prop}

theorem checkA_spec {f : MFrame} {sa : List Int} (hE : Env T P m pa sa) (hl : f.first < sa.length)
    (hg : Good T P m W (dec (cel sa f.first))) (hp : f.check.two = true → 0 < f.first ∧ Good T P m W (dec (cel sa (f.first - 1))))
    (h0 : f.check.one = true ∨ f.check.two = true → 0 ≤ cel sa f.first) :
    ∃ sa', checkA T pa W.length sa f.first f.check = some sa' ∧ sa'.length = sa.length ∧ (∀ j, j ≠ f.first → cel sa' j = cel sa j) ∧
      dec (cel sa' f.first) = dec (cel sa f.first) ∧ (f.check.one = true → cel sa' f.first < 0) ∧
      (f.check.one = false → f.check.two = true → Mark (sub T P m) sa' f.first) ∧ (f.check.one = false → f.check.two = false → sa' = sa) := by
  unfold checkA
  by_cases h1 : f.check.one = true
  · rw [if_pos h1]
    have e1 : cel (sa.set f.first (inv (cel sa f.first))) f.first = inv (cel sa f.first) := cel_set_self hl _
    refine ⟨_, flip_spec hl, by simp, fun j hj => cel_set_ne _ hj, by rw [e1, dec_inv], fun _ => by rw [e1]; exact (inv_neg_iff _).2 (h0 (Or.inl h1)), ?_, ?_⟩
    · intro h; rw [h1] at h; simp at h
    · intro h; rw [h1] at h; simp at h
  · rw [if_neg h1]
    by_cases h2 : f.check.two = true
    · rw [if_pos h2]
      obtain ⟨e, sa', k1, k2, k3, k4, k5, k6⟩ := markIf_spec hE (hp h2).1 hl (hp h2).2 hg (h0 (Or.inr h2))
      rw [bind_some' k1]
      refine ⟨sa', k2, k3, k4, k5, fun h => absurd h h1, fun _ _ => k6, fun _ h => ?_⟩
      rw [h2] at h; simp at h
    · rw [if_neg h2]
      exact ⟨sa, rfl, rfl, fun _ _ => rfl, rfl, fun h => absurd h h1, fun _ h => absurd h h2, fun _ _ => rfl⟩

theorem swapDone_spec {f : MFrame} {sa sa2 : List Int} (st : List MFrame) (hb : E ≤ buf) (hN : buf + N ≤ pa) (h : Pre T P m pa W F E f sa) (h2 : Half (sub T P m) J buf N f sa sa2) :
    ∃ sa', swapDone T pa W.length sa2 st f = some (sa', pop st) ∧ Post (sub T P m) J buf N f sa sa' := by
  have hlo := h.lo
  have hne := h.ne
  have hhi := h.hi
  have hsz := h.size
  have hlen := h2.len
  have hoff2 : ∀ r, r < f.first ∨ f.last ≤ r → r < E → cel sa2 r = cel sa r := fun r h3 h4 => h2.off r h3 (by omega)
  have hg2 : ∀ r, F ≤ r → r < E → Good T P m W (dec (cel sa2 r)) := by
    intro r h3 h4
    by_cases h5 : f.first ≤ r ∧ r < f.last
    · exact h2.perm.all (Q := Good T P m W) (fun r h6 h7 => h.good r (by omega) (by omega)) r h5.1 h5.2
    · rw [hoff2 r (by omega) h4]; exact h.good r h3 h4
  have hE2 : Env T P m pa sa2 := h.env.frame hlen (fun r hr => h2.off r (by omega) (by omega))
  obtain ⟨sa3, e3, k1, k2, k3, k4, k5, k6⟩ := checkA_spec (f := f) (W := W) hE2 (by omega) (hg2 _ hlo (by omega))
    (fun h3 => by have := h.prev h3; exact ⟨by omega, hg2 _ (by omega) (by omega)⟩) (fun h3 => by
      apply h2.head.1
      by_cases h4 : 0 ≤ cel sa f.first
      · exact h4
      · have := h.neg (by omega)
        rw [this.2.1, this.2.2] at h3; simp at h3)
  have hd3 : ∀ j, dec (cel sa3 j) = dec (cel sa2 j) := fun j => by
    by_cases hj : j = f.first
    · rw [hj]; exact k3
    · rw [k2 j hj]
  have hE3 : Env T P m pa sa3 := hE2.frame k1 (fun r hr => k2 r (by omega))
  have hstep3 : Steps (sub T P m) f.first f.last (cel sa3) := by
    intro r h3 h4
    rw [k2 (r + 1) (by omega)]
    exact stp_congr (h2.steps r h3 h4) (hd3 r)
  have key : ∀ sa', sa'.length = sa3.length → (∀ j, (f.check.four = true → j ≠ f.last) → cel sa' j = cel sa3 j) →
      (f.check.four = true → dec (cel sa' f.last) = dec (cel sa3 f.last) ∧ Mark (sub T P m) sa' f.last) → Post (sub T P m) J buf N f sa sa' := by
    intro sa' q1 q2 q3
    have q4 : ∀ j, j ≠ f.last → cel sa' j = cel sa3 j := fun j hj => q2 j (fun _ => hj)
    have qb : ∀ r, buf ≤ r → cel sa' r = cel sa2 r := fun r hr => by
      rw [q2 r (fun h4 => by have := (h.next h4).1; omega), k2 r (by omega)]
    refine ⟨by omega, ?_, ?_, ?_, ?_, ?_, ?_, ?_, ?_, ?_⟩
    · intro r h3 h4 h5
      rw [q2 r h5, k2 r (by omega), h2.off r h3 h4]
    · exact h2.perm.trans (Perm.congr (fun r h3 h4 => by rw [q4 r (by omega), hd3 r]))
    · intro r h3 h4
      rw [q4 r (by omega), q4 (r + 1) (by omega)]; exact hstep3 r h3 h4
    · intro h3
      rw [q4 _ (by omega)]; exact k4 h3
    · intro h3 h4
      have := h.prev h4
      exact (k5 h3 h4).congr (by rw [q4 _ (by omega)]) (q4 _ (by omega))
    · intro h3 h4
      rw [q4 _ (by omega), k6 h3 h4]
      exact h2.head
    · intro h3
      obtain ⟨q5, q6⟩ := q3 h3
      refine ⟨?_, q6⟩
      rw [q5, k2 _ (by omega), hoff2 _ (by omega) (h.next h3).1]
    · exact h2.bperm.trans (Perm.congr (fun r h3 h4 => by rw [qb r h3]))
    · intro hJ r h3 h4
      rw [qb r h3]; exact h2.bj hJ r h3 h4
  unfold swapDone
  rw [bind_some' e3]
  unfold checkB
  by_cases h4 : f.check.four = true
  · rw [if_pos h4]
    obtain ⟨h5, h6⟩ := h.next h4
    obtain ⟨e, sa', q1, q2, q3, q4, q5, q6⟩ := markIf_spec (W := W) (sa := sa3) (i := f.last) hE3 (by omega) (by omega) (by rw [hd3]; exact hg2 _ (by omega) (by omega))
      (by rw [hd3]; exact hg2 _ (by omega) (by omega)) (by rw [k2 _ (by omega), hoff2 _ (by omega) h5]; exact h6)
    refine ⟨sa', ?_, key sa' q3 (fun j hj => q4 j (hj h4)) (fun _ => ⟨q5, q6⟩)⟩
    have : (do let e ← eqPrev T pa W.length sa3 f.last; if e = true then flip sa3 f.last else return sa3) = some sa' := by
      rw [bind_some' q1]; exact q2
    rw [bind_some' this]; rfl
  · rw [if_neg h4]
    exact ⟨sa3, rfl, key sa3 rfl (fun _ _ => rfl) (fun h => absurd h h4)⟩

/-- A merge that needs no division. -/
theorem swapDirect_spec {f : MFrame} {sa : List Int} (hb : E ≤ buf) (hN : buf + N ≤ pa) (h : Pre T P m pa W F E f sa) (hs : f.last - f.middle ≤ N ∨ f.middle - f.first ≤ N) :
    ∃ sa2, swapDirect T pa W.length buf N sa f = some sa2 ∧ Half (sub T P m) J buf N f sa sa2 := by
  have hlo := h.lo
  have hle1 := h.le1
  have hle2 := h.le2
  have hhi := h.hi
  have same : f.first = f.middle ∨ f.middle = f.last → Half (sub T P m) J buf N f sa sa := by
    intro h1
    refine ⟨rfl, fun _ _ _ => rfl, Perm.refl _ _ _, ?_, ⟨fun h => h, fun _ => rfl⟩, Perm.refl _ _ _, fun h => h⟩
    rcases h1 with h1 | h1
    · rw [h1]; exact h.right.step
    · rw [← h1]; exact h.left
  have of : ∀ n sa2, n ≤ N → f.first < f.middle → f.middle < f.last → Merged (sub T P m) J f.first f.last buf n sa sa2 → Half (sub T P m) J buf N f sa sa2 := by
    intro n sa2 hn h1 h2 M
    have M := M.extend hn (by omega)
    refine ⟨M.len, M.off, M.perm, M.srt.step, ⟨fun _ => M.srt.first (by omega), fun h3 => ?_⟩, M.bperm, M.bj⟩
    have := h.neg h3; omega
  have left : f.middle < f.last → Srt (sub T P m) f.first f.middle (cel sa) := by
    intro h1
    refine ⟨fun h2 => ?_, h.left⟩
    by_cases h3 : 0 ≤ cel sa f.first
    · exact h3
    · have := h.neg (by omega); omega
  have hg : ∀ r, f.first ≤ r → r < f.last → Good T P m W (dec (cel sa r)) := fun r h1 h2 => h.good r (by omega) (by omega)
  unfold swapDirect
  by_cases h1 : f.last - f.middle ≤ N
  · rw [if_pos h1]
    by_cases h2 : f.first < f.middle ∧ f.middle < f.last
    · rw [if_pos h2]
      obtain ⟨sa2, e, M⟩ := mergebackward_spec (buf := buf) J h.env h.size h2.1 h2.2 (by omega) (by omega) (left h2.2) h.right hg
      exact ⟨sa2, e, of _ sa2 h1 h2.1 h2.2 M⟩
    · rw [if_neg h2]
      exact ⟨sa, rfl, same (by omega)⟩
  · rw [if_neg h1]
    by_cases h2 : f.first < f.middle
    · rw [if_pos h2]
      obtain ⟨sa2, e, M⟩ := mergeforward_spec (buf := buf) J h.env h.size h2 (by omega) (by omega) (by omega) (left (by omega)) h.right hg
      exact ⟨sa2, e, of _ sa2 (by omega) h2 (by omega) M⟩
    · rw [if_neg h2]
      exact ⟨sa, rfl, same (by omega)⟩

/-- The search for the place of the division. -/
theorem swapSearch_spec {sa : List Int} {middle D first last : Nat} (hE : Env T P m pa sa) (hl : last ≤ sa.length) (hD1 : first + D ≤ middle) (hD2 : middle + D ≤ last)
    (hg : ∀ r, first ≤ r → r < last → Good T P m W (dec (cel sa r))) :
    ∀ (n d len : Nat), len ≤ n → d + len ≤ D → (0 < d → sub T P m (dec (cel sa (middle + d - 1))) < sub T P m (dec (cel sa (middle - d)))) →
      (d + len < D → ¬ sub T P m (dec (cel sa (middle + (d + len)))) < sub T P m (dec (cel sa (middle - (d + len) - 1)))) →
      ∃ d', swapSearch T pa W.length middle sa d len (len / 2) = some d' ∧ d' ≤ D ∧
        (0 < d' → sub T P m (dec (cel sa (middle + d' - 1))) < sub T P m (dec (cel sa (middle - d')))) ∧
        (d' < D → ¬ sub T P m (dec (cel sa (middle + d'))) < sub T P m (dec (cel sa (middle - d' - 1)))) := by
  intro n
  induction n with
  | zero =>
    intro d len h1 h2 h3 h4
    have : len = 0 := by omega
    subst this
    rw [swapSearch, if_neg (by omega)]
    exact ⟨d, rfl, h2, h3, h4⟩
  | succ n ih =>
    intro d len h1 h2 h3 h4
    rw [swapSearch]
    by_cases hl0 : 0 < len
    · rw [if_pos hl0, if_neg (by omega), bind_some' (get_cel (by omega)), bind_some' (get_cel (by omega)), idx_eq, idx_eq]
      obtain ⟨q, e, hq⟩ := hE.compare (i := dec (cel sa (middle + d + len / 2))) (j := dec (cel sa (middle - (d + len / 2 + 1)))) (W := W) (hg _ (by omega) (by omega)) (hg _ (by omega) (by omega))
      rw [bind_some' e]
      by_cases hq0 : q < 0
      · rw [if_pos hq0, if_neg (by omega)]
        have hlen : d + len / 2 + 1 + (len / 2 - if len % 2 = 1 then 0 else 1) = d + len := by
          split <;> omega
        refine ih (d + len / 2 + 1) (len / 2 - if len % 2 = 1 then 0 else 1) (by omega) (by omega) (fun _ => ?_) (by rw [hlen]; exact h4)
        rw [show middle + (d + len / 2 + 1) - 1 = middle + d + len / 2 by omega]
        exact hq.lt hq0
      · rw [if_neg hq0]
        refine ih d (len / 2) (by omega) (by omega) h3 (fun _ h5 => ?_)
        rw [show middle + (d + len / 2) = middle + d + len / 2 by omega, show middle - (d + len / 2) - 1 = middle - (d + len / 2 + 1) by omega] at h5
        rcases Int.lt_or_le 0 q with h6 | h6
        · exact absurd (List.lt_trans h5 (hq.gt h6)) (List.lt_irrefl _)
        · rw [hq.eq (by omega)] at h5; exact absurd h5 (List.lt_irrefl _)
    · rw [if_neg hl0]
      have : len = 0 := by omega
      subst this
      exact ⟨d, rfl, h2, h3, h4⟩

end Bwtc.Ss
