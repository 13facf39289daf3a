import Verif.SsSwap

/-!
# `ss_swapmerge` merges: the two parts of a division
-/

set_option autoImplicit false

namespace Bwtc.Ss
open Sais (put inv put_spec inv_inv bind_some')
open Divsuf (getI dec sub)
open Suffix

variable {T : List Nat} {P : Nat → Nat} {m pa : Nat} {W : List Nat} {F E buf N : Nat} {J : Int → Prop} {K : Nat → List Nat}

theorem le_of {x y : List Nat} (h : x < y ∨ x = y) : x ≤ y := List.le_iff_lt_or_eq.mpr h

theorem eq_of_le {x y : List Nat} (h : x ≤ y) (h' : y ≤ x) : x = y := by
  rcases List.le_iff_lt_or_eq.mp h with h1 | h1
  · exact absurd h1 h'
  · exact h1

theorem Perm.ex {a b : Nat} {f g : Nat → Int} (h : Perm a b f g) {x : Nat} (h1 : a ≤ x) (h2 : x < b) : ∃ y, a ≤ y ∧ y < b ∧ dec (g y) = dec (f x) := by
  have : 0 < occ f a b (dec (f x)) := (occ_pos f a b _).2 ⟨x, h1, h2, rfl⟩
  rw [h] at this
  exact (occ_pos g a b _).1 this

/-- What is done to the two parts of a frame, from `first` to `l` and from `r` to `last`; `c` is the check of the frame, `nx` is `next`. -/
structure Both (K : Nat → List Nat) (J : Int → Prop) (buf N first l r last : Nat) (c nx : Flags) (sa sa' : List Int) : Prop where
  len : sa'.length = sa.length
  off : ∀ j, j < first ∨ last ≤ j → j < buf ∨ buf + N ≤ j → (c.four = true → j ≠ last) → cel sa' j = cel sa j
  inn : ∀ j, l < j → j < r → cel sa' j = cel sa j
  permL : Perm first l (cel sa) (cel sa')
  permR : Perm r last (cel sa) (cel sa')
  stepsL : Steps K first l (cel sa')
  stepsR : Steps K r last (cel sa')
  head1 : c.one = true → cel sa' first < 0
  head2 : c.one = false → c.two = true → Mark K sa' first
  head3 : c.one = false → c.two = false → (0 ≤ cel sa first → 0 ≤ cel sa' first)
  last : c.four = true → dec (cel sa' last) = dec (cel sa last) ∧ Mark K sa' last
  atL : l < r → dec (cel sa' l) = dec (cel sa l) ∧ (nx.four = true → Mark K sa' l) ∧ (nx.four = false → cel sa' l = cel sa l)
  atR1 : nx.one = true → cel sa' r < 0
  atR2 : nx.one = false → nx.two = true → Mark K sa' r
  atR3 : nx.one = false → nx.two = false → (0 ≤ cel sa r → 0 ≤ cel sa' r) ∧ (cel sa r < 0 → cel sa' r = cel sa r)
  bperm : Perm buf (buf + N) (cel sa) (cel sa')
  bj : (∀ r, buf ≤ r → r < buf + N → J (cel sa r)) → ∀ r, buf ≤ r → r < buf + N → J (cel sa' r)

/-- A frame right of one that has been merged. -/
theorem pre_right {first lm l r rm last : Nat} {c1 c2 n4 : Bool} {c : Flags} {sa sa2 : List Int} (hb : E ≤ buf) (hN : buf + N ≤ pa)
    (hl : Pre T P m pa W F E ⟨first, lm, l, ⟨c1, c2, n4⟩⟩ sa) (hr : Pre T P m pa W F E ⟨r, rm, last, c⟩ sa) (h : Post (sub T P m) J buf N ⟨first, lm, l, ⟨c1, c2, n4⟩⟩ sa sa2)
    (hlr : l ≤ r) (h4 : n4 = true → l < r) : Pre T P m pa W F E ⟨r, rm, last, c⟩ sa2 := by
  have a1 : F ≤ first := hl.lo
  have a2 : first < l := hl.ne
  have b1 : r ≤ rm := hr.le1
  have b2 : rm ≤ last := hr.le2
  have b3 : r < last := hr.ne
  have b4 : last ≤ E := hr.hi
  have hoff : ∀ j, r ≤ j → j < E → cel sa2 j = cel sa j := fun j h1 h2 => h.off j (Or.inr (show l ≤ j by omega)) (Or.inl (by omega)) (fun h3 => by
    have h3' := h4 h3
    show j ≠ l
    omega)
  refine ⟨hr.lo, hr.le1, hr.le2, hr.ne, hr.hi, hl.env.frame h.len (fun j hj => ?_), by rw [h.len]; exact hl.size, ?_, ?_, ?_, ?_, hr.prev, ?_⟩
  · have := hl.size
    exact h.off j (Or.inr (show l ≤ j by omega)) (Or.inr (by omega)) (fun _ => show j ≠ l by omega)
  · intro j h1 h2
    by_cases h3 : first ≤ j ∧ j < l
    · exact h.perm.all (Q := Good T P m W) (fun r (h6 : first ≤ r) (h7 : r < l) => hl.good r (by omega) (by omega)) j h3.1 h3.2
    · by_cases h5 : n4 = true ∧ j = l
      · rw [h5.2, (h.last h5.1).1]; exact hl.good l (by omega) (by omega)
      · rw [h.off j (show j < first ∨ l ≤ j by omega) (by omega) (fun h6 h7 => h5 ⟨h6, h7⟩)]; exact hl.good j h1 h2
  · intro j (h1 : r ≤ j) (h2 : j + 1 < rm)
    rw [hoff j h1 (by omega), hoff (j + 1) (by omega) (by omega)]; exact hr.left j h1 h2
  · exact hr.right.congr (fun j (h1 : rm ≤ j) (h2 : j < last) => hoff j (by omega) (by omega))
  · intro (h1 : cel sa2 r < 0)
    rw [hoff r (Nat.le_refl _) (by omega)] at h1; exact hr.neg h1
  · intro h1
    obtain ⟨h2, h3⟩ := hr.next h1
    refine ⟨h2, ?_⟩
    show 0 ≤ cel sa2 last
    rw [hoff last (by omega) h2]; exact h3

/-- A frame left of one that has been merged. -/
theorem pre_left {first lm l r rm last : Nat} {c1 c2 n4 n4' : Bool} {c : Flags} {sa sa2 : List Int} (hb : E ≤ buf) (hN : buf + N ≤ pa)
    (hl : Pre T P m pa W F E ⟨first, lm, l, ⟨c1, c2, n4⟩⟩ sa) (hr : Pre T P m pa W F E ⟨r, rm, last, c⟩ sa) (h : Post (sub T P m) J buf N ⟨r, rm, last, c⟩ sa sa2)
    (hlr : l ≤ r) (h4 : n4' = true → l < E ∧ 0 ≤ cel sa2 l) : Pre T P m pa W F E ⟨first, lm, l, ⟨c1, c2, n4'⟩⟩ sa2 := by
  have a1 : F ≤ first := hl.lo
  have a2 : first < l := hl.ne
  have a3 : first ≤ lm := hl.le1
  have a4 : lm ≤ l := hl.le2
  have b3 : r < last := hr.ne
  have b4 : last ≤ E := hr.hi
  have b5 : F ≤ r := hr.lo
  have hoff : ∀ j, j < r → cel sa2 j = cel sa j := fun j h1 => h.off j (Or.inl h1) (Or.inl (by omega)) (fun _ => show j ≠ last by omega)
  refine ⟨hl.lo, hl.le1, hl.le2, hl.ne, hl.hi, hl.env.frame h.len (fun j hj => ?_), by rw [h.len]; exact hl.size, ?_, ?_, ?_, ?_, hl.prev, h4⟩
  · have := hl.size
    exact h.off j (Or.inr (show last ≤ j by omega)) (Or.inr (by omega)) (fun h5 => by
      have := (hr.next h5).1
      show j ≠ last
      have : last < E := this
      omega)
  · intro j h1 h2
    by_cases h3 : r ≤ j ∧ j < last
    · exact h.perm.all (Q := Good T P m W) (fun j (h6 : r ≤ j) (h7 : j < last) => hl.good j (by omega) (by omega)) j h3.1 h3.2
    · by_cases h5 : c.four = true ∧ j = last
      · have h6 : last < E := (hr.next h5.1).1
        have := (h.last h5.1).1
        rw [h5.2]
        show Good T P m W (dec (cel sa2 (MFrame.last ⟨r, rm, last, c⟩)))
        rw [this]; exact hl.good last (by omega) h6
      · rw [h.off j (show j < r ∨ last ≤ j by omega) (by omega) (fun h6 h7 => h5 ⟨h6, h7⟩)]; exact hl.good j h1 h2
  · intro j (h1 : first ≤ j) (h2 : j + 1 < lm)
    rw [hoff j (by omega), hoff (j + 1) (by omega)]; exact hl.left j h1 h2
  · exact hl.right.congr (fun j (h1 : lm ≤ j) (h2 : j < l) => hoff j (by omega))
  · intro (h1 : cel sa2 first < 0)
    rw [hoff first (by omega)] at h1; exact hl.neg h1

/-- The left part first. -/
theorem both_left {first lm l r rm last : Nat} {c nx : Flags} {sa sa2 sa3 : List Int} (hb : E ≤ buf)
    (hl : Pre T P m pa W F E ⟨first, lm, l, ⟨c.one, c.two, nx.four⟩⟩ sa) (hr : Pre T P m pa W F E ⟨r, rm, last, ⟨nx.one, nx.two, c.four⟩⟩ sa)
    (p : Post K J buf N ⟨first, lm, l, ⟨c.one, c.two, nx.four⟩⟩ sa sa2) (q : Post K J buf N ⟨r, rm, last, ⟨nx.one, nx.two, c.four⟩⟩ sa2 sa3)
    (hlr : l ≤ r) (h4 : nx.four = true → l < r) : Both K J buf N first l r last c nx sa sa3 := by
  have a1 : F ≤ first := hl.lo
  have a2 : first < l := hl.ne
  have b3 : r < last := hr.ne
  have b4 : last ≤ E := hr.hi
  have p1 : ∀ j, j < first ∨ l ≤ j → j < buf ∨ buf + N ≤ j → (nx.four = true → j ≠ l) → cel sa2 j = cel sa j := p.off
  have q1 : ∀ j, j < r ∨ last ≤ j → j < buf ∨ buf + N ≤ j → (c.four = true → j ≠ last) → cel sa3 j = cel sa2 j := q.off
  have qlow : ∀ j, j < r → cel sa3 j = cel sa2 j := fun j h1 => q1 j (Or.inl h1) (by omega) (fun _ => by omega)
  have phigh : ∀ j, r ≤ j → j < buf ∨ buf + N ≤ j → cel sa2 j = cel sa j := fun j h1 h2 => p1 j (by omega) h2 (fun h3 => by have := h4 h3; omega)
  refine ⟨by rw [q.len, p.len], ?_, ?_, ?_, ?_, ?_, q.steps, ?_, ?_, ?_, ?_, ?_, q.head1, q.head2, ?_, p.bperm.trans q.bperm, fun h => q.bj (p.bj h)⟩
  · intro j h1 h2 h3
    rw [q1 j (by omega) h2 h3, p1 j (by omega) h2 (fun h5 => by have := h4 h5; omega)]
  · intro j h1 h2
    rw [qlow j h2, p1 j (by omega) (by omega) (fun _ => by omega)]
  · exact Perm.trans p.perm (Perm.congr (fun j (_ : first ≤ j) (h2 : j < l) => by rw [qlow j (by omega)]))
  · exact Perm.trans (Perm.congr (fun j (h1 : r ≤ j) (h2 : j < last) => by rw [phigh j h1 (by omega)])) q.perm
  · intro j h1 h2
    rw [qlow j (by omega), qlow (j + 1) (by omega)]; exact p.steps j h1 h2
  · intro h1
    rw [qlow first (by omega)]; exact p.head1 h1
  · intro h1 h2
    exact (p.head2 h1 h2).congr (by rw [qlow _ (show first - 1 < r by omega)]) (qlow first (by omega))
  · intro h1 h2 h3
    rw [qlow first (by omega)]; exact (p.head3 h1 h2).1 h3
  · intro h1
    have : dec (cel sa3 last) = dec (cel sa2 last) := (q.last h1).1
    have h6 : last < E := (hr.next h1).1
    rw [phigh last (by omega) (by omega)] at this
    exact ⟨this, (q.last h1).2⟩
  · intro h1
    refine ⟨?_, fun h2 => ?_, fun h2 => ?_⟩
    · rw [qlow l h1]
      by_cases h2 : nx.four = true
      · exact (p.last h2).1
      · rw [p1 l (by omega) (by omega) (fun h3 => absurd h3 h2)]
    · exact Mark.congr (p.last h2).2 (by rw [qlow _ (show l - 1 < r by omega)]) (qlow l h1)
    · rw [qlow l h1, p1 l (by omega) (by omega) (fun h3 => by rw [h2] at h3; simp at h3)]
  · intro h1 h2
    have : (0 ≤ cel sa2 r → 0 ≤ cel sa3 r) ∧ (cel sa2 r < 0 → cel sa3 r = cel sa2 r) := q.head3 h1 h2
    rw [phigh r (Nat.le_refl _) (by omega)] at this
    exact this

/-- The right part first. -/
theorem both_right {first lm l r rm last : Nat} {c nx : Flags} {sa sa2 sa3 : List Int} (hb : E ≤ buf)
    (hl : Pre T P m pa W F E ⟨first, lm, l, ⟨c.one, c.two, nx.four⟩⟩ sa) (hr : Pre T P m pa W F E ⟨r, rm, last, ⟨nx.one, nx.two, c.four⟩⟩ sa)
    (p : Post K J buf N ⟨r, rm, last, ⟨nx.one, nx.two, c.four⟩⟩ sa sa2) (q : Post K J buf N ⟨first, lm, l, ⟨c.one, c.two, nx.four⟩⟩ sa2 sa3)
    (hlr : l ≤ r) (h4 : nx.four = true → l < r) (h2' : nx.two = true → l < r) : Both K J buf N first l r last c nx sa sa3 := by
  have a1 : F ≤ first := hl.lo
  have a2 : first < l := hl.ne
  have b3 : r < last := hr.ne
  have b4 : last ≤ E := hr.hi
  have q1 : ∀ j, j < first ∨ l ≤ j → j < buf ∨ buf + N ≤ j → (nx.four = true → j ≠ l) → cel sa3 j = cel sa2 j := q.off
  have p1 : ∀ j, j < r ∨ last ≤ j → j < buf ∨ buf + N ≤ j → (c.four = true → j ≠ last) → cel sa2 j = cel sa j := p.off
  have plow : ∀ j, j < r → cel sa2 j = cel sa j := fun j h1 => p1 j (Or.inl h1) (by omega) (fun _ => by omega)
  have qhigh : ∀ j, r ≤ j → j < buf ∨ buf + N ≤ j → cel sa3 j = cel sa2 j := fun j h1 h2 => q1 j (by omega) h2 (fun h3 => by have := h4 h3; omega)
  have qdec : ∀ j, l ≤ j → j < buf → dec (cel sa3 j) = dec (cel sa2 j) := fun j h1 h2 => by
    by_cases h3 : nx.four = true ∧ j = l
    · rw [h3.2]; exact (q.last h3.1).1
    · rw [q1 j (by omega) (by omega) (fun h5 h6 => h3 ⟨h5, h6⟩)]
  refine ⟨by rw [q.len, p.len], ?_, ?_, ?_, ?_, q.steps, ?_, q.head1, q.head2, ?_, ?_, ?_, ?_, ?_, ?_, p.bperm.trans q.bperm, fun h => q.bj (p.bj h)⟩
  · intro j h1 h2 h3
    rw [q1 j (by omega) h2 (fun h5 => by have := h4 h5; omega), p1 j (by omega) h2 h3]
  · intro j h1 h2
    rw [q1 j (by omega) (by omega) (fun _ => by omega), plow j h2]
  · exact Perm.trans (Perm.congr (fun j (_ : first ≤ j) (h2 : j < l) => by rw [plow j (by omega)])) q.perm
  · exact Perm.trans p.perm (Perm.congr (fun j (h1 : r ≤ j) (h2 : j < last) => by rw [qhigh j h1 (by omega)]))
  · intro j h1 h2
    rw [qhigh j h1 (by omega), qhigh (j + 1) (by omega) (by omega)]; exact p.steps j h1 h2
  · intro h1 h2 h3
    have : (0 ≤ cel sa2 first → 0 ≤ cel sa3 first) ∧ _ := q.head3 h1 h2
    rw [plow first (by omega)] at this
    exact this.1 h3
  · intro h1
    have h6 : last < E := (hr.next h1).1
    have h7 := qhigh last (by omega) (by omega)
    refine ⟨by rw [h7]; exact (p.last h1).1, Mark.congr (p.last h1).2 ?_ h7⟩
    exact qdec _ (show l ≤ last - 1 by omega) (show last - 1 < buf by omega)
  · intro h1
    refine ⟨?_, fun h2 => (q.last h2).2, fun h2 => ?_⟩
    · rw [qdec l (Nat.le_refl _) (by omega), plow l h1]
    · rw [q1 l (by omega) (by omega) (fun h3 => by rw [h2] at h3; simp at h3), plow l h1]
  · intro h1
    rw [qhigh r (Nat.le_refl _) (by omega)]; exact p.head1 h1
  · intro h1 h2
    have h3 := h2' h2
    exact (p.head2 h1 h2).congr (qdec _ (show l ≤ r - 1 by omega) (show r - 1 < buf by omega)) (qhigh r (Nat.le_refl _) (by omega))
  · intro h1 h2
    rw [qhigh r (Nat.le_refl _) (by omega)]; exact p.head3 h1 h2

/-- The right part first, with the check moved to the end of the left part. -/
theorem both_moved {first lm l rm last : Nat} {c nx : Flags} {sa sa2 sa3 : List Int} (hb : E ≤ buf)
    (hl : Pre T P m pa W F E ⟨first, lm, l, ⟨c.one, c.two, nx.four⟩⟩ sa) (hr : Pre T P m pa W F E ⟨l, rm, last, ⟨nx.one, nx.two, c.four⟩⟩ sa)
    (hn1 : nx.one = false) (hn2 : nx.two = true)
    (p : Post K J buf N ⟨l, rm, last, ⟨false, false, c.four⟩⟩ sa sa2) (q : Post K J buf N ⟨first, lm, l, ⟨c.one, c.two, true⟩⟩ sa2 sa3) :
    Both K J buf N first l l last c nx sa sa3 := by
  have a1 : F ≤ first := hl.lo
  have a2 : first < l := hl.ne
  have b3 : l < last := hr.ne
  have b4 : last ≤ E := hr.hi
  have q1 : ∀ j, j < first ∨ l ≤ j → j < buf ∨ buf + N ≤ j → j ≠ l → cel sa3 j = cel sa2 j := fun j h1 h2 h3 => q.off j h1 h2 (fun _ => h3)
  have p1 : ∀ j, j < l ∨ last ≤ j → j < buf ∨ buf + N ≤ j → (c.four = true → j ≠ last) → cel sa2 j = cel sa j := p.off
  have plow : ∀ j, j < l → cel sa2 j = cel sa j := fun j h1 => p1 j (Or.inl h1) (by omega) (fun _ => by omega)
  have qhigh : ∀ j, l < j → j < buf ∨ buf + N ≤ j → cel sa3 j = cel sa2 j := fun j h1 h2 => q1 j (by omega) h2 (by omega)
  have qdec : ∀ j, l ≤ j → j < buf → dec (cel sa3 j) = dec (cel sa2 j) := fun j h1 h2 => by
    by_cases h3 : j = l
    · rw [h3]; exact (q.last rfl).1
    · rw [q1 j (by omega) (by omega) h3]
  refine ⟨by rw [q.len, p.len], ?_, ?_, ?_, ?_, q.steps, ?_, q.head1, q.head2, ?_, ?_, ?_, ?_, ?_, ?_, p.bperm.trans q.bperm, fun h => q.bj (p.bj h)⟩
  · intro j h1 h2 h3
    rw [q1 j (by omega) h2 (by omega), p1 j (by omega) h2 h3]
  · intro j h1 h2
    omega
  · exact Perm.trans (Perm.congr (fun j (_ : first ≤ j) (h2 : j < l) => by rw [plow j (by omega)])) q.perm
  · exact Perm.trans p.perm (Perm.congr (fun j (h1 : l ≤ j) (h2 : j < last) => by rw [qdec j h1 (by omega)]))
  · intro j h1 h2
    rw [qhigh (j + 1) (by omega) (by omega)]; exact stp_congr (p.steps j h1 h2) (qdec j h1 (by omega))
  · intro h1 h2 h3
    have : (0 ≤ cel sa2 first → 0 ≤ cel sa3 first) ∧ _ := q.head3 h1 h2
    rw [plow first (by omega)] at this
    exact this.1 h3
  · intro h1
    have h6 : last < E := (hr.next h1).1
    have h7 := qhigh last (by omega) (by omega)
    refine ⟨by rw [h7]; exact (p.last h1).1, Mark.congr (p.last h1).2 ?_ h7⟩
    exact qdec _ (show l ≤ last - 1 by omega) (show last - 1 < buf by omega)
  · intro h1; omega
  · intro h1; rw [hn1] at h1; simp at h1
  · intro h1 h2
    exact (q.last rfl).2
  · intro h1 h2; rw [hn2] at h2; simp at h2

/-- The keys of the two parts of a frame. -/
structure Keys (K : Nat → List Nat) (first l r last : Nat) (nx : Flags) (sa : List Int) : Prop where
  le : ∀ x y, first ≤ x → x < l → r ≤ y → y < last → K (dec (cel sa x)) ≤ K (dec (cel sa y))
  inL : l < r → ∀ x, first ≤ x → x < l → K (dec (cel sa x)) ≤ K (dec (cel sa l))
  inL' : l < r → nx.four = false → cel sa l < 0 ∧ ∃ x, first ≤ x ∧ x < l ∧ K (dec (cel sa x)) = K (dec (cel sa l))
  inS : Steps K l r (cel sa)
  inR : l < r → ∀ y, r ≤ y → y < last → K (dec (cel sa (r - 1))) ≤ K (dec (cel sa y))
  one : nx.one = true → ∃ y, r ≤ y ∧ y < last ∧ (l < r → K (dec (cel sa (r - 1))) = K (dec (cel sa y))) ∧
    (l = r → ∃ x, first ≤ x ∧ x < l ∧ K (dec (cel sa x)) = K (dec (cel sa y)))
  none : nx.one = false → nx.two = false → l = r ∧ ((0 ≤ cel sa r ∧ ∀ x y, first ≤ x → x < l → r ≤ y → y < last → K (dec (cel sa x)) < K (dec (cel sa y))) ∨
    (cel sa r < 0 ∧ ∃ x, first ≤ x ∧ x < l ∧ K (dec (cel sa x)) = K (dec (cel sa r))))

theorem Both.whole {first l r last : Nat} {c nx : Flags} {sa sa' : List Int} (h : Both K J buf N first l r last c nx sa sa') (k : Keys K first l r last nx sa)
    (h1 : first < l) (h2 : l ≤ r) (h3 : r < last) : Steps K first last (cel sa') := by
  have hmax : ∀ x, first ≤ x → x < l → K (dec (cel sa x)) ≤ K (dec (cel sa' (l - 1))) := by
    intro x h4 h5
    obtain ⟨y, q1, q2, q3⟩ := h.permL.ex h4 h5
    rw [← q3]
    exact le_of (h.stepsL.le q1 (show y ≤ l - 1 by omega) (by omega))
  have hmin : ∀ y, r ≤ y → y < last → K (dec (cel sa' r)) ≤ K (dec (cel sa y)) := by
    intro y h4 h5
    obtain ⟨z, q1, q2, q3⟩ := h.permR.ex h4 h5
    rw [← q3]
    exact le_of (h.stepsR.le (Nat.le_refl _) q1 q2)
  obtain ⟨x0, x1, x2, x3⟩ := h.permL.symm.ex (show first ≤ l - 1 by omega) (show l - 1 < l by omega)
  obtain ⟨y0, y1, y2, y3⟩ := h.permR.symm.ex (Nat.le_refl r) h3
  have bl : l < r → Stp K (cel sa' (l - 1)) (cel sa' l) := by
    intro hlr
    obtain ⟨q1, q2, q3⟩ := h.atL hlr
    have hle : K (dec (cel sa' (l - 1))) ≤ K (dec (cel sa' l)) := by rw [← x3, q1]; exact k.inL hlr x0 x1 x2
    by_cases h4 : nx.four = true
    · exact (q2 h4).stp hle
    · have h4 : nx.four = false := by simpa using h4
      obtain ⟨q4, x, q5, q6, q7⟩ := k.inL' hlr h4
      refine Or.inr ⟨by rw [q3 h4]; exact q4, eq_of_le hle ?_⟩
      rw [q1, ← q7]; exact hmax x q5 q6
  have hprev : l < r → dec (cel sa' (r - 1)) = dec (cel sa (r - 1)) := by
    intro hlr
    by_cases h4 : r - 1 = l
    · rw [h4]; exact (h.atL hlr).1
    · rw [h.inn (r - 1) (by omega) (by omega)]
  have hle : K (dec (cel sa' (r - 1))) ≤ K (dec (cel sa' r)) := by
    by_cases hlr : l < r
    · rw [hprev hlr, ← y3]; exact k.inR hlr y0 y1 y2
    · rw [show r - 1 = l - 1 by omega, ← x3, ← y3]; exact k.le x0 y0 x1 x2 y1 y2
  have br : Stp K (cel sa' (r - 1)) (cel sa' r) := by
    by_cases n1 : nx.one = true
    · obtain ⟨y, q1, q2, q3, q4⟩ := k.one n1
      refine Or.inr ⟨h.atR1 n1, eq_of_le hle ?_⟩
      by_cases hlr : l < r
      · rw [hprev hlr, q3 hlr]; exact hmin y q1 q2
      · obtain ⟨x, q5, q6, q7⟩ := q4 (by omega)
        refine List.le_trans (hmin y q1 q2) ?_
        rw [← q7, show r - 1 = l - 1 by omega]; exact hmax x q5 q6
    · have n1 : nx.one = false := by simpa using n1
      by_cases n2 : nx.two = true
      · exact (h.atR2 n1 n2).stp hle
      · have n2 : nx.two = false := by simpa using n2
        obtain ⟨q1, q2⟩ := k.none n1 n2
        obtain ⟨q3, q4⟩ := h.atR3 n1 n2
        rcases q2 with ⟨q5, q6⟩ | ⟨q5, x, q6, q7, q8⟩
        · refine Or.inl ⟨q3 q5, ?_⟩
          rw [← q1, ← x3, q1, ← y3]; exact q6 x0 y0 x1 x2 y1 y2
        · refine Or.inr ⟨by rw [q4 q5]; exact q5, eq_of_le hle ?_⟩
          rw [q4 q5, ← q8, ← q1]; exact hmax x q6 q7
  intro j h4 h5
  by_cases j1 : j + 1 < l
  · exact h.stepsL j h4 j1
  · by_cases j2 : r ≤ j
    · exact h.stepsR j j2 h5
    · by_cases j3 : j + 1 = r
      · have e : j = r - 1 := by omega
        rw [j3, e]; exact br
      · by_cases j4 : j + 1 = l
        · have e : j = l - 1 := by omega
          rw [j4, e]; exact bl (by omega)
        · have hs := k.inS j (by omega) (by omega)
          rw [h.inn (j + 1) (by omega) (by omega)]
          refine stp_congr hs ?_
          by_cases j5 : j = l
          · rw [j5]; exact (h.atL (by omega)).1
          · rw [h.inn j (by omega) (by omega)]

/-- The whole frame. -/
theorem Both.post {first middle l r last : Nat} {c nx : Flags} {sa sa1 sa' : List Int} (h : Both K J buf N first l r last c nx sa1 sa') (k : Keys K first l r last nx sa1)
    (h1 : first < l) (h2 : l ≤ r) (h3 : r < last) (hb : last ≤ buf) (hr : Res first last sa sa1) (h0 : 0 ≤ cel sa first) (h0' : 0 ≤ cel sa1 first) :
    Post K J buf N ⟨first, middle, last, c⟩ sa sa' := by
  have hbuf : ∀ j, last ≤ j → cel sa1 j = cel sa j := fun j hj => hr.frame j (Or.inr hj)
  refine ⟨by rw [h.len, hr.len], ?_, ?_, h.whole k h1 h2 h3, h.head1, h.head2, fun h4 h5 => ⟨fun _ => h.head3 h4 h5 h0', fun h6 => absurd h6 (by show ¬ cel sa first < 0; omega)⟩, ?_, ?_, ?_⟩
  · intro j (h4 : j < first ∨ last ≤ j) h5 h6
    rw [h.off j h4 h5 h6, hr.frame j h4]
  · refine hr.perm.trans ?_
    refine Perm.join (c := l) h.permL (Perm.join (c := r) (Perm.congr (fun j h4 h5 => ?_)) h.permR h2 (show r ≤ last by omega)) (show first ≤ l by omega) (show l ≤ last by omega)
    by_cases h6 : j = l
    · rw [h6]; exact (h.atL (by omega)).1.symm
    · rw [h.inn j (by omega) h5]
  · intro h4
    have : dec (cel sa' last) = dec (cel sa1 last) := (h.last h4).1
    rw [hbuf last (Nat.le_refl _)] at this
    exact ⟨this, (h.last h4).2⟩
  · exact Perm.trans (Perm.congr (fun j h4 _ => by rw [hbuf j (by omega)])) h.bperm
  · intro hJ
    exact h.bj (fun j h4 h5 => by rw [hbuf j (by omega)]; exact hJ j h4 h5)

end Bwtc.Ss
