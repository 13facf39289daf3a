import Verif.DivsufAll

/-!
# C45, C46, C47, C48: the transform by divsufsort, the sorting of the B* substrings, the sorting of the ranks
-/

set_option autoImplicit false

namespace Bwtc.Props

open FwdBWT Divsuf

/-- C46.  For every text, every set of substrings that start with the same two characters, every size of the free space between the
cells to be sorted and the table of the starts, and whatever the free space holds: `sssort` ends, performs no access outside of the
array or the text, does not overflow its stacks, changes only the cells to be sorted and the free space, and leaves the same substrings in
sorted order, with a mark on those that are equal to the one in front; the last substring of the text, which has no end, is in front of
those it is a prefix of. -/
theorem C46_substrings_sorted (T : List Nat) (P : Nat → Nat) (m : Nat) (sa : List Int) (pa first last buf bufsize : Nat) (lastsuffix : Bool)
    (h : SsCall T P m sa pa first last buf bufsize lastsuffix) :
    ∃ sa', Ss.sssort T sa pa first last buf bufsize 2 lastsuffix = some sa' ∧ sa'.length = sa.length ∧
      (∀ r, (r < first ∨ last ≤ r) → (r < buf ∨ buf + bufsize ≤ r) → sa'[r]? = sa[r]?) ∧
      (∀ i : Nat, (∃ r, first ≤ r ∧ r < last ∧ sa[r]? = some (i : Int)) ↔
        ∃ r v, first ≤ r ∧ r < last ∧ sa'[r]? = some v ∧ dec v = i) ∧
      Sorted T P m first last sa' :=
  Ss.sssort_ok T P m sa pa first last buf bufsize lastsuffix h

/-- The hypotheses are met by the text 1 2 0 1 2 0 1 2 3 0 with its three substrings 1 2 (0 1 2), 1 2 (0 1 2), 1 2 3 0, two of them equal,
the last one in the first cell, a free space of two cells and the starts 0, 3, 6 in the cells from 5 on. -/
example : SsCall [1, 2, 0, 1, 2, 0, 1, 2, 3, 0] (fun i => 3 * i) 3 [2, 0, 1, -7, 9, 0, 3, 6] 5 0 3 3 2 true := by
  refine ⟨?_, ?_, ?_, ?_, by omega, by omega, by omega, ?_, ?_, ?_, by decide, ?_⟩
  · intro i hi
    have : i = 0 ∨ i = 1 ∨ i = 2 := by omega
    rcases this with rfl | rfl | rfl <;> rfl
  · intro i _; show 3 * i < 3 * (i + 1); omega
  · intro i hi; show 3 * i + 2 ≤ 10; omega
  · intro i hi
    have : i = 0 ∨ i = 1 ∨ i = 2 := by omega
    rcases this with rfl | rfl | rfl <;> decide
  · intro r _ hr
    have : r = 0 ∨ r = 1 ∨ r = 2 := by omega
    rcases this with rfl | rfl | rfl
    · exact ⟨2, by omega, rfl⟩
    · exact ⟨0, by omega, rfl⟩
    · exact ⟨1, by omega, rfl⟩
  · intro r r' _ hr _ hr' h
    have h1 : r = 0 ∨ r = 1 ∨ r = 2 := by omega
    have h2 : r' = 0 ∨ r' = 1 ∨ r' = 2 := by omega
    rcases h1 with rfl | rfl | rfl <;> rcases h2 with rfl | rfl | rfl <;> first | rfl | (exact absurd h (by decide))
  · intro r r' i j _ hr _ hr' h1 h2
    have key : ∀ (r i : Nat), r < 3 → ([2, 0, 1, -7, 9, 0, 3, 6] : List Int)[r]? = some (i : Int) →
        (([1, 2, 0, 1, 2, 0, 1, 2, 3, 0] : List Nat).drop (3 * i)).take 2 = [1, 2] := by
      intro r i hr h
      have h1 : r = 0 ∨ r = 1 ∨ r = 2 := by omega
      rcases h1 with rfl | rfl | rfl
      · have : i = 2 := by have := Option.some.inj h; omega
        subst this; rfl
      · have : i = 0 := by have := Option.some.inj h; omega
        subst this; rfl
      · have : i = 1 := by have := Option.some.inj h; omega
        subst this; rfl
    show (([1, 2, 0, 1, 2, 0, 1, 2, 3, 0] : List Nat).drop (3 * i)).take 2 = _
    rw [key r i hr h1]; exact (key r' j hr' h2).symm
  · intro r h1 h2
    have : r = 1 ∨ r = 2 := by omega
    rcases this with rfl | rfl <;> decide

/-- C48.  For every sequence of up to 10568979 ranks, whatever the cells in between hold: `trsort` with its stack of 64 entries ends, performs no access outside
of the array, does not overflow its stack, changes only the cells of the suffixes and of the ranks, and leaves the rank of every suffix of the sequence of ranks. -/
theorem C48_suffixes_ranked (rs : List Nat) (sa : List Int) (isa : Nat) (h0 : 0 < rs.length) (hN : rs.length ≤ 10568979) (h : TrCall rs sa isa) :
    ∃ sa', Tr.trsort Tr.stackSize sa isa rs.length 1 = some sa' ∧ sa'.length = sa.length ∧
      (∀ r, (rs.length ≤ r ∧ r < isa) ∨ isa + rs.length ≤ r → sa'[r]? = sa[r]?) ∧
      ∀ i, i < rs.length → sa'[isa + i]? = some (Suffix.row rs i : Int) :=
  trsort_good (by decide) (by decide) rs sa isa h0 hN h

/-- C48, larger groups: a stack of `cap` entries is enough for `n` ranks if `(n + 4) ^ 3 ≤ 2 ^ (cap + 6)`; 91 entries are enough for every sequence of ranks
whose length fits into 32 bits. -/
theorem C48_stack_enough (cap : Nat) (rs : List Nat) (sa : List Int) (isa : Nat) (h0 : 0 < rs.length) (hN : rs.length < 2 ^ 32) (hcap : (rs.length + 4) ^ 3 ≤ 2 ^ (cap + 6) ∨ 91 ≤ cap)
    (h : TrCall rs sa isa) :
    ∃ sa', Tr.trsort cap sa isa rs.length 1 = some sa' ∧ ∀ i, i < rs.length → sa'[isa + i]? = some (Suffix.row rs i : Int) := by
  have hc : (rs.length + 4) ^ 3 ≤ 2 ^ (cap + 6) := by
    rcases hcap with hc | hc
    · exact hc
    · refine Nat.le_trans (Nat.pow_le_pow_left (show rs.length + 4 ≤ 2 ^ 32 + 3 by omega) 3) (Nat.le_trans (m := 2 ^ 97) (by decide) ?_)
      exact Nat.pow_le_pow_right (by omega) (by omega)
  obtain ⟨sa', h1, -, -, h2⟩ := Tr.trsort_ok rs sa isa hc h0 hN h
  exact ⟨sa', h1, h2⟩

/-- The hypotheses are met by the ranks 2 2 0: the suffix 2 is alone and first, so that cell 0 starts a run of length 1; the suffixes 0 and 1 are in the
cells 1 and 2, out of order; cell 3 is not used; the ranks are in the cells from 4 on. -/
example : TrCall [2, 2, 0] [-1, 0, 1, 77, 2, 2, 0] 4 := by
  have hs : ∀ r, r < 3 → (Single [2, 2, 0] r ↔ r = 0) := by
    intro r hr
    constructor
    · rintro ⟨i, hi, h1, h2⟩
      have : i = 0 ∨ i = 1 ∨ i = 2 := by change i < 3 at hi; omega
      rcases this with rfl | rfl | rfl
      · exact absurd (h2 1 (by decide) h1) (by decide)
      · exact absurd (h2 0 (by decide) h1) (by decide)
      · exact h1.symm
    · rintro rfl
      refine ⟨2, by decide, rfl, fun j hj h => ?_⟩
      have : j = 0 ∨ j = 1 ∨ j = 2 := by change j < 3 at hj; omega
      rcases this with rfl | rfl | rfl
      · exact absurd h (by decide)
      · exact absurd h (by decide)
      · rfl
  refine ⟨⟨?_, ?_⟩, ?_, by decide, ?_, ?_, ?_⟩
  · intro i hi
    have : i = 0 ∨ i = 1 ∨ i = 2 := by change i < 3 at hi; omega
    rcases this with rfl | rfl | rfl <;> simp [Induce.cnt_succ, Induce.cnt_zero, Suffix.ch]
  · intro i hi
    have : i = 0 ∨ i = 1 := by change i + 1 < 3 at hi; omega
    rcases this with rfl | rfl <;> decide
  · intro i hi
    have : i = 0 ∨ i = 1 ∨ i = 2 := by change i < 3 at hi; omega
    rcases this with rfl | rfl | rfl <;> rfl
  · intro r hr h
    rw [hs r hr] at h
    have : r = 1 ∨ r = 2 := by change r < 3 at hr; omega
    rcases this with rfl | rfl
    · exact ⟨0, by decide, rfl, by simp [Induce.cnt_succ, Induce.cnt_zero, Suffix.ch], by decide⟩
    · exact ⟨1, by decide, rfl, by simp [Induce.cnt_succ, Induce.cnt_zero, Suffix.ch], by decide⟩
  · intro r r' hr hr' h h' he
    rw [hs r hr] at h
    rw [hs r' hr'] at h'
    have h1 : r = 1 ∨ r = 2 := by change r < 3 at hr; omega
    have h2 : r' = 1 ∨ r' = 2 := by change r' < 3 at hr'; omega
    rcases h1 with rfl | rfl <;> rcases h2 with rfl | rfl <;> first | rfl | exact absurd he (by decide)
  · intro a d h0 hd hall _ _
    change a + d ≤ 3 at hd
    have h1 := (hs a (by omega)).mp (hall a (by omega) (by omega))
    have h2 : d = 1 := by
      by_cases h : d = 1
      · exact h
      · have := (hs (a + 1) (by omega)).mp (hall (a + 1) (by omega) (by omega))
        omega
    subst h1 h2
    rfl

/-- C45.  For every block of up to 21137958 bytes, every number of starting points and every content of the allocated array: the transform by divsufsort
gives what sorting all suffixes and reading off the transform, the starting points and the counts gives; it fails exactly if that does, which is for want of a byte behind the block.
Nothing is accessed outside of the arrays and no stack overflows. -/
theorem C45_same_as_sorting (cells : List Int) (mem : List UInt8) (pos len starts : Nat)
    (freqs : List Nat) (hl : 1 ≤ len) (hmax : len ≤ 21137958) (hc : len + 1 ≤ cells.length) (hf : 256 ≤ freqs.length) :
    Divsuf.transform Ss.sssort (Tr.trsort Tr.stackSize) cells mem pos len starts freqs = FwdBWT.transform mem pos len starts freqs :=
  transform_eq (N := 10568979) Ss.sssort_ok (trsort_good (by decide) (by decide)) cells mem pos len starts freqs hl (by omega) (by omega) hc hf

/-- The hypotheses are met, with memory in front of and behind a block of six bytes. -/
example : 1 ≤ 6 ∧ 6 ≤ 21137958 ∧ 6 + 1 ≤ (List.replicate 7 (-1) : List Int).length ∧ 256 ≤ (List.replicate 256 0 : List Nat).length := by
  refine ⟨by omega, by omega, by simp, ?_⟩
  rw [List.length_replicate]; exact Nat.le_refl _

/-- C47.  For every block below 2 GB: if the transform by divsufsort ends, and no stack overflows, then the result is that of sorting all suffixes. -/
theorem C47_never_wrong (cells : List Int) (mem : List UInt8) (pos len starts : Nat)
    (freqs : List Nat) (hl : 1 ≤ len) (hmax : len + 1 < 2 ^ 31) (hc : len + 1 ≤ cells.length) (hf : 256 ≤ freqs.length) (r : List UInt8 × List Nat × List Nat)
    (h : Divsuf.transform Ss.sssort (Tr.trsort Tr.stackSize) cells mem pos len starts freqs = some r) :
    FwdBWT.transform mem pos len starts freqs = some r := by
  have h1 := transform_sub (ss := Ss.sssort) (tr' := Tr.trsort 85) (fun sa isa n depth => Tr.trsort_sub (by decide) sa isa n depth) cells mem pos len starts freqs r h
  rwa [transform_eq (N := 2 ^ 30) Ss.sssort_ok (trsort_good (by decide) (by decide)) cells mem pos len starts freqs hl (by omega) hmax hc hf] at h1

/-- C47, stacks: with a stack of 85 entries instead of 64, the transform by divsufsort gives the same as sorting for every block below 2 GB. -/
theorem C47_larger_stack (cells : List Int) (mem : List UInt8) (pos len starts : Nat)
    (freqs : List Nat) (hl : 1 ≤ len) (hmax : len + 1 < 2 ^ 31) (hc : len + 1 ≤ cells.length) (hf : 256 ≤ freqs.length) :
    Divsuf.transform Ss.sssort (Tr.trsort 85) cells mem pos len starts freqs = FwdBWT.transform mem pos len starts freqs :=
  transform_eq (N := 2 ^ 30) Ss.sssort_ok (trsort_good (by decide) (by decide)) cells mem pos len starts freqs hl (by omega) hmax hc hf

end Bwtc.Props
