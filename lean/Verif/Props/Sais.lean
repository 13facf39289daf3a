import Verif.SaisBwt

/-!
# C44: suffix sorting by SA-IS
-/

set_option autoImplicit false

namespace Bwtc.Props

open FwdBWT

/-- C44, the suffix array.  For every text over any alphabet of `k` symbols, every size of the working memory and whatever
it holds, `suffixsort` ends (its recursion is not deeper than the text is long), performs no access outside of the memory
and leaves the sorted list of all suffixes in the first cells. -/
theorem C44_suffix_array (T : List Nat) (k : Nat) (mem : List Int) (hn : T ≠ []) (hk : ∀ c ∈ T, c < k)
    (hmem : T.length ≤ mem.length) :
    ∃ (mem' : List Int) (sa : List Nat), Sais.suffixsort T.length T mem k = some mem' ∧ mem'.length = mem.length ∧
      mem'.take T.length = sa.map Int.ofNat ∧ sa.Perm (List.range T.length) ∧
      sa.Pairwise (fun a b => T.drop a < T.drop b) := by
  obtain ⟨mem', h1, h2, h3⟩ := Sais.suffixsort_spec T.length T mem k (Nat.le_refl _) (List.length_pos_iff.mpr hn) hk hmem
  obtain ⟨sa, s1, s2, s3⟩ := Sais.isSA_sorted h3
  exact ⟨mem', sa, h1, h2, s1, s2, s3⟩

/-- The hypotheses are met by a text with equal LMS substrings (the recursion is entered) and memory full of -7. -/
example : ([2, 1, 2, 1, 2, 1, 2] : List Nat) ≠ [] ∧ (∀ c ∈ ([2, 1, 2, 1, 2, 1, 2] : List Nat), c < 3) ∧
    ([2, 1, 2, 1, 2, 1, 2] : List Nat).length ≤ (List.replicate 12 (-7) : List Int).length := by decide

/-- C44, the working arrays.  Wherever the bucket arrays `B`, `C` and the table `D` are placed behind the suffix array, they
lie inside the memory of `n + fs` cells, do not touch the suffix array and do not overlap, except that `B` and `C` may be the
same array, in which case `C` is counted anew before its next use. -/
theorem C44_arrays_apart (n fs k : Nat) :
    (∀ c, Sais.offC n fs k = some c → n ≤ c ∧ c + k ≤ n + fs) ∧
    (∀ b, Sais.offB n fs k = some b → n ≤ b ∧ b + k ≤ n + fs) ∧
    (∀ d, Sais.offD n fs k = some d → ∃ d' b, d = some d' ∧ Sais.offB n fs k = some b ∧ n ≤ d' ∧ d' + 2 * k ≤ b) ∧
    (∀ b c, Sais.offB n fs k = some b → Sais.offC n fs k = some c → b + k ≤ c ∨
      (b = c ∧ (Sais.chooseFlags n fs k).same = true ∧ (Sais.chooseFlags n fs k).f8 = true ∧ Sais.offD n fs k = none ∧
        (Sais.chooseFlags n fs k).f16 = false)) :=
  Sais.apart n fs k

/-- All three arrays behind a suffix array of 1000 cells, for an alphabet of 300 symbols. -/
example : Sais.offC 1000 1200 300 = some 1900 ∧ Sais.offB 1000 1200 300 = some 1600 ∧ Sais.offD 1000 1200 300 = some (some 1000) := by decide

/-- C44, the transform.  For every text of at least two bytes, every number of starting points and every table of counts,
`saisxx_bwt` gives what sorting the suffixes and reading off the transform, the starting points and the counts gives; it
fails (division by zero) exactly if that does. -/
theorem C44_same_as_sorting (T : List UInt8) (lf freqs : List Nat) (hT : 2 ≤ T.length) (hf : 256 ≤ freqs.length) :
    Sais.saisBwt T lf freqs = sorter T lf freqs :=
  Sais.saisBwt_eq T lf freqs hT hf

example : 2 ≤ ([98, 97, 110, 97, 110, 97, 0] : List UInt8).length ∧ 256 ≤ (List.replicate 256 0 : List Nat).length :=
  ⟨by decide, by rw [List.length_replicate]; exact Nat.le_refl _⟩

/-- C44, round trip.  For every block, every number of starting points asked for and every content of the memory around
the block, the in-place transform with the SA-IS sorter touches only the block, and the inverse transform returns it. -/
theorem C44_transform_and_back (block : List UInt8) (hne : block ≠ []) (starts : Nat) :
    ∃ data lf freqs, (∀ pre next post,
        Sais.transform (pre ++ block ++ next :: post) pre.length block.length starts
          (List.replicate 256 0) = some (pre ++ data ++ next :: post, lf, freqs)) ∧
      data.Perm block ∧ (∀ c : UInt8, freqs[c.toNat]? = some (block.count c)) ∧
      ∀ next, ∃ z, InvBWT.inverseBlock data next lf = some (block, z) := by
  obtain ⟨data, lf, freqs, h1, h2, _, _, _, h6, h7⟩ := transform_spec block starts
    (List.replicate 256 0) hne (by rw [List.length_replicate])
  refine ⟨data, lf, freqs, ?_, h2, ?_, h7⟩
  · intro pre next post
    rw [Sais.transform_eq _ _ _ _ _ (List.length_pos_iff.mpr hne) (by rw [List.length_replicate]; exact Nat.le_refl _)]
    exact h1 pre next post
  · intro c
    have hc : c.toNat < 256 := c.toNat_lt
    rw [h6.2.1, List.getElem?_replicate, if_pos hc]
    simp

example : (([98, 97, 110, 97, 110, 97] : List UInt8) ≠ []) := by decide

end Bwtc.Props
