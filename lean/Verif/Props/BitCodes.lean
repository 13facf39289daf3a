import Verif.BitCodes

/-!
# C11, C12, C13: unary, bounded binary and interpolative codes
-/

set_option autoImplicit false

namespace Bwtc.Props
open BitCodes

/-- C11.  For every `n ≥ 1`: the unary code of `n` is `n-1` zeros and a one, and decoding it
followed by any bits returns `n` and exactly those bits. -/
theorem C11_unary_roundtrip (n : Nat) (h : 1 ≤ n) (rest : List Bool) :
    unaryCode n = List.replicate (n - 1) false ++ [true] ∧ (unaryCode n).length = n ∧
      unaryDecode (unaryCode n ++ rest) = some (n, rest) := by
  refine ⟨unaryCode_eq n h, ?_, unaryDecode_code n h rest⟩
  rw [unaryCode_eq n h]
  simp
  omega

example : unaryCode 7 = [false, false, false, false, false, false, true] := by decide +kernel

/-- C12.  For all `lo ≤ n ≤ hi` with at most `2^30` values in the range: coding succeeds (no
undefined shift), decoding the code followed by any bits returns `n`, the reported number of
bits is the code's length, and exactly the code is consumed.  A one-element range has the
empty code, and every code is at most `⌈log2 range⌉` bits long. -/
theorem C12_bounded_binary_roundtrip (n lo hi : Nat) (hlo : lo ≤ n) (hhi : n ≤ hi)
    (hr : hi - lo + 1 ≤ 2 ^ 30) (h64 : hi < 2 ^ 64) :
    ∃ code, binaryCode n lo hi = some code ∧ (lo = hi → code = []) ∧
      (∀ k, hi - lo + 1 ≤ 2 ^ k → code.length ≤ k) ∧
      ∀ rest, binaryDecode lo hi (code ++ rest) = some (n, code.length, rest) := by
  obtain ⟨c, h1, h2⟩ := binary_roundtrip hlo hhi hr h64
  refine ⟨c, h1, ?_, ?_, h2⟩
  · intro he
    subst he
    have hR : (usub lo lo + 1) % 2 ^ 64 = 1 := by
      rw [usub_of_le (by omega) h64]; simp
    unfold binaryCode at h1
    simp only [hR, if_true] at h1
    cases h1
    rfl
  · intro k hk
    have hR : (usub hi lo + 1) % 2 ^ 64 = hi - lo + 1 := by
      rw [usub_of_le (by omega) h64, Nat.mod_eq_of_lt (by omega)]
    unfold binaryCode at h1
    simp only [hR] at h1
    by_cases h11 : hi - lo + 1 = 1
    · rw [if_pos h11] at h1
      cases h1
      simp
    · rw [if_neg h11] at h1
      obtain ⟨L, hp, hL1, hL2, hL3⟩ := codeParams_spec (R := hi - lo + 1) (by omega) hr
      have hLk : L < k := by
        have : 2 ^ L < 2 ^ k := by omega
        exact (Nat.pow_lt_pow_iff_right (by omega)).mp this
      simp only [hp, Option.bind_eq_bind, Option.bind_some] at h1
      split at h1
      · cases h1; rw [bitsOf_length]; omega
      · split at h1
        · cases h1; rw [bitsOf_length]; omega
        · cases h1; rw [bitsOf_length]; omega

/-- Non-vacuity: a range of 5 values has two-bit and three-bit codes. -/
example : binaryCode 12 10 14 = some [true, false] ∧
    binaryCode 10 10 14 = some [false, false, false] := by decide +kernel

/-- C13.  For every non-empty strictly increasing list of values in `[lo, hi]` (range at most
`2^30`, values representable in the element type): coding succeeds, and decoding - given only
the bounds and the number of elements - of the code followed by any bits returns the list,
reports the code's length and consumes exactly the code. -/
theorem C13_interpolative_roundtrip (M lo hi : Nat) (list : List Nat) (hne : list ≠ [])
    (hmono : list.Pairwise (· < ·)) (hmem : ∀ x ∈ list, lo ≤ x ∧ x ≤ hi)
    (hr : hi - lo + 1 ≤ 2 ^ 30) (h62 : hi < 2 ^ 62) (hM : hi < M) :
    ∃ code, interpCode list 0 (list.length - 1) lo hi = some code ∧
      ∀ rest, interpDecode M lo hi list.length (code ++ rest) = some (list, code.length, rest) :=
  interp_list_roundtrip hne hmono hmem (by omega) h62 hM

/-- C13 for the entry point used by the coders: lower bound zero, upper bound the last
element (HuffmanCoders.cpp:82, WaveletTree.hpp:575). -/
theorem C13_interpolative_from_zero (M hi : Nat) (list : List Nat) (hne : list ≠ [])
    (hmono : list.Pairwise (· < ·)) (hmem : ∀ x ∈ list, x ≤ hi)
    (hr : hi < 2 ^ 30) (hM : hi < M) :
    ∃ code, interpCode0 list hi = some code ∧
      ∀ rest, interpDecode M 0 hi list.length (code ++ rest) = some (list, code.length, rest) := by
  obtain ⟨c, h1, h2⟩ := interp_list_roundtrip (M := M) (lo := 0) (hi := hi) hne hmono
    (fun x hx => ⟨Nat.zero_le _, hmem x hx⟩) (by omega) (by omega) hM
  refine ⟨c, ?_, h2⟩
  have hpos : 0 < list.length := List.length_pos_iff.mpr hne
  have : usub list.length 1 = list.length - 1 := by
    unfold usub; rw [if_pos (by omega)]
  rw [interpCode0, this]
  exact h1

/-- Non-vacuity: the list of the unit test, range `[0, 19]`. -/
example : [2, 8, 9, 10, 12, 15, 18].Pairwise (· < ·) ∧
    (∀ x ∈ [2, 8, 9, 10, 12, 15, 18], x ≤ 19) ∧
    (interpCode0 [2, 8, 9, 10, 12, 15, 18] 19).isSome := by decide +kernel

end Bwtc.Props
