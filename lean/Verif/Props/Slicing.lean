import Verif.Slicing

/-!
# C15: slicing
-/

set_option autoImplicit false

namespace Bwtc.Props
open Slicing

/-- C15.  For every block and every positive slice size (below `2^32`; the code asserts
`< 2^31 - 2`), slicing terminates; the slices concatenate to the block, each has between one
and `bs` bytes, and all but the last have exactly `bs` bytes. -/
theorem C15_slices_cover_block (bs : Nat) (h0 : 0 < bs) (hb : bs < 2 ^ 32) (data : List UInt8) :
    ∃ sl, SlicesTo bs data sl ∧ sl.flatten = data ∧
      (∀ s ∈ sl, 1 ≤ s.length ∧ s.length ≤ bs) ∧ (∀ s ∈ sl.dropLast, s.length = bs) := by
  obtain ⟨sl, e1, e2⟩ := run_spec bs h0 hb data.length data [] (Nat.le_refl _)
  exact ⟨sl, ⟨_, by simpa using e1⟩, e2⟩

/-- The result is unique (the loop is deterministic). -/
theorem C15_slices_unique (bs : Nat) (data : List UInt8) (a b : List (List UInt8))
    (ha : SlicesTo bs data a) (hb : SlicesTo bs data b) : a = b := by
  obtain ⟨n, hn⟩ := ha
  obtain ⟨m, hm⟩ := hb
  have h1 := run_mono _ _ _ _ hn (max n m) (Nat.le_max_left _ _)
  have h2 := run_mono _ _ _ _ hm (max n m) (Nat.le_max_right _ _)
  rw [h1] at h2
  exact Option.some.inj h2

/-- With slice size zero the loop never ends on a non-empty block. -/
theorem C15_zero_diverges (data : List UInt8) (h : data ≠ []) (sl : List (List UInt8)) :
    ¬ SlicesTo 0 data sl := by
  rintro ⟨n, hn⟩
  rw [run_zero_diverges data h] at hn
  simp at hn

/-- Non-vacuity. -/
example : SlicesTo 3 [1, 2, 3, 4, 5, 6, 7] [[1, 2, 3], [4, 5, 6], [7]] := ⟨4, by decide +kernel⟩

end Bwtc.Props
