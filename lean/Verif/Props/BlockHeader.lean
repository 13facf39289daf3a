import Verif.BlockHeader

/-!
# C14: BWT block header
-/

set_option autoImplicit false

namespace Bwtc.Props
open BlockHeader

/-- C14.  Every list of 1 to 256 starting positions below `2^31` is read back from the header
exactly, and the reader is left at the data following the header (any whole number of bytes,
so `rest` is an arbitrary bit string of length divisible by eight). -/
theorem C14_block_header_roundtrip (ps : List Nat) (h1 : 1 ≤ ps.length) (h2 : ps.length ≤ 256)
    (h : ∀ p ∈ ps, p < 2 ^ 31) (rest : List Bool) (hr : rest.length % 8 = 0) :
    readHeader (bytesBits (writeHeader ps) ++ rest) = some (ps, rest) :=
  readHeader_writeHeader ps h1 h2 h rest hr

/-- The size of the header, and the returned count. -/
theorem C14_header_size (ps : List Nat) :
    (writeHeader ps).length = 1 + (31 * ps.length + 7) / 8 ∧ headerBytes ps = (writeHeader ps).length :=
  ⟨writeHeader_length ps, headerBytes_eq ps⟩

/-- The number of starting points prepared for a block always satisfies the bounds of C14. -/
theorem C14_prepared_count (length startingPoints : Nat) :
    1 ≤ preparePowers length startingPoints ∧ preparePowers length startingPoints ≤ 256 := by
  unfold preparePowers
  split
  · omega
  · split <;> omega

/-- The bound on the number of starting points is sharp: 257 of them are never read back. -/
theorem C14_limit_is_sharp (ps : List Nat) (hl : ps.length = 257) (rest r : List Bool) :
    readHeader (bytesBits (writeHeader ps) ++ rest) ≠ some (ps, r) := by
  intro h
  obtain ⟨k, hk, hw⟩ := writeHeader_bits ps
  have hb : bitsOf 8 (ps.length - 1) = byteBits 0 := by rw [hl]; decide +kernel
  rw [hw, hb] at h
  cases ps with
  | nil => simp at hl
  | cons p ps =>
    rw [List.flatMap_cons] at h
    simp only [readHeader, List.append_assoc, readByte_byteBits, Option.bind_eq_bind, Option.bind_some] at h
    rw [show (0 : UInt8).toNat + 1 = 1 by rfl, readPowers,
      readPower_eq 31 0 _ _ (bitsOf_length _ _) (by simp) (by omega)] at h
    simp only [readPowers, Option.bind_eq_bind, Option.bind_some, Option.pure_def, Option.some.injEq,
      Prod.mk.injEq, List.cons.injEq] at h
    rw [← h.1.2] at hl
    simp at hl

/-- Non-vacuity: three positions. -/
example : readHeader (bytesBits (writeHeader [5, 2 ^ 31 - 1, 77]) ++ bytesBits [9]) =
      some ([5, 2 ^ 31 - 1, 77], bytesBits [9]) ∧ (writeHeader [5, 2 ^ 31 - 1, 77]).length = 13 := by
  decide +kernel

end Bwtc.Props
