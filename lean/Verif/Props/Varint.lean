import Verif.Varint

/-!
# C01, C02: packed integers
-/

set_option autoImplicit false

namespace Bwtc.Props
open Varint

/-- C01.  For every `n < 2^56`: packing succeeds, unpacking the packed word gives `n`;
the two writers emit the same `k` bytes, where `k` is the reported byte count and is the
least number of 7-bit groups holding `n` (one for zero); and each of the four readers,
run on those bytes (or the reversed-bit form) followed by an arbitrary continuation,
returns `n` (the raw readers: a word that unpacks to `n`) and exactly the continuation. -/
theorem C01_packed_integer_roundtrip (n : Nat) (h : n < 2 ^ 56) :
    ∃ p k, packInteger n = some (p, k) ∧ unpackInteger p = some n ∧
      1 ≤ k ∧ n < 2 ^ (7 * k) ∧ (1 < k → 2 ^ (7 * (k - 1)) ≤ n) ∧
      (writePacked p).length = k ∧ writeCounted k p = writePacked p ∧
      ∀ rest : List Bool,
        readPacked (bytesBits (writePacked p) ++ rest) = some (p, rest) ∧
        readVar (bytesBits (writePacked p) ++ rest) = some (n, k, rest) ∧
        readVarRev (bitsOfRev (8 * k) p ++ rest) = some (n, k, rest) := by
  have hl : (vbytes n).length ≤ 8 := vbytes_length_le (k := 8) (by simpa using h) (by omega)
  have hpos := vbytes_length_pos n
  refine ⟨leNat (vbytes n), (vbytes n).length, packInteger_eq h, ?_, by omega, ?_, ?_, ?_, ?_, ?_⟩
  · have := unpackGo_eq n 0 0 (by simp) (by omega)
    simpa [unpackInteger] using this
  · apply Classical.byContradiction
    intro hc
    have := le_vbytes_length (n := n) (k := (vbytes n).length)
      (by rw [show (128:Nat) = 2 ^ 7 by rfl, ← Nat.pow_mul]; omega)
    omega
  · intro hk
    apply Classical.byContradiction
    intro hc
    have := vbytes_length_le (n := n) (k := (vbytes n).length - 1)
      (by rw [show (128:Nat) = 2 ^ 7 by rfl, ← Nat.pow_mul]; omega) (by omega)
    omega
  · rw [writePacked_vbytes]
  · rw [writePacked_vbytes, writeCounted_leNat]
  · intro rest
    rw [writePacked_vbytes]
    refine ⟨?_, ?_, ?_⟩
    · rw [readPacked, readPackedGo_eq n 0 0 rest (by simp) (by omega)]
      have hne : leNat (vbytes n) ≠ 0x80 := by
        rw [vbytes]
        split
        · rename_i hlt; simp [leNat]; omega
        · have : 0 < leNat (vbytes (n / 128)) := leNat_vbytes_pos (by omega)
          simp only [leNat]; omega
      simp [hne]
    · rw [readVar, readVarGo_eq n 0 0 0 rest (by simp) (by omega)]; simp
    · rw [readVarRev, readVarRevGo_eq n 0 0 0 rest (by simp) (by omega)]; simp

/-- The hypothesis of C01 is sharp: from `2^56` on the packing loop reaches an undefined
shift (the code asserts). -/
theorem C01_limit_is_sharp (n : Nat) (h : 2 ^ 56 ≤ n) : packInteger n = none :=
  packInteger_none h

/-- Non-vacuity: a three-byte value meets the hypothesis. -/
example : (100000 : Nat) < 2 ^ 56 ∧ packInteger 100000 = some (0x068DA0, 3) := by decide +kernel

/-- C02, the part that holds: every 64-bit integer except zero round-trips through the
in-memory format, whatever follows in the buffer. -/
theorem C02_memory_integer_roundtrip_partial (n : Nat) (h : n < 2 ^ 64) (h0 : n ≠ 0)
    (rest : List UInt8) :
    readAndUnpack (packAndWrite n ++ rest) = some (n, (packAndWrite n).length) := by
  rw [packAndWrite_eq h0, readAndUnpack,
    readAndUnpackGo_eq n 0 0 rest (by simp) (by simpa using h) (Or.inl rfl)]
  simp

/-- The full claim C02. -/
def C02_claim : Prop :=
  ∀ (n : Nat) (rest : List UInt8), n < 2 ^ 64 →
    readAndUnpack (packAndWrite n ++ rest) = some (n, (packAndWrite n).length)

/-- C02 is false of the code: for zero nothing is written, but the reader always consumes at
least one byte; with the byte 5 following, it returns 5. -/
theorem C02_fails_at_zero : ¬ C02_claim := by
  intro h
  have := h 0 [5] (by decide)
  revert this
  decide +kernel

/-- Non-vacuity of the partial theorem: a ten-byte value. -/
example : (2 ^ 64 - 1 : Nat) < 2 ^ 64 ∧ (2 ^ 64 - 1 : Nat) ≠ 0 ∧
    (packAndWrite (2 ^ 64 - 1)).length = 10 := by decide +kernel

end Bwtc.Props
