import Verif.BitBuffer

/-!
# C21: gamma codes of run lengths
-/

set_option autoImplicit false

namespace Bwtc.Props
open BitBuffer

/-- C21 for a single code: `2·⌊log₂ n⌋ + 1` bits of `n`, followed by any bits, decode to `n` and
leave the following bits. -/
theorem C21_gamma_code_roundtrip (n : Nat) (h1 : 1 ≤ n) (h2 : n < 2 ^ 31) (s : List Bool) :
    ∃ len value, gammaPair n = some (len, value) ∧
      gammaDecode (bitsOf len value ++ s) = some (n, s) :=
  ⟨_, _, gammaPair_eq n h1, gammaDecode_code n h1 h2 s⟩

/-- The claim for the stored sequence of run lengths: everything below `2^31` is written
without undefined behaviour and read back, leaving the following bytes. -/
def C21_claim : Prop :=
  ∀ runs : List Nat, (∀ n ∈ runs, 1 ≤ n ∧ n < 2 ^ 31) →
    ∃ bytes, writeGammas runs = some bytes ∧ ∀ rest : List UInt8,
      (readGammas runs.length (bytesBits (bytes ++ rest))).map (fun r => (r.1, alignIn r.2)) =
        some (runs, bytesBits rest)

/-- C21 (partial: run lengths below `2^29` instead of `2^31`). -/
theorem C21_stored_runs_partial (runs : List Nat) (h : ∀ n ∈ runs, 1 ≤ n ∧ n < 2 ^ 29) :
    ∃ bytes, writeGammas runs = some bytes ∧ ∀ rest : List UInt8,
      (readGammas runs.length (bytesBits (bytes ++ rest))).map (fun r => (r.1, alignIn r.2)) =
        some (runs, bytesBits rest) := by
  refine ⟨_, writeGammas_spec runs h, ?_⟩
  intro rest
  obtain ⟨k, hk, e⟩ := bytesBits_packBits_append (runs.flatMap fun n => bitsOf (n.log2 * 2 + 1) n) rest
  rw [e, readGammas_spec runs (fun n hn => ⟨(h n hn).1, by have := (h n hn).2; omega⟩)]
  simp only [Option.map_some]
  rw [alignIn_pad _ _ (by simpa using hk) (by rw [bytesBits_length]; omega)]

/-- With six bits pending, a run of length `2^29` makes `bitsInBuffer` negative. -/
theorem C21_long_run_undefined : writeGammas [2, 2, 2 ^ 29] = none := by
  have h1 : gammaPair 2 = some (3, 2) := by decide
  have h2 : gammaPair (2 ^ 29) = some (59, 2 ^ 29) := by decide +kernel
  have h3 : put 3 2 ⟨0, 0, []⟩ = some ⟨2, 3, []⟩ := by
    rw [put, drain]; rfl
  have h4 : put 3 2 ⟨2, 3, []⟩ = some ⟨18, 6, []⟩ := by
    rw [put, drain]; rfl
  have h5 : put 59 (2 ^ 29) ⟨18, 6, []⟩ = none := by
    rw [put, drain_none _ _ (by decide)]; rfl
  simp [writeGammas, h1, h2, writeCodes, putAll, h3, h4, h5]

theorem C21_fails : ¬ C21_claim := by
  intro h
  obtain ⟨bytes, h1, _⟩ := h [2, 2, 2 ^ 29] (by
    intro n hn
    simp at hn
    omega)
  rw [C21_long_run_undefined] at h1
  exact absurd h1 (by simp)

/-- Non-vacuity: several run lengths up to the bound. -/
example : ∀ n ∈ [1, 2, 7, 2 ^ 29 - 1, 1], 1 ≤ n ∧ n < 2 ^ 29 := by
  intro n hn
  simp at hn
  omega

end Bwtc.Props
