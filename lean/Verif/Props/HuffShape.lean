import Verif.HuffShape

/-!
# C20: serialised Huffman code lengths
-/

set_option autoImplicit false

namespace Bwtc.Props
open HuffShape

/-- C20 (partial: the claim names lengths up to 255, this theorem covers lengths up to 127).
For every table of 256 lengths with at least one used symbol the shape, padded to whole bytes
by the encoder and followed by whole bytes, is read back as the same table; exactly the
written bytes are consumed and their number is returned. -/
theorem C20_shape_roundtrip_partial (clen : List Nat) (h256 : clen.length = 256)
    (hlt : ∀ l ∈ clen, l < 128) (hne : ∃ l ∈ clen, 0 < l) :
    ∃ bits, serializeShape clen = some bits ∧ ∀ rest : List UInt8,
      deserializeShape (List.replicate 256 0) (bytesBits (packBits bits ++ rest)) =
        some (clen, (packBits bits).length, bytesBits rest) := by
  obtain ⟨bits, h1, h2⟩ := shape_roundtrip clen h256 hlt hne
  refine ⟨bits, h1, ?_⟩
  intro rest
  obtain ⟨k, hk, e⟩ := bytesBits_packBits_append bits rest
  rw [e, h2, packBits_length]
  congr 3
  exact alignIn_pad _ _ (by simpa using hk) (by rw [bytesBits_length]; omega)

/-- The full claim: lengths up to 255. -/
def C20_claim : Prop :=
  ∀ clen : List Nat, clen.length = 256 → (∀ l ∈ clen, l < 256) → (∃ l ∈ clen, 0 < l) →
    (∀ m, (∀ l ∈ clen, l ≤ m) → ((clen.filter fun l => 0 < l).map fun l => 2 ^ (m - l)).sum = 2 ^ m) →
    ∃ bits, serializeShape clen = some bits ∧ ∀ rest : List UInt8,
      deserializeShape (List.replicate 256 0) (bytesBits (packBits bits ++ rest)) =
        some (clen, (packBits bits).length, bytesBits rest)

/-- Lengths 1, 2, …, 127, 128, 128: Kraft-complete, but the longest length needs two bytes. -/
def C20_witness : List Nat := (List.range 128).map (· + 1) ++ 128 :: List.replicate 127 0

/-- The length read back for symbol 128. -/
def C20_run : Option Nat := ((serializeShape C20_witness).bind fun bits =>
  deserializeShape (List.replicate 256 0) (bytesBits (packBits bits ++ []))).bind (·.1[128]?)

/-- C20 is false of the code: the two bytes of a longest length of 128 are written in the wrong
order. -/
theorem C20_fails : ¬ C20_claim := by
  intro h
  obtain ⟨bits, h1, h2⟩ := h C20_witness (by decide +kernel) (by decide +kernel) ⟨1, by decide +kernel, by decide⟩ (by
    intro m hm
    have hm1 : 128 ≤ m := hm 128 (by decide +kernel)
    have e : (C20_witness.filter fun l => decide (0 < l)) = (List.range 128).map (· + 1) ++ [128] := by
      decide +kernel
    rw [e]
    obtain ⟨k, rfl⟩ : ∃ k, m = k + 128 := ⟨m - 128, by omega⟩
    have e2 : (((List.range 128).map (· + 1) ++ [128]).map fun l => 2 ^ (k + 128 - l)) =
        (((List.range 128).map (· + 1) ++ [128]).map fun l => 2 ^ k * 2 ^ (128 - l)) := by
      apply List.map_congr_left
      intro l hl
      have : l ≤ 128 := by
        have hall : ∀ l ∈ (List.range 128).map (· + 1) ++ [128], l ≤ 128 := by decide +kernel
        exact hall l hl
      rw [← Nat.pow_add]
      congr 1
      omega
    rw [e2]
    have e3 : ∀ (ls : List Nat) (c : Nat), (ls.map fun l => c * 2 ^ (128 - l)).sum =
        c * (ls.map fun l => 2 ^ (128 - l)).sum := by
      intro ls c
      induction ls with
      | nil => rfl
      | cons a ls ih => simp [ih, Nat.mul_add]
    have e4 : ((((List.range 128).map (· + 1) ++ [128]).map fun l => 2 ^ (128 - l)).sum) = 2 ^ 128 := by
      decide +kernel
    rw [e3, e4, Nat.pow_add])
  have h3 := h2 []
  have h4 : C20_run = some 1 := by decide +kernel
  have h5 : C20_witness[128]? = some 128 := by decide +kernel
  rw [C20_run, h1] at h4
  simp only [Option.bind_some, h3, h5] at h4
  exact absurd h4 (by decide)

/-- Non-vacuity of the partial theorem: a table with five used symbols. -/
example : ([2, 2, 3, 2, 0, 3] ++ List.replicate 250 0).length = 256 ∧
    (∀ l ∈ [2, 2, 3, 2, 0, 3] ++ List.replicate 250 0, l < 128) ∧
    (∃ l ∈ [2, 2, 3, 2, 0, 3] ++ List.replicate 250 0, 0 < l) := by
  refine ⟨by decide +kernel, by decide +kernel, 2, by decide +kernel, by decide⟩

end Bwtc.Props
