import Verif.RangeCoder

/-!
# C03, C04: the arithmetic coder
-/

set_option autoImplicit false

namespace Bwtc.Props
open RangeCoder

/-- C03, the split point.  For every 32-bit interval `low < high` and probability `p ≤ 4096`
the value computed with wrapping 32-bit arithmetic is the exact rounded value
`low + round((high-low-1)·p/4096)`, none of the intermediate results reaches `2^32`, and
both halves are non-empty. -/
theorem C03_split_exact (low high p : Nat) (hlt : low < high) (hh : high < 2 ^ 32)
    (hp : p ≤ 4096) :
    split low high p = low + ((high - low - 1) * p + 2048) / 4096 ∧
      low ≤ split low high p ∧ split low high p < high ∧
      (high - low - 1) / 4096 * p < 2 ^ 32 ∧
      (high - low - 1) % 4096 * p + 2048 < 2 ^ 32 ∧
      low + (high - low - 1) / 4096 * p < 2 ^ 32 := by
  obtain ⟨h1, h2, h3⟩ := split_eq hlt (by simpa [W] using hh) hp
  have e : (high - low - 1) * p
      = 4096 * ((high - low - 1) / 4096 * p) + (high - low - 1) % 4096 * p := by
    have := Nat.div_add_mod (high - low - 1) 4096
    calc (high - low - 1) * p
        = (4096 * ((high - low - 1) / 4096) + (high - low - 1) % 4096) * p := by rw [this]
      _ = _ := by rw [Nat.add_mul, Nat.mul_assoc]
  have b1 : (high - low - 1) / 4096 * p ≤ (high - low - 1) / 4096 * 4096 :=
    Nat.mul_le_mul_left _ hp
  have b2 : (high - low - 1) % 4096 * p ≤ (high - low - 1) % 4096 * 4096 :=
    Nat.mul_le_mul_left _ hp
  refine ⟨?_, h2, h3, by omega, by omega, by omega⟩
  rw [h1, e]
  omega

/-- C03, coding one bit.  From an interval of 32-bit values whose top bytes differ, for every
bit and probability, coding succeeds: the renormalisation loop stops after at most four
shifts (bytes), leaves a non-degenerate 32-bit interval whose top bytes differ again, and the
decoder - whatever it has read, when the input holds enough bytes - performs exactly the same
shifts when it takes the same branch. -/
theorem C03_coding_step (low high p : Nat) (bit : Bool) (hlt : low < high) (hh : high < 2 ^ 32)
    (htop : low / 2 ^ 24 ≠ high / 2 ^ 24) (hp : p ≤ 4096) :
    ∃ low' high' bytes, encodeBit ⟨low, high⟩ bit p = some (⟨low', high'⟩, bytes) ∧
      low' < high' ∧ high' < 2 ^ 32 ∧ low' / 2 ^ 24 ≠ high' / 2 ^ 24 ∧ bytes.length ≤ 4 ∧
      ∀ (next : Nat) (s : List Bool), (next ≤ split low high p ↔ bit = true) →
        8 * bytes.length ≤ s.length →
        ∃ next', decodeBit ⟨⟨low, high⟩, next, s⟩ p
          = some (bit, ⟨⟨low', high'⟩, next', s.drop (8 * bytes.length)⟩) := by
  have hw : high < W := by simpa [W] using hh
  have hle : low / 2 ^ 24 ≤ high / 2 ^ 24 := Nat.div_le_div_right (by omega)
  have ho : Range.Ok ⟨low, high⟩ := ⟨hlt, hw, by simp only; omega⟩
  obtain ⟨c1, c2, _⟩ := Range.choose_spec ho bit hp
  obtain ⟨r', bs, he, hok, hlen, _⟩ := renorm_spec 4 _ c1 c2 (by simp) (by omega)
  refine ⟨r'.low, r'.high, bs, he, hok.lt, by simpa [W] using hok.high, ?_, hlen, ?_⟩
  · have := hok.top; omega
  · intro next s hn hs
    obtain ⟨v', hv'⟩ := renormDec_follows 5 he next s hs
    refine ⟨v', ?_⟩
    have hb : decide (next ≤ split low high p) = bit := by
      cases bit <;> simp_all
    unfold decodeBit
    simp only [hb, loopFuel, hv', Option.bind_eq_bind, Option.bind_some, Option.pure_def]

/-- Non-vacuity, and the extreme case mentioned in BitCoders.hpp: coding a one with
probability 0 is legal and generates four bytes. -/
example : (0:Nat) < 0xFFFFFFFF ∧ (0:Nat) / 2 ^ 24 ≠ 0xFFFFFFFF / 2 ^ 24 ∧
    encodeBit ⟨0, 0xFFFFFFFF⟩ true 0 = some (⟨0, 0xFFFFFFFF⟩, [0, 0, 0, 0]) := by decide

/-- C04.  For every sequence of bits with probabilities at most 4096: encoding and finishing
succeeds with at most `4·n + 4` bytes, and a decoder started on those bytes followed by any
bits, asked with the same probabilities, returns the bits and has consumed exactly the
encoder's bytes. -/
theorem C04_arithmetic_coding_roundtrip (items : List (Bool × Nat))
    (hp : ∀ x ∈ items, x.2 ≤ 4096) :
    ∃ bytes, encodeSeq Range.init items = some bytes ∧ 4 ≤ bytes.length ∧
      bytes.length ≤ 4 * items.length + 4 ∧
      ∀ tail : List Bool, ∃ d d', decStart (bytesBits bytes ++ tail) = some d ∧
        decodeSeq d (items.map Prod.snd) = some (items.map Prod.fst, d') ∧ d'.input = tail := by
  obtain ⟨F, h1, h2, h3, _⟩ := encodeSeq_spec Range.init items Range.init_ok hp
  refine ⟨F, h1, h2, h3, fun tail => ?_⟩
  obtain ⟨F', d, d', e1, e2⟩ := encodeSeq_decode hp tail
  rw [h1] at e1
  cases e1
  exact ⟨d, d', e2⟩

/-- C04 for adaptive models: the decoder keeps its own copy of an arbitrary deterministic
model, updated with the bits it decodes. -/
theorem C04_adaptive_coding_roundtrip {σ : Type} (prob : σ → Nat) (upd : σ → Bool → σ)
    (hp : ∀ m, prob m ≤ 4096) (m₀ : σ) (bits : List Bool) :
    ∃ bytes, encodeSeq Range.init (adaptiveItems prob upd m₀ bits) = some bytes ∧
      ∀ tail : List Bool, ∃ d d', decStart (bytesBits bytes ++ tail) = some d ∧
        decodeAdaptive prob upd bits.length m₀ d = some (bits, d') ∧ d'.input = tail := by
  obtain ⟨F, h1, _⟩ := encodeSeq_spec Range.init _ Range.init_ok
    (adaptiveItems_le (upd := upd) hp m₀ bits)
  refine ⟨F, h1, fun tail => ?_⟩
  obtain ⟨F', d, e1, e2, e3⟩ := DecRel.start (adaptiveItems_le (upd := upd) hp m₀ bits) tail
  rw [h1] at e1
  cases e1
  obtain ⟨d', r', e4, e5⟩ := decodeAdaptive_spec hp e3
  exact ⟨d, d', e2, e4, e5.finish⟩

/-- C04 for several sequences written back to back by the same encoder. -/
theorem C04_consecutive_sequences (seqs : List (List (Bool × Nat)))
    (hp : ∀ items ∈ seqs, ∀ x ∈ items, x.2 ≤ 4096) :
    ∃ bytes, encodeMany seqs = some bytes ∧ ∀ tail : List Bool,
      decodeMany (bytesBits bytes ++ tail) (seqs.map (·.map Prod.snd))
        = some (seqs.map (·.map Prod.fst), tail) :=
  encodeMany_decode seqs hp

/-- Non-vacuity: two sequences, with extreme probabilities against the coded bit. -/
example : (∀ items ∈ [[(true, 0), (false, 4096), (true, 1000)], [(false, 2048)]],
      ∀ x ∈ items, x.2 ≤ 4096) ∧
    (encodeMany [[(true, 0), (false, 4096), (true, 1000)], [(false, 2048)]]).isSome := by
  decide

end Bwtc.Props
