import Verif.HuffBlock
import Verif.Props.BitBuffer

/-!
# C22: Huffman coding of a whole block
-/

set_option autoImplicit false

namespace Bwtc.Props
open HuffBlock

/-- The claim of C22: every non-empty block (below the 2^31 bytes the transform can handle), with
any legal starting points and any character counts adding up to its length, is encoded, and the
decoder, given the encoding followed by any data, recovers starting points, content and size and
leaves exactly the following data. -/
def C22_claim : Prop :=
  ∀ (powers stats : List Nat) (data : List UInt8), 1 ≤ powers.length → powers.length ≤ 256 →
    (∀ p ∈ powers, p < 2 ^ 31) → stats.length ≤ 256 → stats.sum = data.length → data ≠ [] →
    data.length < 2 ^ 31 →
    ∃ w n, encodeBlock powers stats data = some (w, n) ∧ ∀ rest : List UInt8,
      decodeBlock (bytesBits (w ++ rest)) = some (⟨powers, data, data.length⟩, bytesBits rest)

/-- C22 (partial: no run of 2^29 equal bytes).  In addition, the returned size is the number of bytes
written, and the length field holds the number of bytes following it (modulo 2^48). -/
theorem C22_huffman_block_partial (powers stats : List Nat) (data : List UInt8)
    (h1 : 1 ≤ powers.length) (h2 : powers.length ≤ 256) (h3 : ∀ p ∈ powers, p < 2 ^ 31)
    (h4 : stats.length ≤ 256) (h5 : stats.sum = data.length) (h6 : data ≠ [])
    (h7 : data.length < 2 ^ 31) (h8 : ∀ c, ¬ List.replicate (2 ^ 29) c <:+: data) :
    ∃ w, encodeBlock powers stats data = some (w, w.length) ∧ (∀ rest : List UInt8,
      decodeBlock (bytesBits (w ++ rest)) = some (⟨powers, data, data.length⟩, bytesBits rest)) ∧
      (w.take 6) = packBits (bitsOf 48 (w.length - 6)) ∧ 16 ≤ (bytesBits w).length := by
  have hpos : 0 < data.length := List.length_pos_iff.mpr h6
  obtain ⟨h, e1, e2⟩ := Sections.readHeader_write powers stats h1 h2 h3 (by omega) (by omega) h4
  obtain ⟨s1, _, _, _, _⟩ := Sections.sections_spec stats (by omega)
  obtain ⟨b, d1, d2⟩ := sections_roundtrip (Sections.sections stats) data (by omega) h7 h8
  have h6' : (packBits (bitsOf 48 (h.length + b.length))).length = 6 := by
    rw [packBits_length, bitsOf_length]
  refine ⟨packBits (bitsOf 48 (h.length + b.length)) ++ h ++ b, ?_, ?_, ?_, ?_⟩
  · simp only [encodeBlock, e1, Option.bind_eq_bind, Option.bind_some, d1, Option.pure_def]
    simp only [List.length_append, h6']
    congr 2
    omega
  · intro rest
    have hb : bytesBits (packBits (bitsOf 48 (h.length + b.length))) = bitsOf 48 (h.length + b.length) := by
      obtain ⟨k, hk, hp⟩ := bytesBits_packBits (bitsOf 48 (h.length + b.length))
      have := congrArg List.length hp
      rw [bytesBits_length, h6', List.length_append, bitsOf_length, List.length_replicate] at this
      have : k = 0 := by omega
      rw [hp, this, List.replicate_zero, List.append_nil]
    have := e2 ((h.length + b.length) % 2 ^ 48) (bytesBits (b ++ rest)) (Nat.mod_lt _ (by decide))
      (by rw [bytesBits_length]; omega)
    rw [bitsOf_mod] at this
    simp only [decodeBlock, bytesBits_append, hb, List.append_assoc] at this ⊢
    rw [this]
    simp only [Option.bind_eq_bind, Option.bind_some]
    have hd := d2 (Sections.sections stats).sum rest (by omega)
    rw [bytesBits_append] at hd
    rw [hd]
    simp only [Option.bind_some, Option.pure_def, s1, h5]
  · rw [List.append_assoc, List.take_left' h6']
    congr 2
    simp only [List.length_append, h6']
    omega
  · rw [bytesBits_length, List.length_append, List.length_append, h6']
    omega

/-- The block `00 00 01 01` followed by `m = 2^29` bytes `02` is not encoded. -/
theorem C22_long_run_undefined (m : Nat) (hm : m = 2 ^ 29) (powers : List Nat) :
    encodeBlock powers [m + 4] ([0, 0, 1, 1] ++ List.replicate m 2) = none := by
  have hR : Runs.IsRuns [(0, 2), (1, 2), (2, m)] ([0, 0, 1, 1] ++ List.replicate m 2) := by
    refine ⟨?_, ?_, ?_⟩
    · simp only [Runs.expand, List.flatMap_cons, List.flatMap_nil, List.append_nil]
      rw [← List.append_assoc]
      rfl
    · simp [Runs.AdjDiff]
    · intro r hr
      simp only [List.mem_cons, List.not_mem_nil, or_false] at hr
      rcases hr with rfl | rfl | rfl
      · show 1 ≤ 2; omega
      · show 1 ≤ 2; omega
      · show 1 ≤ m; omega
  have hrs := Runs.isRuns_unique hR
  have hlen : ([0, 0, 1, 1] ++ List.replicate m (2 : UInt8)).length = m + 4 := by
    rw [List.length_append, List.length_replicate]
    simp
    omega
  have hst := Runs.storeRuns_eq 0 (fun _ => 0) [] ([0, 0, 1, 1] ++ List.replicate m 2) (by simp)
    (by omega)
  rw [← hrs] at hst
  generalize [0, 0, 1, 1] ++ List.replicate m (2 : UInt8) = data at hst hlen
  have hnone : encodeSection data = none := by
    unfold encodeSection
    rw [hst]
    simp only [Option.bind_eq_bind, Option.bind_some, List.nil_append, List.map_cons, List.map_nil]
    have := C21_long_run_undefined
    rw [← hm] at this
    simp only [this, Option.bind_none, Option.bind_fun_none]
  have hsec : Sections.sections [m + 4] = [m + 4] := by rw [hm]; decide +kernel
  unfold encodeBlock
  rw [hsec]
  rw [encodeSections, if_neg (by omega), if_pos (by omega), List.take_of_length_le (by omega), hnone]
  simp

/-- C22 is false of the code: the block `00 00 01 01` followed by 2^29 bytes `02` has no defined
encoding (see `C21_long_run_undefined`). -/
theorem C22_fails : ¬ C22_claim := by
  intro h
  obtain ⟨m, hm⟩ : ∃ m, m = 2 ^ 29 := ⟨_, rfl⟩
  have hlen : ([0, 0, 1, 1] ++ List.replicate m (2 : UInt8)).length = m + 4 := by
    rw [List.length_append, List.length_replicate]
    simp
    omega
  obtain ⟨w, n, h1, _⟩ := h [0] [m + 4] ([0, 0, 1, 1] ++ List.replicate m 2) (by simp) (by simp)
    (by intro p hp; rw [List.mem_singleton] at hp; omega)
    (by simp) (by rw [hlen]; simp) (by simp) (by omega)
  rw [C22_long_run_undefined m hm] at h1
  simp at h1

/-- Non-vacuity: a block of two runs, with two starting points. -/
example : ∃ w, encodeBlock [1, 3] [2, 0, 3] [7, 7, 9, 9, 9] = some (w, w.length) :=
  (C22_huffman_block_partial [1, 3] [2, 0, 3] [7, 7, 9, 9, 9] (by decide) (by decide) (by decide) (by decide)
    (by decide) (by decide) (by decide) (by
      intro c hc
      have := hc.length_le
      rw [List.length_replicate] at this
      simp at this)).imp fun _ h => h.1

end Bwtc.Props
