import Verif.HuffSize
import Verif.Props.Container

/-!
# C52: the Huffman coder never expands its input by more than a fixed ratio
-/

set_option autoImplicit false

namespace Bwtc.Props
open HuffBlock Container Grammar

/-- C52 for one block: 39/32 of the block (one bit for each run length, the shapes of the codes of all sections), and a header whose length
depends on the number of starting points only. -/
theorem C52_block (powers stats : List Nat) (data : List UInt8) (hsum : stats.sum = data.length) (hne : data ≠ [])
    (hlen : data.length < 2 ^ 31) (hrun : ∀ c, ¬ List.replicate (2 ^ 29) c <:+: data) (w : List UInt8) (n : Nat)
    (h : encodeBlock powers stats data = some (w, n)) :
    32 * w.length ≤ 39 * data.length + 32 * (854 + (31 * powers.length + 7) / 8) :=
  HuffSize.block_size hsum hne hlen hrun h

theorem prepare_le (len starts : Nat) (h : 1 ≤ starts) : (FwdBWT.prepare len starts).length ≤ starts := by
  unfold FwdBWT.prepare
  split
  · rw [List.length_replicate]; omega
  · split
    · rw [List.length_replicate]; omega
    · rw [List.length_replicate]; omega

theorem packed_len {n k : Nat} (hk : 0 < k) (h : n < 128 ^ k) (h56 : n < 2 ^ 56) {w : List UInt8} {x : Nat} (hp : packed n = some (w, x)) :
    w.length ≤ k := by
  have := Varint.vbytes_length_le h hk
  rw [packed, Varint.packInteger_eq h56] at hp
  simp only [Option.bind_eq_bind, Option.bind_some, Option.pure_def, Option.some.injEq, Prod.mk.injEq, Varint.writeCounted_leNat] at hp
  rw [← hp.1]
  exact this

/-- Without preprocessing the header of a block has seven bytes at most. -/
theorem header_len {n : Nat} (h : n < 2 ^ 31) {w : List UInt8} {x : Nat} (hw : writeBlockHeader n 1 empty = some (w, x)) :
    w.length ≤ 7 := by
  rw [writeBlockHeader] at hw
  simp only [Option.bind_eq_bind] at hw
  rw [Option.bind_eq_some_iff] at hw
  obtain ⟨⟨a, y⟩, h1, hw⟩ := hw
  rw [Option.bind_eq_some_iff] at hw
  obtain ⟨⟨b, z⟩, h2, hw⟩ := hw
  rw [Option.bind_eq_some_iff] at hw
  obtain ⟨⟨c, u⟩, h3, hw⟩ := hw
  simp only [Option.pure_def, Option.some.injEq, Prod.mk.injEq] at hw
  have l1 := packed_len (k := 5) (by omega) (by omega) (by omega) h1
  have l2 := packed_len (k := 1) (by omega) (by omega) (by omega) h2
  have l3 : c.length ≤ 1 := by
    have : (writeGrammar empty).map (fun r => r.1.length) = some 1 := by decide +kernel
    rw [h3] at this
    simp at this
    omega
  rw [← hw.1]
  simp only [List.length_append]
  omega

/-- One piece of the input. -/
theorem slice_size {e : Env} {fuel starts : Nat} (hs : 1 ≤ starts) {data : List UInt8} (hne : data ≠ []) (h29 : data.length < 2 ^ 29)
    {w : List UInt8} {n : Nat} {st t : huffman.σ}
    (h : encodeSlices huffman e.cheap fuel starts [data.length] (data ++ [e.junk]) 0 st = some (w, n, t)) :
    32 * w.length ≤ 39 * data.length + 32 * (854 + (31 * starts + 7) / 8) := by
  obtain ⟨s', lf, freqs, h1, h2, h3, h4, h5, h6, _⟩ := FwdBWT.transform_spec data starts
    (List.replicate 256 0) hne (by rw [List.length_replicate])
  have hl' : s'.length = data.length := h2.length_eq
  have hsum : freqs.sum = s'.length := by
    rw [h6.2.2, List.sum_replicate_nat, List.length_reverse]
    omega
  have ht := h1 [] e.junk []
  simp only [List.nil_append, List.length_nil] at ht
  rw [encodeSlices, ht] at h
  simp only [Option.bind_eq_bind, Option.bind_some, List.drop_zero] at h
  rw [← hl', List.take_left] at h
  rw [Option.bind_eq_some_iff] at h
  obtain ⟨⟨a, x, st1⟩, h7, h⟩ := h
  rw [Option.bind_eq_some_iff] at h
  obtain ⟨⟨b, y, st2⟩, h8, h⟩ := h
  simp only [encodeSlices, Option.some.injEq, Prod.mk.injEq] at h8
  simp only [Option.pure_def, Option.some.injEq, Prod.mk.injEq] at h
  have h9 : ∃ k, encodeBlock lf freqs s' = some (a, k) := by
    simp only [huffman, Option.map_eq_some_iff] at h7
    obtain ⟨⟨a', k⟩, h7, h10⟩ := h7
    simp only [Prod.mk.injEq] at h10
    rw [h10.1] at h7
    exact ⟨k, h7⟩
  obtain ⟨k, h9⟩ := h9
  have hsz := C52_block lf freqs s' hsum (by
    intro hc
    rw [hc] at hl'
    exact hne (List.length_eq_zero_iff.mp hl'.symm)) (by omega) (by
    intro c hc
    have := hc.length_le
    rw [List.length_replicate] at this
    omega) a k h9
  have hp := prepare_le data.length starts hs
  rw [← h.1, ← h8.1, List.append_nil]
  have : (31 * lf.length + 7) / 8 ≤ (31 * starts + 7) / 8 := Nat.div_le_div_right (by omega)
  omega

/-- Number of pieces of at most `B` bytes. -/
def pieces (B n : Nat) : Nat := (n + B - 1) / B

theorem pieces_step {B n : Nat} (hB : 0 < B) (hn : 0 < n) : pieces B (n - B) + 1 = pieces B n := by
  rw [pieces, pieces]
  by_cases h : n ≤ B
  · have h1 : (n - B + B - 1) / B = 0 := Nat.div_eq_of_lt (by omega)
    have h2 : (n + B - 1) / B = 1 := Nat.div_eq_of_lt_le (by omega) (by omega)
    omega
  · rw [show n + B - 1 = (n - B + B - 1) + B by omega, Nat.add_div_right _ hB]

theorem blocks_size {starts memLimit : Nat} {e : Env} {fuel B K : Nat} (hB : bwtBlock0 ⟨72, starts, 0, memLimit⟩ = B) (h0 : 0 < B)
    (h29 : B < 2 ^ 29) (hK : K = 861 + (31 * clampStarts starts + 7) / 8) :
    ∀ (f : Nat) (input w : List UInt8) (n : Nat) (st : huffman.σ),
      compressBlocks huffman ⟨72, starts, 0, memLimit⟩ e fuel f B st input = some (w, n) →
      32 * w.length ≤ 39 * input.length + 32 * (K * pieces B input.length) := by
  have hpb : pbBlock ⟨72, starts, 0, memLimit⟩ = B := by rw [pbBlock, if_pos rfl, hB]
  intro f
  induction f with
  | zero =>
    intro input w n st h
    simp [compressBlocks] at h
  | succ f ih =>
    intro input w n st h
    rw [compressBlocks, hpb] at h
    by_cases hl : (input.take B).length = 0
    · rw [if_pos hl] at h
      simp only [Option.some.injEq, Prod.mk.injEq] at h
      rw [← h.1]
      simp
    · rw [if_neg hl] at h
      have hlt : (input.take B).length = min B input.length := List.length_take
      have hfr := frontBlock_whole (letter := 72) (starts := starts) (memLimit := memLimit) (e := e) (input := input.take B)
        (by intro hc; rw [hc] at hl; simp at hl) (by omega)
      rw [hB] at hfr
      rw [hfr] at h
      simp only [Option.bind_eq_bind, Option.bind_some, List.length_singleton, List.map_cons, List.map_nil] at h
      rw [Option.bind_eq_some_iff] at h
      obtain ⟨⟨hd, x⟩, h1, h⟩ := h
      rw [Option.bind_eq_some_iff] at h
      obtain ⟨⟨a, y, st'⟩, h2, h⟩ := h
      rw [Option.bind_eq_some_iff] at h
      obtain ⟨⟨r, z⟩, h3, h⟩ := h
      simp only [Option.pure_def, Option.some.injEq, Prod.mk.injEq] at h
      have l1 := header_len (by omega) h1
      have l2 := slice_size (by rw [clampStarts]; split <;> (try split) <;> omega)
        (by intro hc; rw [hc] at hl; simp at hl) (by omega) h2
      have l3 := ih (input.drop B) r z st' h3
      rw [List.length_drop] at l3
      have hst := pieces_step (n := input.length) h0 (by omega)
      rw [← hst, Nat.mul_add, Nat.mul_one]
      rw [← h.1, List.length_append, List.length_append]
      generalize K * pieces B (input.length - B) = Q at *
      omega

/-- C52: the Huffman coder without preprocessing, any input, any number of starting points and any memory limit from 6 to 2902000000 bytes: the
compressed file has at most 39/32 of the size of the input, 861 bytes (and 31 bits for each starting point) for each piece of the input that is handled at
once, and two bytes. -/
theorem C52_huffman_file (starts memLimit : Nat) (e : Env) (input : List UInt8) (h6 : 6 ≤ memLimit)
    (hm : memLimit ≤ 2902000000) (fuel : Nat) (file : List UInt8) (n : Nat)
    (h : compress ⟨72, starts, 0, memLimit⟩ e fuel input = some (file, n)) :
    32 * file.length ≤ 39 * input.length +
      32 * ((861 + (31 * clampStarts starts + 7) / 8) * pieces (min (times0185 memLimit) maxBlock) input.length + 2) := by
  have hsm := times0185_small hm
  obtain ⟨_, _, t3, _⟩ := times_bounds memLimit
  have t3 := t3 h6
  have hmx := maxBlock_pos
  rw [compress] at h
  simp only [Option.bind_eq_bind] at h
  rw [Option.bind_eq_some_iff] at h
  obtain ⟨⟨w, k⟩, h1, h⟩ := h
  simp only [Option.pure_def, Option.some.injEq, Prod.mk.injEq] at h
  have hb : bwtBlock0 ⟨72, starts, 0, memLimit⟩ = min (times0185 memLimit) maxBlock := rfl
  rw [hb] at h1
  have := blocks_size hb (by omega) (by omega) rfl _ _ _ _ _ h1
  rw [← h.1]
  simp only [List.length_cons, List.length_append, List.length_nil]
  omega

/-- C52 for an input that is handled as one piece: at most a quarter more, and 1856 bytes. -/
theorem C52_one_piece (starts memLimit : Nat) (e : Env) (input : List UInt8) (h6 : 6 ≤ memLimit)
    (hm : memLimit ≤ 2902000000) (hfit : input.length ≤ min (times0185 memLimit) maxBlock) :
    ∃ N, ∀ fuel, N ≤ fuel → ∃ file, compress ⟨72, starts, 0, memLimit⟩ e fuel input = some (file, file.length % 2 ^ 64) ∧
      4 * file.length ≤ 5 * input.length + 4 * 1856 := by
  obtain ⟨_, _, t3, _⟩ := times_bounds memLimit
  have t3 := t3 h6
  have hmx := maxBlock_pos
  obtain ⟨N, hN⟩ := C38_huffman starts memLimit e input h6 hm (by have := maxBlock_lt; omega)
  refine ⟨N, fun fuel hf => ?_⟩
  obtain ⟨file, h, _⟩ := hN fuel (fuel + 1) hf (by omega)
  refine ⟨file, h, ?_⟩
  have h1 := C52_huffman_file starts memLimit e input h6 hm fuel file _ h
  have h2 : pieces (min (times0185 memLimit) maxBlock) input.length ≤ 1 := by
    rw [pieces]
    have hB : 0 < min (times0185 memLimit) maxBlock := by omega
    generalize min (times0185 memLimit) maxBlock = B at *
    have : (input.length + B - 1) / B < 2 := by
      rw [Nat.div_lt_iff_lt_mul (by omega)]
      omega
    omega
  have h3 : clampStarts starts ≤ 256 := by
    rw [clampStarts]
    split
    · omega
    · split <;> omega
  generalize pieces (min (times0185 memLimit) maxBlock) input.length = P at *
  have h4 : (861 + (31 * clampStarts starts + 7) / 8) * P ≤ 1854 * 1 := Nat.mul_le_mul (by omega) h2
  omega

/-- Non-vacuity of `C52_block`: a block of two runs, with two starting points. -/
example : ∃ w, encodeBlock [1, 3] [2, 0, 3] [7, 7, 9, 9, 9] = some (w, w.length) ∧
    32 * w.length ≤ 39 * 5 + 32 * (854 + 8) := by
  have hr : ∀ c : UInt8, ¬ List.replicate (2 ^ 29) c <:+: [7, 7, 9, 9, 9] := by
    intro c hc
    have := hc.length_le
    rw [List.length_replicate] at this
    simp at this
  obtain ⟨w, h, _⟩ := C22_huffman_block_partial [1, 3] [2, 0, 3] [7, 7, 9, 9, 9] (by decide) (by decide) (by decide) (by decide)
    (by decide) (by decide) (by decide) hr
  exact ⟨w, h, C52_block [1, 3] [2, 0, 3] [7, 7, 9, 9, 9] (by decide) (by decide) (by decide) hr w _ h⟩

/-- Non-vacuity of `C52_one_piece`: eight bytes, 100 bytes of memory. -/
example : ∃ N file, compress ⟨72, 4, 0, 100⟩ sampleEnv N [97, 98, 97, 98, 99, 99, 0, 255] = some (file, file.length % 2 ^ 64) ∧
    4 * file.length ≤ 5 * 8 + 4 * 1856 := by
  obtain ⟨N, h⟩ := C52_one_piece 4 100 sampleEnv [97, 98, 97, 98, 99, 99, 0, 255] (by decide) (by decide) (by decide +kernel)
  obtain ⟨file, h⟩ := h N (Nat.le_refl _)
  exact ⟨N, file, h⟩

end Bwtc.Props
