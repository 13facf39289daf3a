import Verif.SizeField
import Verif.Props.Sound

/-!
# C59: damage to the size field
-/

set_option autoImplicit false

namespace Bwtc.Props
open Container PairReplace FreqTable Grammar

/-- Decoding the first slice of the file stores more bytes than the `size + 1` that were allocated for the block
(PrecompressorBlock.cpp:36-38). -/
def Overruns (fuel : Nat) (file : List UInt8) : Prop :=
  ∃ letter s size slices g s' d t r, readByte (bytesBits file) = some (letter, s) ∧
    readBlockHeader s = some (some (size, slices, g), s') ∧ 0 < slices ∧
    (coderOf letter).decode fuel (coderOf letter).init s' = some (d, t, r) ∧ size + 1 < d.data.length

/-- The full claim C59: no file, however damaged, makes the decompressor write outside the memory of the block. -/
def C59_claim : Prop := ∀ file : List UInt8, ∃ N, ∀ fuel, N ≤ fuel → ¬ Overruns fuel file

/-- An overrun is undefined in the model of the decompressor. -/
theorem overrun_undefined {fuel : Nat} {file : List UInt8} (h : Overruns fuel file) (junk : UInt8) : decompress junk fuel file = none := by
  obtain ⟨letter, s, size, slices, g, s', d, t, r, h1, h2, h3, h4, h5⟩ := h
  obtain ⟨k, rfl⟩ : ∃ k, slices = k + 1 := ⟨slices - 1, by omega⟩
  rw [decompress, h1]
  simp only [Option.bind_eq_bind, Option.bind_some]
  rw [decompressBlocks, h2]
  simp only [Option.bind_eq_bind, Option.bind_some]
  rw [decodeSlices]
  split
  · rfl
  · rw [h4]
    simp only [Option.bind_eq_bind, Option.bind_some]
    rw [if_pos ?_]
    · rfl
    · rw [List.length_nil]
      by_cases hc : d.size = d.data.length
      · exact .inl (by omega)
      · exact .inr hc

theorem maxBlock_big : 2 ^ 29 ≤ maxBlock := by rw [maxBlock]; omega

theorem size_field_general (o : Options) (hr : o.rounds = 0) (e : Env) (input : List UInt8) (h6 : 6 ≤ o.memLimit)
    (hm : o.memLimit ≤ 2902000000) (hin : input.length < 2 ^ 56) (hne : input ≠ []) (fuel : Nat) (file : List UInt8) (n : Nat)
    (hc : compress o e fuel input = some (file, n)) :
    ∃ len field tail, 0 < len ∧ len ≤ input.length ∧ packed len = some (field, field.length) ∧ file = o.letter :: (field ++ tail) ∧
      (input.length ≤ times0185 o.memLimit → len = input.length) ∧
      (∀ size other k, size ≠ 0 → size < 2 ^ 56 → packed size = some (other, k) → ∃ N, ∀ fuel', N ≤ fuel' → ∀ rest : List UInt8,
        (len ≤ size → ∀ junk, decompress junk fuel' (o.letter :: (other ++ tail ++ rest)) = some input) ∧
        (size + 1 < len → Overruns fuel' (o.letter :: (other ++ tail ++ rest))) ∧
        (len ≤ size + 1 → ¬ Overruns fuel' (o.letter :: (other ++ tail ++ rest)))) ∧
      ∀ junk fuel' (rest : List UInt8), decompress junk fuel' (o.letter :: 0 :: rest) = some [] := by
  have hsm := times0185_small hm
  obtain ⟨_, _, t3, _⟩ := times_bounds o.memLimit
  have t3 := t3 h6
  have hmx := maxBlock_pos
  obtain ⟨cs, hcs⟩ := InChunks.exists (n := min (times0185 o.memLimit) maxBlock) (by omega) _ input (Nat.le_refl _)
  have hpb : pbBlock o = min (times0185 o.memLimit) maxBlock := by
    rw [pbBlock, if_pos hr, bwtBlock0]
  have hb : bwtBlock0 o ≤ maxBlock := Nat.min_le_right _ _
  rw [← hpb] at hcs
  obtain ⟨f1, f2, f3⟩ := hcs.facts (by omega)
  have hplan := plan_plain (e := e) hr (by omega) hcs (input.length + 1) (by omega)
  have hdata := plan_data (by omega) _ _ _ _ hplan hb
  obtain ⟨R, hR⟩ := coder_sound o.letter e.cheap
  have hbs : ∀ c ∈ cs, BlockOK (clampStarts o.starts) (fun _ => NoRun (2 ^ 29)) ⟨c, c, empty, [c]⟩ := by
    intro c hc
    refine ⟨restores_empty c, Nat.le_refl _, ?_⟩
    intro s hs
    simp only [List.mem_singleton] at hs
    subst hs
    obtain ⟨g1, g2, _⟩ := f3 s hc
    refine sliceOK_of_count g1 fun x => ?_
    have := List.count_le_length (a := x) (l := s)
    omega
  cases hcs with
  | nil => exact absurd rfl hne
  | @cons _ cs' _ hcs' =>
  generalize hL : input.take (pbBlock o) = c at *
  rw [compress] at hc
  simp only [Option.bind_eq_bind, Option.bind_eq_some_iff, Option.pure_def, Option.some.injEq, Prod.mk.injEq] at hc
  obtain ⟨⟨w, m⟩, e1, rfl, rfl⟩ := hc
  obtain ⟨c1, c2, c3⟩ := f3 c (by simp)
  obtain ⟨field, tail, q1, q2, q3, q4⟩ := blocks_resized (C := coderOf o.letter) hR fuel _ _ input ⟨c, c, empty, [c]⟩
    (cs'.map fun c => ⟨c, c, empty, [c]⟩) hb hin hplan (by
      intro x hx
      rw [← List.map_cons (f := fun c => (⟨c, c, empty, [c]⟩ : Block))] at hx
      obtain ⟨y, hy, rfl⟩ := List.mem_map.mp hx
      exact hbs y hy) c [] rfl _ _ _ hR.init e1
  refine ⟨c.length, field, tail ++ [0], List.length_pos_iff.mpr c1, c3, q2, by rw [q1]; simp, ?_, ?_, ?_⟩
  · intro hfit
    rw [← hL, hpb, Nat.min_eq_left (Nat.le_trans (Nat.le_of_lt hsm) maxBlock_big), List.take_of_length_le hfit]
  · intro size other k hs0 hs hp
    obtain ⟨N, hN⟩ := q4 size other k hs0 hs hp
    refine ⟨N, fun fuel' hf rest => ?_⟩
    obtain ⟨n1, n2⟩ := hN fuel' hf
    have hre : other ++ (tail ++ [0]) ++ rest = other ++ tail ++ 0 :: rest := by simp
    rw [hre]
    have hread : readByte (bytesBits (o.letter :: (other ++ tail ++ 0 :: rest))) = some (o.letter, bytesBits (other ++ tail ++ 0 :: rest)) := by
      rw [bytesBits_cons, readByte_byteBits]
    obtain ⟨g, s, d, t, r, m1, m2, m3, m4⟩ := n2 (0 :: rest)
    refine ⟨?_, ?_, ?_⟩
    · intro hle junk
      rw [decompress, hread]
      simp only [Option.bind_eq_bind, Option.bind_some]
      rw [n1 hle junk _ rest (by
        rw [List.length_map] at q3 ⊢
        simp only [List.length_cons, List.length_append]
        omega)]
      rw [List.map_cons] at hdata
      rw [hdata]
    · intro hlt
      exact ⟨o.letter, _, size, _, g, s, d, t, r, hread, m1, by simp, m2, by omega⟩
    · rintro hle ⟨letter', s1, size', slices', g1, s2, d', t', r', o1, o2, o3, o4, o5⟩
      rw [hread, Option.some.injEq, Prod.mk.injEq] at o1
      obtain ⟨rfl, rfl⟩ := o1
      rw [m1] at o2
      simp only [Option.some.injEq, Prod.mk.injEq] at o2
      obtain ⟨⟨rfl, _, _⟩, rfl⟩ := o2
      rw [m2] at o4
      simp only [Option.some.injEq, Prod.mk.injEq] at o4
      obtain ⟨rfl, _, _⟩ := o4
      omega
  · intro junk fuel' rest
    rw [decompress, bytesBits_cons, readByte_byteBits]
    simp only [Option.bind_eq_bind, Option.bind_some]
    rw [decompressBlocks, readEnd]
    rfl

/-- C59, exactly: of a file that the compressor has written (any coder, no preprocessing, input not empty), let the size field of the first block, which has
`len` bytes, be replaced by the field for any other size.  A larger size goes unnoticed: the output is right.  With a smaller one the decoder stores
`len` bytes into the `size + 1` bytes allocated.  A zero makes the decompressor end without an error and without output. -/
theorem C59_size_field_is_trusted (letter : UInt8) (starts memLimit : Nat) (e : Env) (input : List UInt8) (h6 : 6 ≤ memLimit)
    (hm : memLimit ≤ 2902000000) (hin : input.length < 2 ^ 56) (hne : input ≠ []) (fuel : Nat) (file : List UInt8) (n : Nat)
    (hc : compress ⟨letter, starts, 0, memLimit⟩ e fuel input = some (file, n)) :
    ∃ len field tail, 0 < len ∧ len ≤ input.length ∧ packed len = some (field, field.length) ∧ file = letter :: (field ++ tail) ∧
      (input.length ≤ times0185 memLimit → len = input.length) ∧
      (∀ size other k, size ≠ 0 → size < 2 ^ 56 → packed size = some (other, k) → ∃ N, ∀ fuel', N ≤ fuel' → ∀ rest : List UInt8,
        (len ≤ size → ∀ junk, decompress junk fuel' (letter :: (other ++ tail ++ rest)) = some input) ∧
        (size + 1 < len → Overruns fuel' (letter :: (other ++ tail ++ rest))) ∧
        (len ≤ size + 1 → ¬ Overruns fuel' (letter :: (other ++ tail ++ rest)))) ∧
      ∀ junk fuel' (rest : List UInt8), decompress junk fuel' (letter :: 0 :: rest) = some [] := by
  exact size_field_general ⟨letter, starts, 0, memLimit⟩ rfl e input h6 hm hin hne fuel file n hc

/-- C59 is false of the code: every Huffman-coded file of an input of four bytes or more, with the size field of the first block set to 1. -/
theorem C59_fails : ¬ C59_claim := by
  intro h
  obtain ⟨N0, hrt⟩ := C38_huffman 1 100000000 sampleEnv [97, 98, 99, 100] (by decide) (by decide) (by decide)
  obtain ⟨file, h1, _⟩ := hrt N0 (N0 + 1) (by omega) (by omega)
  obtain ⟨len, field, tail, _, _, _, _, h5, h6, _⟩ := C59_size_field_is_trusted 72 1 100000000 sampleEnv [97, 98, 99, 100] (by decide) (by decide)
    (by decide) (by simp) N0 file _ h1
  have h5 := h5 (by decide +kernel)
  obtain ⟨other, o1, _, _⟩ := packed_spec (n := 1) (by decide)
  obtain ⟨N, h7⟩ := h6 1 other _ (by decide) (by decide) o1
  obtain ⟨M, h8⟩ := h (72 :: (other ++ tail ++ []))
  exact h8 (max N M) (by omega) ((h7 (max N M) (by omega) []).2.1 (by rw [h5]; decide))

/-- C59, the part that holds: no file that the compressor has written overruns, whatever follows it. -/
theorem C59_written_files_partial (letter : UInt8) (starts memLimit : Nat) (e : Env) (input : List UInt8) (h6 : 6 ≤ memLimit)
    (hm : memLimit ≤ 2902000000) (hin : input.length < 2 ^ 56) (fuel : Nat) (file : List UInt8) (n : Nat)
    (hc : compress ⟨letter, starts, 0, memLimit⟩ e fuel input = some (file, n)) :
    ∃ N, ∀ fuel', N ≤ fuel' → ∀ rest : List UInt8, ¬ Overruns fuel' (file ++ rest) := by
  obtain ⟨_, N, h⟩ := C56_written_files_restored letter starts memLimit e input h6 hm hin fuel file n hc
  refine ⟨N, fun fuel' hf rest ho => ?_⟩
  have h1 := h fuel' hf 0 rest
  rw [overrun_undefined ho 0] at h1
  simp at h1

/-- The hypotheses can be met, by every coder that writes a file: here a Markov model, with the size 2 of "ba" replaced by 5. -/
example : ∃ file, file ≠ [] ∧ ∃ N, ∀ fuel', N ≤ fuel' → ∀ junk, decompress junk fuel' file = some [98, 97] := by
  have h : (compress ⟨109, 1, 0, 1000⟩ sampleEnv 20 [98, 97]).isSome = true := by decide +kernel
  obtain ⟨⟨file, n⟩, h⟩ := Option.isSome_iff_exists.mp h
  obtain ⟨len, field, tail, _, h3, _, _, _, h5, _⟩ := C59_size_field_is_trusted 109 1 1000 sampleEnv [98, 97] (by decide) (by decide)
    (by decide) (by simp) 20 file n h
  obtain ⟨other, o1, _, _⟩ := packed_spec (n := 5) (by decide)
  obtain ⟨N, h7⟩ := h5 5 other _ (by decide) (by decide) o1
  simp only [List.length_cons, List.length_nil] at h3
  exact ⟨109 :: (other ++ tail ++ []), by simp, N, fun fuel' hf junk => (h7 fuel' hf []).1 (by omega) junk⟩

end Bwtc.Props
