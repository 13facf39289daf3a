import Verif.ContainerSort
import Verif.Props.Container

/-!
# C49: the compressed file does not depend on the suffix sorter
-/

set_option autoImplicit false

namespace Bwtc.Props

open Container

/-- What is allocated for divsufsort: `len + 1` cells of any content. -/
def Allocated (cells : List UInt8 → Nat → Nat → List Int) : Prop := ∀ mem pos len, len + 1 ≤ (cells mem pos len).length

/-- C49 with the option `s` (SA-IS): the file is the one made from sorted suffixes, for all options, all memory limits and all inputs. -/
theorem C49_sais (cells : List UInt8 → Nat → Nat → List Int) (o : Options) (e : Env) (fuel : Nat) (input : List UInt8) :
    compressWith 115 cells o e fuel input = compress o e fuel input := by
  obtain ⟨h1, h2⟩ := transformOf_sais cells maxBlock (clampStarts o.starts)
  exact sub_antisymm (compressWith_sub h1 (bounded_max o e) (bwtBlock0_max o) fuel input) (compressWith_sup h2 (bounded_max o e) (bwtBlock0_max o) fuel input)

/-- C49 without preprocessing, for a memory limit of up to 113 MB (the default is 100 MB): whatever sorter is chosen and whatever the memory holds that
divsufsort allocates, the file is the one made from sorted suffixes. -/
theorem C49_plain (choice : UInt8) (cells : List UInt8 → Nat → Nat → List Int) (hc : Allocated cells) (letter : UInt8) (starts memLimit : Nat) (e : Env)
    (fuel : Nat) (input : List UInt8) (hm : memLimit ≤ 113000000) :
    compressWith choice cells ⟨letter, starts, 0, memLimit⟩ e fuel input = compress ⟨letter, starts, 0, memLimit⟩ e fuel input := by
  have hb : bwtBlock0 ⟨letter, starts, 0, memLimit⟩ ≤ 21137958 := by
    have := bwtBlock0_le letter starts 0 memLimit
    omega
  obtain ⟨h1, h2⟩ := transformOf_small choice hc hb (clampStarts starts)
  have hB := bounded_plain (o := ⟨letter, starts, 0, memLimit⟩) e rfl
  have hQ : (fun bwt => bwt = bwtBlock0 ⟨letter, starts, 0, memLimit⟩) (bwtBlock0 ⟨letter, starts, 0, memLimit⟩) := rfl
  have k1 := compressWith_sub (o := ⟨letter, starts, 0, memLimit⟩) (e := e) h1 hB hQ fuel input
  have k2 := compressWith_sup (o := ⟨letter, starts, 0, memLimit⟩) (e := e) h2 hB hQ fuel input
  exact sub_antisymm k1 k2

/-- C49 with preprocessing, for a memory limit of 2 bytes to 116 MB. -/
theorem C49_preprocessed (choice : UInt8) (cells : List UInt8 → Nat → Nat → List Int) (hc : Allocated cells) (letter : UInt8) (starts rounds memLimit : Nat) (e : Env)
    (fuel : Nat) (input : List UInt8) (hr : 1 ≤ rounds) (h2 : 2 ≤ memLimit) (hm : memLimit ≤ 116000000) :
    compressWith choice cells ⟨letter, starts, rounds, memLimit⟩ e fuel input = compress ⟨letter, starts, rounds, memLimit⟩ e fuel input := by
  have h0 : (⟨letter, starts, rounds, memLimit⟩ : Options).rounds ≠ 0 := by show rounds ≠ 0; omega
  have hp : pbBlock ⟨letter, starts, rounds, memLimit⟩ = times074 memLimit := by rw [pbBlock, if_neg h0]
  have hB := bounded_pre (o := ⟨letter, starts, rounds, memLimit⟩) e h0 h2 (by show memLimit < 2 ^ 64; omega)
  have hQ : bwtBlock0 ⟨letter, starts, rounds, memLimit⟩ ≤ maxBlock ∧ pbBlock ⟨letter, starts, rounds, memLimit⟩ ≠ bwtBlock0 ⟨letter, starts, rounds, memLimit⟩ := by
    refine ⟨bwtBlock0_max _, ?_⟩
    rw [hp]
    have h3 := times074_ge h2
    have h4 := bwtBlock0_le letter starts rounds memLimit
    omega
  obtain ⟨k1, k2⟩ := transformOf_small choice hc (B := 2 * memLimit / 11) (by omega) (clampStarts starts)
  have j1 := compressWith_sub (o := ⟨letter, starts, rounds, memLimit⟩) (e := e) k1 hB hQ fuel input
  have j2 := compressWith_sup (o := ⟨letter, starts, rounds, memLimit⟩) (e := e) k2 hB hQ fuel input
  exact sub_antisymm j1 j2

/-- C49 for every memory limit, every option and every input: whatever sorter is chosen, if a file is written at all (no stack overflows), then it is the one made from sorted
suffixes. -/
theorem C49_never_different (choice : UInt8) (cells : List UInt8 → Nat → Nat → List Int) (hc : Allocated cells) (o : Options) (e : Env)
    (fuel : Nat) (input : List UInt8) (r : List UInt8 × Nat) (h : compressWith choice cells o e fuel input = some r) : compress o e fuel input = some r :=
  compressWith_sub (transformOf_any choice hc _) (bounded_max o e) (bwtBlock0_max o) fuel input r h

/-- C49, round trip with the sorters of the program: Huffman coding, no preprocessing, any sorter, any number of starting points, up to 113 MB of memory. -/
theorem C49_huffman_roundtrip (choice : UInt8) (cells : List UInt8 → Nat → Nat → List Int) (hc : Allocated cells) (starts memLimit : Nat) (e : Env) (input : List UInt8)
    (h6 : 6 ≤ memLimit) (hm : memLimit ≤ 113000000) (hin : input.length < 2 ^ 56) :
    ∃ N, ∀ fuel fuel', N ≤ fuel → fuel < fuel' → ∃ file,
      compressWith choice cells ⟨72, starts, 0, memLimit⟩ e fuel input = some (file, file.length % 2 ^ 64) ∧
        ∀ junk (rest : List UInt8), decompress junk fuel' (file ++ rest) = some input := by
  obtain ⟨N, h⟩ := C38_huffman starts memLimit e input h6 (by omega) hin
  refine ⟨N, fun fuel fuel' h1 h2 => ?_⟩
  rw [C49_plain choice cells hc 72 starts memLimit e fuel input hm]
  exact h fuel fuel' h1 h2

/-- The hypotheses are met: the array holds -1 everywhere, the memory limit is the default. -/
example : Allocated (fun _ _ len => List.replicate (len + 1) (-1)) ∧ 6 ≤ memLimitOf 100 ∧ memLimitOf 100 ≤ 113000000 :=
  ⟨fun _ _ _ => by rw [List.length_replicate]; exact Nat.le_refl _, by decide, by decide⟩

end Bwtc.Props
