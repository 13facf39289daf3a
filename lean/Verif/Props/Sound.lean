import Verif.Sound
import Verif.Props.Container

/-!
# C56: whatever the compressor writes is restored
-/

set_option autoImplicit false

namespace Bwtc.Props
open Container PairReplace FreqTable Grammar

/-- The blocks without preprocessing. -/
theorem plain_plan (letter : UInt8) (starts memLimit : Nat) (e : Env) (input : List UInt8) (h6 : 6 ≤ memLimit)
    (hm : memLimit ≤ 2902000000) : ∃ bs, planFrom ⟨letter, starts, 0, memLimit⟩ e (input.length + 1)
      (bwtBlock0 ⟨letter, starts, 0, memLimit⟩) input = some bs ∧ ∀ b ∈ bs, BlockOK (clampStarts starts) (fun _ => NoRun (2 ^ 29)) b := by
  have hsm := times0185_small hm
  obtain ⟨_, _, t3, _⟩ := times_bounds memLimit
  have t3 := t3 h6
  have hmx := maxBlock_pos
  obtain ⟨cs, hcs⟩ := InChunks.exists (n := min (times0185 memLimit) maxBlock) (by omega) _ input (Nat.le_refl _)
  have hpb : pbBlock ⟨letter, starts, 0, memLimit⟩ = min (times0185 memLimit) maxBlock := by
    rw [pbBlock, if_pos rfl, bwtBlock0]
  rw [← hpb] at hcs
  obtain ⟨f1, f2, f3⟩ := hcs.facts (by omega)
  refine ⟨_, plan_plain (e := e) rfl (by omega) hcs (input.length + 1) (by omega), ?_⟩
  intro b hb
  obtain ⟨c, hc, rfl⟩ := List.mem_map.mp hb
  refine ⟨restores_empty c, Nat.le_refl _, ?_⟩
  intro s hs
  simp only [List.mem_singleton] at hs
  subst hs
  obtain ⟨g1, g2, _⟩ := f3 s hc
  refine sliceOK_of_count g1 fun x => ?_
  have := List.count_le_length (a := x) (l := s)
  omega

/-- C56: without preprocessing, with every coder (also the Markov models and unknown letters), every memory limit from 6 to 2902000000 bytes, every
number of starting points and whatever the outcomes of the floating-point comparisons: if the compressor gets to the end,
the size it returns is the size of the file, and the decompressor makes the input of it, whatever follows the file. -/
theorem C56_written_files_restored (letter : UInt8) (starts memLimit : Nat) (e : Env) (input : List UInt8) (h6 : 6 ≤ memLimit)
    (hm : memLimit ≤ 2902000000) (hin : input.length < 2 ^ 56) (fuel : Nat) (file : List UInt8) (n : Nat)
    (hc : compress ⟨letter, starts, 0, memLimit⟩ e fuel input = some (file, n)) :
    n = file.length % 2 ^ 64 ∧ ∃ N, ∀ fuel', N ≤ fuel' → ∀ junk (rest : List UInt8),
      decompress junk fuel' (file ++ rest) = some input := by
  obtain ⟨bs, h1, h2⟩ := plain_plan letter starts memLimit e input h6 hm
  obtain ⟨R, hR⟩ := coder_sound letter e.cheap
  have hp : 0 < pbBlock ⟨letter, starts, 0, memLimit⟩ := by
    obtain ⟨_, _, t3, _⟩ := times_bounds memLimit
    have t3 := t3 h6
    have hmx := maxBlock_pos
    rw [pbBlock, if_pos rfl, bwtBlock0]
    simp only []
    omega
  exact container_sound (o := ⟨letter, starts, 0, memLimit⟩) hR hp hin h1 h2 hc

/-- So a file tells its input, even if the coders, memory limits and numbers of starting points differ, and no file is the beginning of the
file of another input. -/
theorem C56_no_file_begins_another (letter letter' : UInt8) (starts starts' memLimit memLimit' : Nat) (e e' : Env) (a b : List UInt8)
    (h6 : 6 ≤ memLimit) (hm : memLimit ≤ 2902000000) (h6' : 6 ≤ memLimit') (hm' : memLimit' ≤ 2902000000) (ha : a.length < 2 ^ 56)
    (hb : b.length < 2 ^ 56) (fuel fuel' : Nat) (file file' : List UInt8) (n n' : Nat)
    (hc : compress ⟨letter, starts, 0, memLimit⟩ e fuel a = some (file, n))
    (hc' : compress ⟨letter', starts', 0, memLimit'⟩ e' fuel' b = some (file', n')) (hp : file <+: file') : a = b := by
  obtain ⟨_, N, h⟩ := C56_written_files_restored letter starts memLimit e a h6 hm ha fuel file n hc
  obtain ⟨_, N', h'⟩ := C56_written_files_restored letter' starts' memLimit' e' b h6' hm' hb fuel' file' n' hc'
  obtain ⟨rest, rfl⟩ := hp
  have h1 := h (max N N') (by omega) 0 rest
  have h2 := h' (max N N') (by omega) 0 []
  rw [List.append_nil] at h2
  rw [h1, Option.some.injEq] at h2
  exact h2

/-- The blocks with preprocessing. -/
theorem preprocessed_plan (letter : UInt8) (starts rounds memLimit : Nat) (e : Env) (input : List UInt8) (cs : List (List UInt8))
    (he : ∀ F, Initial F (e.table F)) (hb : rounds ≤ 1 ∨ ∃ y, e.beyond = some y ∧ 2 ^ 32 ≤ y) (hr : 1 ≤ rounds)
    (h20 : 20 ≤ memLimit) (hm : memLimit ≤ 2415000000)
    (hcs : InChunks (times074 memLimit) input cs)
    (hpre : ∀ c ∈ cs, ∃ out g, precompress e.table e.beyond (e.small c.length) rounds (c ++ [e.junk]) c.length = some (out, g) ∧
      out.length ≤ c.length ∧ SafeRounds e.table e.beyond (e.small c.length) c.length rounds
        ⟨c ++ [e.junk], none, false, c.length, 0, empty⟩) :
    ∃ bs, 0 < pbBlock ⟨letter, starts, rounds, memLimit⟩ ∧
      planFrom ⟨letter, starts, rounds, memLimit⟩ e (input.length + 1) (bwtBlock0 ⟨letter, starts, rounds, memLimit⟩) input = some bs ∧
      ∀ b ∈ bs, BlockOK (clampStarts starts) (fun _ => NoRun (2 ^ 29)) b := by
  have hpb : pbBlock ⟨letter, starts, rounds, memLimit⟩ = times074 memLimit := by
    rw [pbBlock, if_neg (by simp only []; omega)]
  obtain ⟨t1, t2, t3, t4⟩ := times_bounds memLimit
  have t3 := t3 (by omega)
  have t4 := t4 (by omega)
  have hmp := maxBlock_pos
  rw [← hpb] at hcs
  obtain ⟨f1, f2, f3⟩ := hcs.facts (by omega)
  have hb0 : bwtBlock0 ⟨letter, starts, rounds, memLimit⟩ = min (times0185 memLimit) maxBlock := rfl
  obtain ⟨bs, p1, p2, p3⟩ := plan_preprocessed (o := ⟨letter, starts, rounds, memLimit⟩) (e := e) (by simp only []; omega) h20
    (by simp only []; omega) hcs (fun c hc => by
      obtain ⟨out, g, q1, q2, _⟩ := hpre c hc
      exact ⟨out, g, q1, q2⟩) (input.length + 1) (bwtBlock0 ⟨letter, starts, rounds, memLimit⟩) (by omega) (by omega) (by omega)
    (by simp only []; omega)
  refine ⟨bs, by omega, p1, ?_⟩
  intro b hb
  have hbc : b.data ∈ cs := by rw [← p2]; exact List.mem_map.mpr ⟨b, hb, rfl⟩
  obtain ⟨out, g, q1, q2, q3⟩ := hpre b.data hbc
  obtain ⟨r1, r2, r3⟩ := p3 b hb
  have hlen := (f3 _ hbc).2.1
  have hq : some (b.out, b.g) = some (out, g) := r1.symm.trans q1
  simp only [Option.some.injEq, Prod.mk.injEq] at hq
  refine ⟨restores_of_precompress he (by assumption) (by omega) q3 r1, by rw [hq.1]; exact q2, fun s hs => ?_⟩
  obtain ⟨s1, _, s3⟩ := r3 s hs
  refine sliceOK_of_count s1 fun x => ?_
  have := List.count_le_length (a := x) (l := s)
  simp only [] at s3
  omega

/-- C56 with preprocessing (partial: memory limit from 20 to 2415000000 bytes, and every piece of the input that is
preprocessed at once goes through rounds that C36 covers and does not grow). -/
theorem C56_preprocessed_partial (letter : UInt8) (starts rounds memLimit : Nat) (e : Env) (input : List UInt8) (cs : List (List UInt8))
    (he : ∀ F, Initial F (e.table F)) (hb : rounds ≤ 1 ∨ ∃ y, e.beyond = some y ∧ 2 ^ 32 ≤ y) (hr : 1 ≤ rounds)
    (h20 : 20 ≤ memLimit) (hm : memLimit ≤ 2415000000) (hin : input.length < 2 ^ 56)
    (hcs : InChunks (times074 memLimit) input cs)
    (hpre : ∀ c ∈ cs, ∃ out g, precompress e.table e.beyond (e.small c.length) rounds (c ++ [e.junk]) c.length = some (out, g) ∧
      out.length ≤ c.length ∧ SafeRounds e.table e.beyond (e.small c.length) c.length rounds
        ⟨c ++ [e.junk], none, false, c.length, 0, empty⟩) (fuel : Nat) (file : List UInt8) (n : Nat)
    (hc : compress ⟨letter, starts, rounds, memLimit⟩ e fuel input = some (file, n)) :
    n = file.length % 2 ^ 64 ∧ ∃ N, ∀ fuel', N ≤ fuel' → ∀ junk (rest : List UInt8),
      decompress junk fuel' (file ++ rest) = some input := by
  obtain ⟨bs, h0, h1, h2⟩ := preprocessed_plan letter starts rounds memLimit e input cs he hb hr h20 hm hcs hpre
  obtain ⟨R, hR⟩ := coder_sound letter e.cheap
  exact container_sound (o := ⟨letter, starts, rounds, memLimit⟩) hR h0 hin h1 h2 hc

/-- The hypotheses of `C56_preprocessed_partial` hold for every file of 5 to 255 bytes that is read at once, with every coder. -/
theorem C56_preprocessed_short (letter : UInt8) (starts rounds memLimit : Nat) (e : Env) (input : List UInt8)
    (he : ∀ F, Initial F (e.table F)) (hb : rounds ≤ 1 ∨ ∃ y, e.beyond = some y ∧ 2 ^ 32 ≤ y) (hr : 1 ≤ rounds)
    (h20 : 20 ≤ memLimit) (hm : memLimit ≤ 2415000000) (h5 : 5 ≤ input.length)
    (h255 : input.length ≤ 255) (hfit : input.length ≤ times074 memLimit) (hsm : e.small input.length input.length = false)
    (fuel : Nat) (file : List UInt8) (n : Nat) (hc : compress ⟨letter, starts, rounds, memLimit⟩ e fuel input = some (file, n)) :
    n = file.length % 2 ^ 64 ∧ ∃ N, ∀ fuel', N ≤ fuel' → ∀ junk (rest : List UInt8),
      decompress junk fuel' (file ++ rest) = some input := by
  have hne : input ≠ [] := by
    intro hc
    rw [hc] at h5
    simp at h5
  have hcs : InChunks (times074 memLimit) input [input] := by
    have := InChunks.cons (n := times074 memLimit) hne (cs := []) (by
      rw [List.drop_of_length_le hfit]
      exact .nil)
    rwa [List.take_of_length_le hfit] at this
  refine C56_preprocessed_partial letter starts rounds memLimit e input [input] he hb hr h20 hm (by omega) hcs ?_ fuel file n hc
  intro c hc
  rw [List.mem_singleton] at hc
  subst hc
  obtain ⟨k, rfl⟩ : ∃ k, rounds = k + 1 := ⟨rounds - 1, by omega⟩
  obtain ⟨s1, s2, _⟩ := C36_short_blocks e.table he e.beyond (e.small c.length) (c ++ [e.junk]) c.length k h5 h255
    (by simp) hsm
  rw [List.take_left] at s2
  exact ⟨c, empty, s2, Nat.le_refl _, s1⟩

/-- With a Markov model "ba" is written; with it "ab" is not (undefined behaviour). -/
example : (compress ⟨109, 1, 0, 1000⟩ sampleEnv 20 [98, 97]).isSome = true ∧
    (compress ⟨109, 1, 0, 1000⟩ sampleEnv 20 [97, 98]).isSome = false := by decide +kernel

/-- With preprocessing "ababa" is written. -/
example : ∃ N file n, compress ⟨72, 1, 3, 100000000⟩ sampleEnv N [97, 98, 97, 98, 97] = some (file, n) := by
  obtain ⟨N, h⟩ := C38_preprocessed_short 1 3 100000000 sampleEnv [97, 98, 97, 98, 97] makeTable_initial (.inr ⟨_, rfl, by decide⟩)
    (by decide) (by decide) (by decide) (by decide) (by decide) (by decide +kernel) (by decide)
  obtain ⟨file, h, _⟩ := h N (N + 1) (by omega) (by omega)
  exact ⟨N, file, _, h⟩

end Bwtc.Props
