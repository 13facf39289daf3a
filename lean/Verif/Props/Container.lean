import Verif.ContainerProof
import Verif.ContainerSize
import Verif.Props.PairReplace
import Verif.Props.ProbModels

/-!
# C37 - C41: the container
-/

set_option autoImplicit false

namespace Bwtc.Props
open Container Grammar PairReplace ProbModels FreqTable

/-! ## C37 -/

/-- C37.  For every size of a block from 1 to `2^56 - 1`, every number of slices below `2^56` and every grammar the pair
replacer can build, the header is written, the returned number is the number of bytes, and reading it back gives
the same numbers and the same grammar (in every respect C35 lists) and leaves exactly what follows; the
header of a block never reads as the end marker, and the end marker is recognised. -/
theorem C37_block_header (n k : Nat) (g : G) (h0 : 0 < n) (hn : n < 2 ^ 56) (hk : k < 2 ^ 56) (hg : Built g) :
    (∃ w, writeBlockHeader n k g = some (w, w.length) ∧ (∀ rest : List UInt8, ∃ g',
      readBlockHeader (bytesBits (w ++ rest)) = some (some (n, k, g'), bytesBits rest) ∧
        g'.rules = g.rules ∧ g'.specials = g.specials ∧ freedSymbols g' = freedSymbols g ∧
        (∀ c, g'.freqs c = g.freqs c) ∧ ∀ data, postprocess g' data = postprocess g data) ∧ w.head? ≠ some 0) ∧
    ∀ rest : List UInt8, readBlockHeader (bytesBits ([0] ++ rest)) = some (none, bytesBits rest) := by
  refine ⟨?_, readEnd⟩
  obtain ⟨c, c1, _, c2⟩ := C35_grammar_roundtrip g hg
  obtain ⟨w, w1, w2, w3⟩ := header_roundtrip (g := g) (Q := fun g' => g'.rules = g.rules ∧ g'.specials = g.specials ∧
    freedSymbols g' = freedSymbols g ∧ (∀ c, g'.freqs c = g.freqs c) ∧ ∀ data, postprocess g' data = postprocess g data)
    hn (by omega) hk ⟨c, c1, fun rest => by
      obtain ⟨g', e1, e2, e3, _, e5, _, e7, e8⟩ := c2 rest
      exact ⟨g', e1, e2, e3, e7, e5, e8⟩⟩
  refine ⟨w, w1, w3, ?_⟩
  intro hc
  match w, hc with
  | b :: w, hc =>
    simp only [List.head?_cons, Option.some.injEq] at hc
    subst hc
    obtain ⟨g', e1, _⟩ := w3 []
    rw [List.cons_append, readEnd] at e1
    simp at e1

/-- Non-vacuity: a grammar with three rules and two special symbols meets the hypotheses, and so does the empty one. -/
example : Built empty ∧ ∃ g next, sampleGrammar2 = some (g, next) ∧ Built g ∧ g.rules.length = 3 := by
  have h : (sampleGrammar2.map fun x => x.1.rules.length) = some 3 := by decide +kernel
  obtain ⟨⟨g, next⟩, h1, h2⟩ := Option.map_eq_some_iff.mp h
  exact ⟨.start, g, next, h1, sampleGrammar2_built g next h1, h2⟩

/-- From `2^56` on the header cannot be written (undefined shift in `packInteger`). -/
theorem C37_limit (n k : Nat) (g : G) (h : 2 ^ 56 ≤ n) : writeBlockHeader n k g = none := by
  rw [writeBlockHeader, packed, C01_limit_is_sharp n h]
  rfl

/-! ## C38 -/

/-- The letters accepted by the validator (compress.cpp:68-82): `H`, `m`, `M`, `u`, `b`, `B`. -/
def letters : List UInt8 := [72, 109, 77, 117, 98, 66]

/-- What users expect: for every choice of the options on the command line and every file (below 2^56 bytes), whatever
the platform does where the code leaves it a choice, compressing ends, and decompressing returns the file.  (Loops without a bound get
`fuel`.) -/
def C38_claim : Prop :=
  ∀ (letter : UInt8) (starts rounds mem : Nat) (e : Env) (input : List UInt8), letter ∈ letters → 1 ≤ starts → starts ≤ 256 →
    (∀ F, Initial F (e.table F)) → (∃ y, e.beyond = some y ∧ 2 ^ 32 ≤ y) → input.length < 2 ^ 56 →
    ∃ N, ∀ fuel fuel', N ≤ fuel → fuel < fuel' → ∃ file n,
      compress ⟨letter, starts, rounds, memLimitOf mem⟩ e fuel input = some (file, n) ∧
        ∀ junk, decompress junk fuel' file = some input

/-- Without preprocessing, any coder that restores the transformed pieces of the input. -/
theorem plain_roundtrip {letter : UInt8} {starts memLimit : Nat} {e : Env} {input : List UInt8} {cs : List (List UInt8)}
    {R : (coderOf letter).σ → Prop} {ok : List Nat → List UInt8 → Prop} (hC : (coderOf letter).Works e.cheap R ok)
    (h6 : 6 ≤ memLimit) (hin : input.length < 2 ^ 56)
    (hcs : InChunks (min (times0185 memLimit) maxBlock) input cs) (hok : ∀ c ∈ cs, SliceOK (clampStarts starts) ok c) :
    ∃ N, ∀ fuel fuel', N ≤ fuel → fuel < fuel' → ∃ file,
      compress ⟨letter, starts, 0, memLimit⟩ e fuel input = some (file, file.length % 2 ^ 64) ∧
        ∀ junk (rest : List UInt8), decompress junk fuel' (file ++ rest) = some input := by
  obtain ⟨_, _, t3, _⟩ := times_bounds memLimit
  have t3 := t3 h6
  have hmx := maxBlock_pos
  have hpb : pbBlock ⟨letter, starts, 0, memLimit⟩ = min (times0185 memLimit) maxBlock := by
    rw [pbBlock, if_pos rfl, bwtBlock0]
  rw [← hpb] at hcs
  obtain ⟨f1, f2, f3⟩ := hcs.facts (by omega)
  have hplan := plan_plain (e := e) rfl (by omega) hcs (input.length + 1) (by omega)
  refine container_roundtrip (o := ⟨letter, starts, 0, memLimit⟩) hC (by omega) hin hplan ?_
  intro b hb
  obtain ⟨c, hc, rfl⟩ := List.mem_map.mp hb
  refine ⟨restores_empty c, Nat.le_refl _, ?_⟩
  intro s hs
  simp only [List.mem_singleton] at hs
  subst hs
  exact hok s hc

/-- C38 for the Huffman coder without preprocessing: for every memory limit from 6 to 2902000000 bytes, every number of
starting points and every input, decompressing restores the input; trailing data is ignored.  In addition (C40)
the returned size is the number of bytes written. -/
theorem C38_huffman (starts memLimit : Nat) (e : Env) (input : List UInt8) (h6 : 6 ≤ memLimit)
    (hm : memLimit ≤ 2902000000) (hin : input.length < 2 ^ 56) :
    ∃ N, ∀ fuel fuel', N ≤ fuel → fuel < fuel' → ∃ file,
      compress ⟨72, starts, 0, memLimit⟩ e fuel input = some (file, file.length % 2 ^ 64) ∧
        ∀ junk (rest : List UInt8), decompress junk fuel' (file ++ rest) = some input := by
  have hsm := times0185_small hm
  obtain ⟨_, _, t3, _⟩ := times_bounds memLimit
  have t3 := t3 h6
  have hmx := maxBlock_pos
  obtain ⟨cs, hcs⟩ := InChunks.exists (n := min (times0185 memLimit) maxBlock) (by omega) _ input (Nat.le_refl _)
  refine plain_roundtrip (huffman_works e.cheap) h6 hin hcs fun c hc => ?_
  obtain ⟨g1, g2, _⟩ := (hcs.facts (by omega)).2.2 c hc
  refine sliceOK_of_count g1 fun x => ?_
  have := List.count_le_length (a := x) (l := c)
  omega

/-- C38 for the Huffman coder without preprocessing and any memory limit (partial: no byte occurs `2^29` times in a piece of
the input handled at once). -/
theorem C38_huffman_large_partial (starts memLimit : Nat) (e : Env) (input : List UInt8) (cs : List (List UInt8))
    (h6 : 6 ≤ memLimit) (hin : input.length < 2 ^ 56) (hcs : InChunks (min (times0185 memLimit) maxBlock) input cs)
    (hcount : ∀ c ∈ cs, ∀ x, c.count x < 2 ^ 29) :
    ∃ N, ∀ fuel fuel', N ≤ fuel → fuel < fuel' → ∃ file,
      compress ⟨72, starts, 0, memLimit⟩ e fuel input = some (file, file.length % 2 ^ 64) ∧
        ∀ junk (rest : List UInt8), decompress junk fuel' (file ++ rest) = some input := by
  obtain ⟨_, _, t3, _⟩ := times_bounds memLimit
  have t3 := t3 h6
  have hmx := maxBlock_pos
  exact plain_roundtrip (huffman_works e.cheap) h6 hin hcs fun c hc =>
    sliceOK_of_count ((hcs.facts (by omega)).2.2 c hc).1 (hcount c hc)

/-- C38 for the wavelet coders `u`, `b` and `B` (the default) without preprocessing (partial: every piece of the input
handled at once is, after the transform, one that C43 covers: no run of `2^30` bytes, and the search for the parameters of the run-length code
does not leave its containers; the letters `m` and `M` are missing). -/
theorem C38_wavelet_partial (letter : UInt8) (hl : letter = 117 ∨ letter = 98 ∨ letter = 66) (starts memLimit : Nat) (e : Env)
    (input : List UInt8) (cs : List (List UInt8)) (h6 : 6 ≤ memLimit) (hin : input.length < 2 ^ 56)
    (hcs : InChunks (min (times0185 memLimit) maxBlock) input cs)
    (hok : ∀ c ∈ cs, SliceOK (clampStarts starts) (WaveletOK e.cheap) c) :
    ∃ N, ∀ fuel fuel', N ≤ fuel → fuel < fuel' → ∃ file,
      compress ⟨letter, starts, 0, memLimit⟩ e fuel input = some (file, file.length % 2 ^ 64) ∧
        ∀ junk (rest : List UInt8), decompress junk fuel' (file ++ rest) = some input := by
  have : ∃ R, (coderOf letter).Works e.cheap R (WaveletOK e.cheap) := by
    rcases hl with rfl | rfl | rfl
    · exact wavelet_works (P := modelU) (evenInterval_safe (by decide) (by decide)) e.cheap
    · exact wavelet_works (P := modelb) (fsm_safe (by decide) (evenInterval_safe (by decide) (by decide))) e.cheap
    · obtain ⟨I, hI⟩ := modelB_safe
      exact wavelet_works (P := modelB) hI e.cheap
  obtain ⟨R, hR⟩ := this
  exact plain_roundtrip hR h6 hin hcs hok

/-- C38 for the Huffman coder with preprocessing (partial: memory limit from 20 to 2415000000 bytes, and every
piece of the input that is preprocessed at once goes through rounds that C36 covers and does not grow). -/
theorem C38_preprocessed_partial (starts rounds memLimit : Nat) (e : Env) (input : List UInt8) (cs : List (List UInt8))
    (he : ∀ F, Initial F (e.table F)) (hb : rounds ≤ 1 ∨ ∃ y, e.beyond = some y ∧ 2 ^ 32 ≤ y) (hr : 1 ≤ rounds)
    (h20 : 20 ≤ memLimit) (hm : memLimit ≤ 2415000000) (hin : input.length < 2 ^ 56)
    (hcs : InChunks (times074 memLimit) input cs)
    (hpre : ∀ c ∈ cs, ∃ out g, precompress e.table e.beyond (e.small c.length) rounds (c ++ [e.junk]) c.length = some (out, g) ∧
      out.length ≤ c.length ∧ SafeRounds e.table e.beyond (e.small c.length) c.length rounds
        ⟨c ++ [e.junk], none, false, c.length, 0, empty⟩) :
    ∃ N, ∀ fuel fuel', N ≤ fuel → fuel < fuel' → ∃ file,
      compress ⟨72, starts, rounds, memLimit⟩ e fuel input = some (file, file.length % 2 ^ 64) ∧
        ∀ junk (rest : List UInt8), decompress junk fuel' (file ++ rest) = some input := by
  have hpb : pbBlock ⟨72, starts, rounds, memLimit⟩ = times074 memLimit := by
    rw [pbBlock, if_neg (by simp only []; omega)]
  obtain ⟨t1, t2, t3, t4⟩ := times_bounds memLimit
  have t3 := t3 (by omega)
  have t4 := t4 (by omega)
  have hmp := maxBlock_pos
  rw [← hpb] at hcs
  obtain ⟨f1, f2, f3⟩ := hcs.facts (by omega)
  have hb0 : bwtBlock0 ⟨72, starts, rounds, memLimit⟩ = min (times0185 memLimit) maxBlock := rfl
  obtain ⟨bs, p1, p2, p3⟩ := plan_preprocessed (o := ⟨72, starts, rounds, memLimit⟩) (e := e) (by simp only []; omega) h20
    (by simp only []; omega) hcs (fun c hc => by
      obtain ⟨out, g, q1, q2, _⟩ := hpre c hc
      exact ⟨out, g, q1, q2⟩) (input.length + 1) (bwtBlock0 ⟨72, starts, rounds, memLimit⟩) (by omega) (by omega) (by omega)
    (by simp only []; omega)
  refine container_roundtrip (o := ⟨72, starts, rounds, memLimit⟩) (huffman_works e.cheap) (by omega) hin p1 ?_
  intro b hb
  have hbc : b.data ∈ cs := by rw [← p2]; exact List.mem_map.mpr ⟨b, hb, rfl⟩
  obtain ⟨out, g, q1, q2, q3⟩ := hpre b.data hbc
  obtain ⟨r1, r2, r3⟩ := p3 b hb
  have hlen := (f3 _ hbc).2.1
  have hq : some (b.out, b.g) = some (out, g) := r1.symm.trans q1
  simp only [Option.some.injEq, Prod.mk.injEq] at hq
  refine ⟨restores_of_precompress he (by assumption) (by omega) q3 r1, by rw [hq.1]; exact q2, fun s hs => ?_⟩
  obtain ⟨s1, _, s3⟩ := r3 s hs
  refine sliceOK_of_count s1 fun x => ?_
  have := List.count_le_length (a := x) (l := s)
  simp only [] at s3
  omega

/-- The hypotheses of `C38_preprocessed_partial` hold for every file of 5 to 255 bytes, every number of rounds and every
memory limit that allows to read it at once, on a platform where 1 is not below 0.666. -/
theorem C38_preprocessed_short (starts rounds memLimit : Nat) (e : Env) (input : List UInt8)
    (he : ∀ F, Initial F (e.table F)) (hb : rounds ≤ 1 ∨ ∃ y, e.beyond = some y ∧ 2 ^ 32 ≤ y) (hr : 1 ≤ rounds)
    (h20 : 20 ≤ memLimit) (hm : memLimit ≤ 2415000000) (h5 : 5 ≤ input.length)
    (h255 : input.length ≤ 255) (hfit : input.length ≤ times074 memLimit) (hsm : e.small input.length input.length = false) :
    ∃ N, ∀ fuel fuel', N ≤ fuel → fuel < fuel' → ∃ file,
      compress ⟨72, starts, rounds, memLimit⟩ e fuel input = some (file, file.length % 2 ^ 64) ∧
        ∀ junk (rest : List UInt8), decompress junk fuel' (file ++ rest) = some input := by
  have hne : input ≠ [] := by
    intro hc
    rw [hc] at h5
    simp at h5
  have hcs : InChunks (times074 memLimit) input [input] := by
    have := InChunks.cons (n := times074 memLimit) hne (cs := []) (by
      rw [List.drop_of_length_le hfit]
      exact .nil)
    rwa [List.take_of_length_le hfit] at this
  refine C38_preprocessed_partial starts rounds memLimit e input [input] he hb hr h20 hm (by omega) hcs ?_
  intro c hc
  rw [List.mem_singleton] at hc
  subst hc
  obtain ⟨k, rfl⟩ : ∃ k, rounds = k + 1 := ⟨rounds - 1, by omega⟩
  obtain ⟨s1, s2, _⟩ := C36_short_blocks e.table he e.beyond (e.small c.length) (c ++ [e.junk]) c.length k h5 h255
    (by simp) hsm
  rw [List.take_left] at s2
  exact ⟨c, empty, s2, Nat.le_refl _, s1⟩

/-- A platform for the examples. -/
def sampleEnv : Env := ⟨makeTable, some (2 ^ 32), fun n k => decide (1000 * k < 666 * n), 0, fun _ _ _ _ => true⟩

example : ∃ N file, compress ⟨72, 4, 0, 100⟩ sampleEnv N [97, 98, 97, 98] = some (file, file.length % 2 ^ 64) := by
  obtain ⟨N, h⟩ := C38_huffman 4 100 sampleEnv [97, 98, 97, 98] (by decide) (by decide) (by decide)
  obtain ⟨file, h, _⟩ := h N (N + 1) (by omega) (by omega)
  exact ⟨N, file, h⟩

example : ∃ N file, compress ⟨72, 1, 3, 100000000⟩ sampleEnv N [97, 98, 97, 98, 97] = some (file, file.length % 2 ^ 64) := by
  obtain ⟨N, h⟩ := C38_preprocessed_short 1 3 100000000 sampleEnv [97, 98, 97, 98, 97] makeTable_initial (.inr ⟨_, rfl, by decide⟩)
    (by decide) (by decide) (by decide) (by decide) (by decide) (by decide +kernel) (by decide)
  obtain ⟨file, h, _⟩ := h N (N + 1) (by omega) (by omega)
  exact ⟨N, file, h⟩

/-- A limit with slices larger than `2^29` bytes, and a file in which no byte occurs so often. -/
example : ∃ cs, InChunks (min (times0185 4000000000) maxBlock) [97, 98, 97, 98, 99] cs ∧ (∀ c ∈ cs, ∀ x, c.count x < 2 ^ 29) ∧
    2 ^ 29 < min (times0185 4000000000) maxBlock := by
  have hpos : 2 ^ 29 < min (times0185 4000000000) maxBlock := by decide +kernel
  obtain ⟨cs, hcs⟩ := InChunks.exists (n := min (times0185 4000000000) maxBlock) (Nat.lt_trans (by decide) hpos) _
    [97, 98, 97, 98, 99] (Nat.le_refl _)
  refine ⟨cs, hcs, fun c hc x => ?_, hpos⟩
  have h1 := ((hcs.facts (Nat.lt_trans (by decide) hpos)).2.2 c hc).2.2
  have h2 : c.count x ≤ c.length := List.count_le_length
  have h3 : ([97, 98, 97, 98, 99] : List UInt8).length = 5 := rfl
  rw [h3] at h1
  exact Nat.lt_of_le_of_lt (Nat.le_trans h2 h1) (by decide)

/-- The block a file makes that is read, unpreprocessed, at once. -/
theorem frontBlock_whole {letter : UInt8} {starts memLimit : Nat} {e : Env} {input : List UInt8} (hne : input ≠ [])
    (hfit : input.length ≤ bwtBlock0 ⟨letter, starts, 0, memLimit⟩) :
    frontBlock ⟨letter, starts, 0, memLimit⟩ e (bwtBlock0 ⟨letter, starts, 0, memLimit⟩) input =
      some (⟨input, input, empty, [input]⟩, bwtBlock0 ⟨letter, starts, 0, memLimit⟩) := by
  have hmx : bwtBlock0 ⟨letter, starts, 0, memLimit⟩ ≤ maxBlock := Nat.min_le_right _ _
  have := maxBlock_lt
  have hpb : pbBlock ⟨letter, starts, 0, memLimit⟩ = bwtBlock0 ⟨letter, starts, 0, memLimit⟩ := by
    rw [pbBlock, if_pos rfl]
  rw [frontBlock, precompress_zero rfl]
  simp only [Option.bind_eq_bind, Option.bind_some]
  rw [if_neg (fun hc => hc hpb), run_single hne hfit (by omega)]
  rfl

/-- The transform of "bbbaaa". -/
theorem transform_bbbaaa : ∃ lf freqs, Sections.sections freqs = [6] ∧ ∀ next : UInt8,
    FwdBWT.transform ([98, 98, 98, 97, 97, 97] ++ [next]) 0 6 1 (List.replicate 256 0) =
      some ([98, 97, 97, 97, 98, 98] ++ [next], lf, freqs) := by
  obtain ⟨s', lf, freqs, h1, _⟩ := FwdBWT.transform_spec [98, 98, 98, 97, 97, 97] 1 (List.replicate 256 0) (by simp)
    (by rw [List.length_replicate])
  have h0 : (FwdBWT.transform ([98, 98, 98, 97, 97, 97] ++ [0]) 0 6 1 (List.replicate 256 0)).map
      (fun r => (r.1, Sections.sections r.2.2)) = some ([98, 97, 97, 97, 98, 98] ++ [0], [6]) := by decide +kernel
  have h2 : FwdBWT.transform ([98, 98, 98, 97, 97, 97] ++ [0]) 0 6 1 (List.replicate 256 0) =
    some (s' ++ [0], lf, freqs) := h1 [] 0 []
  rw [h2] at h0
  simp only [Option.map_some, Option.some.injEq, Prod.mk.injEq] at h0
  obtain ⟨h3, h4⟩ := h0
  have hs : s' = [98, 97, 97, 97, 98, 98] := List.append_cancel_right h3
  subst hs
  exact ⟨lf, freqs, h4, fun next => h1 [] next []⟩

/-- C38 is false of the code: the file "bbbaaa", compressed with the default options, makes the search for the parameters of the
run-length code read outside of its containers (C27), whatever the platform does. -/
theorem C38_undefined (e : Env) (fuel : Nat) : compress ⟨66, 1, 0, memLimitOf 100⟩ e fuel [98, 98, 98, 97, 97, 97] = none := by
  have hb : bwtBlock0 ⟨66, 1, 0, memLimitOf 100⟩ = 18500000 := by decide +kernel
  have hpb : pbBlock ⟨66, 1, 0, memLimitOf 100⟩ = 18500000 := by rw [pbBlock, if_pos rfl, hb]
  have hf := frontBlock_whole (letter := 66) (starts := 1) (memLimit := memLimitOf 100) (e := e)
    (input := [98, 98, 98, 97, 97, 97]) (by simp) (by rw [hb]; decide)
  obtain ⟨lf, freqs, h1, h2⟩ := transform_bbbaaa
  have henc : encodeSlices (coderOf 66) e.cheap fuel (clampStarts 1) [6] ([98, 98, 98, 97, 97, 97] ++ [e.junk]) 0
      (coderOf 66).init = none := by
    rw [encodeSlices, show clampStarts 1 = 1 from rfl, h2]
    simp only [Option.bind_eq_bind, Option.bind_some]
    have : (coderOf 66).encode e.cheap fuel (coderOf 66).init lf freqs
        (List.take 6 (List.drop 0 ([98, 97, 97, 97, 98, 98] ++ [e.junk]))) = none := by
      show WaveBlock.encodeBlock modelB e.cheap fuel lf freqs (WaveBlock.initial modelB) [98, 97, 97, 97, 98, 98] = none
      have hc : Wave.messageCodes (e.cheap [98, 97, 97, 97, 98, 98]) [98, 97, 97, 97, 98, 98] = none := by
        rw [Wave.messageCodes_eq _ (by simp) (by simp), Wave.chooseCodes,
          show Wave.runDist (Wave.runsOfLength [98, 97, 97, 97, 98, 98]) ([98, 97, 97, 97, 98, 98] : List UInt8).length =
            [(1, 1), (1, 2), (1, 3)] by decide +kernel, (C27_fails _).2]
        simp
      rw [WaveBlock.encodeBlock, h1, WaveBlock.encodeSections, if_neg (by omega), if_pos (by simp),
        List.take_of_length_le (by simp), WaveBlock.encodeSection, Wave.makeTree, hc]
      simp
    rw [this]
    rfl
  rw [compress]
  simp only [List.length_cons, List.length_nil, Nat.zero_add, Nat.reduceAdd]
  rw [compressBlocks, hpb, List.take_of_length_le (by simp), if_neg (by simp), hf]
  simp only [Option.bind_eq_bind, Option.bind_some, List.map_cons, List.map_nil, List.length_cons, List.length_nil, Nat.zero_add,
    Nat.reduceAdd, henc, Option.bind_none]
  cases writeBlockHeader 6 1 empty <;> rfl

theorem C38_fails : ¬ C38_claim := by
  intro h
  obtain ⟨N, h⟩ := h 66 1 0 100 sampleEnv [98, 98, 98, 97, 97, 97] (by decide) (by decide) (by decide) makeTable_initial
    ⟨_, rfl, by decide⟩ (by simp)
  obtain ⟨file, n, h, _⟩ := h N (N + 1) (by omega) (by omega)
  rw [C38_undefined] at h
  simp at h

/-! ## C39 -/

/-- What is expected of the interface: every memory limit works. -/
def C39_claim : Prop :=
  ∀ (letter : UInt8) (starts rounds memLimit : Nat) (e : Env) (input : List UInt8), letter ∈ letters →
    (∀ F, Initial F (e.table F)) → (∃ y, e.beyond = some y ∧ 2 ^ 32 ≤ y) → input.length < 2 ^ 56 → memLimit < 2 ^ 64 →
    ∃ N, ∀ fuel fuel', N ≤ fuel → fuel < fuel' → ∃ file n,
      compress ⟨letter, starts, rounds, memLimit⟩ e fuel input = some (file, n) ∧
        ∀ junk, decompress junk fuel' file = some input

/-- C39 is false of the code: with a limit of at most five bytes and no preprocessing every file is compressed to
two bytes, without an error, and decompresses to the empty file. -/
theorem C39_data_lost (letter : UInt8) (starts memLimit : Nat) (e : Env) (fuel : Nat) (input : List UInt8) (h : memLimit ≤ 5) :
    compress ⟨letter, starts, 0, memLimit⟩ e fuel input = some ([letter, 0], 2) ∧
      ∀ junk fuel', decompress junk fuel' [letter, 0] = some [] := by
  have h0 : times0185 memLimit = 0 := by
    match memLimit, h with
    | 0, _ | 1, _ | 2, _ | 3, _ | 4, _ | 5, _ => decide +kernel
  have hb : pbBlock ⟨letter, starts, 0, memLimit⟩ = 0 := by
    rw [pbBlock, if_pos rfl, bwtBlock0]
    simp only [h0, Nat.zero_min]
  refine ⟨?_, ?_⟩
  · rw [compress, compressBlocks, hb, if_pos (by simp)]
    rfl
  · intro junk fuel'
    rw [decompress, bytesBits_cons, readByte_byteBits]
    simp only [Option.bind_eq_bind, Option.bind_some]
    rw [show ([letter, 0] : List UInt8).length + 1 = 2 + 1 from rfl, decompressBlocks, readEnd]
    rfl

/-- The command line allows it: the product with 10^6 is taken modulo `2^64`. -/
theorem C39_option_wraps : memLimitOf (2 ^ 58) = 0 := by decide

theorem C39_fails : ¬ C39_claim := by
  intro h
  obtain ⟨N, h⟩ := h 72 1 0 5 sampleEnv [97] (by decide) makeTable_initial ⟨_, rfl, by decide⟩ (by simp) (by decide)
  obtain ⟨file, n, h1, h2⟩ := h N (N + 1) (by omega) (by omega)
  obtain ⟨h3, h4⟩ := C39_data_lost 72 1 5 sampleEnv N [97] (by decide)
  rw [h3] at h1
  simp only [Option.some.injEq, Prod.mk.injEq] at h1
  have := h2 0
  rw [← h1.1, h4] at this
  simp at this

/-- With preprocessing, if the preprocessed block leaves fewer than five bytes of the limit, slicing never ends. -/
theorem C39_never_ends (o : Options) (e : Env) (bwt : Nat) (data out : List UInt8) (g : G)
    (hp : precompressBlock o e data = some (out, g)) (hne : out ≠ []) (h1 : out.length ≤ o.memLimit) (h2 : o.memLimit < out.length + 5)
    (h3 : pbBlock o ≠ bwt) (h4 : o.memLimit < 2 ^ 64) :
    (∀ sl, ¬ Slicing.SlicesTo (bwtBlockAfter o.memLimit out.length) out sl) ∧ frontBlock o e bwt data = none := by
  have h0 : bwtBlockAfter o.memLimit out.length = 0 := by
    rw [bwtBlockAfter]
    have : (o.memLimit + (2 ^ 64 - out.length % 2 ^ 64)) % 2 ^ 64 = o.memLimit - out.length := by
      rw [Nat.mod_eq_of_lt (a := out.length) (by omega)]
      omega
    rw [this]
    omega
  have hd := C15_zero_diverges out hne
  rw [h0]
  refine ⟨hd, ?_⟩
  rw [frontBlock, hp]
  simp only [Option.bind_eq_bind, Option.bind_some]
  rw [if_pos h3, h0]
  cases hr : Slicing.run 0 (out.length + 1) ⟨out, []⟩ with
  | none => rfl
  | some sl => exact absurd ⟨_, hr⟩ (hd sl)

/-- A limit of ten bytes and a file of seven bytes: seven bytes are read at once and left as they are. -/
example : precompressBlock ⟨72, 1, 1, 10⟩ sampleEnv [1, 2, 3, 4, 5, 6, 7] = some ([1, 2, 3, 4, 5, 6, 7], empty) ∧
    pbBlock ⟨72, 1, 1, 10⟩ = 7 ∧ bwtBlock0 ⟨72, 1, 1, 10⟩ = 1 := by
  refine ⟨?_, by decide +kernel, by decide +kernel⟩
  exact (C36_short_blocks makeTable makeTable_initial (some (2 ^ 32)) _ [1, 2, 3, 4, 5, 6, 7, 0] 7 0 (by decide) (by decide)
    (by decide) (by decide)).2.1

/-- C39 (partial: limits from 6 on without preprocessing, from 20 on with preprocessing; in the latter case preprocessing is defined and
does not make a block longer).  For every coder: reading and slicing end, all of the input is in the blocks, and
the slices make up the preprocessed blocks. -/
theorem C39_memory_partial (o : Options) (e : Env) (input : List UInt8) (cs : List (List UInt8)) (h6 : 6 ≤ o.memLimit)
    (h64 : o.memLimit < 2 ^ 64) (hcs : InChunks (pbBlock o) input cs)
    (hpre : o.rounds ≠ 0 → 20 ≤ o.memLimit ∧ ∀ c ∈ cs, ∃ out g, precompressBlock o e c = some (out, g) ∧ out.length ≤ c.length) :
    ∃ bs, planFrom o e (input.length + 1) (bwtBlock0 o) input = some bs ∧ bs.map Block.data = cs ∧ cs.flatten = input ∧
      ∀ b ∈ bs, precompressBlock o e b.data = some (b.out, b.g) ∧ b.slices.flatten = b.out ∧
        ∀ s ∈ b.slices, s ≠ [] ∧ s.length ≤ 0x7ffffffe := by
  obtain ⟨t1, t2, t3, t4⟩ := times_bounds o.memLimit
  have t3 := t3 h6
  have t4 := t4 (by omega)
  have hmp := maxBlock_pos
  have hb0 : bwtBlock0 o = min (times0185 o.memLimit) maxBlock := rfl
  by_cases hr : o.rounds = 0
  · have hpb : pbBlock o = bwtBlock0 o := by rw [pbBlock, if_pos hr]
    obtain ⟨f1, f2, f3⟩ := hcs.facts (by omega)
    refine ⟨_, plan_plain (e := e) hr (by omega) hcs _ (by omega), ?_, f1, ?_⟩
    · rw [List.map_map]
      exact List.map_id _
    · intro b hb
      obtain ⟨c, hc, rfl⟩ := List.mem_map.mp hb
      refine ⟨precompress_zero hr e c, by simp, ?_⟩
      intro s hs
      simp only [List.mem_singleton] at hs
      subst hs
      obtain ⟨g1, g2, _⟩ := f3 s hc
      have : maxBlock = 0x7ffffffe := by decide
      exact ⟨g1, by omega⟩
  · obtain ⟨h20, hpre⟩ := hpre hr
    have hpb : pbBlock o = times074 o.memLimit := by rw [pbBlock, if_neg hr]
    obtain ⟨f1, f2, f3⟩ := hcs.facts (by omega)
    obtain ⟨bs, p1, p2, p3⟩ := plan_preprocessed hr h20 h64 hcs hpre (input.length + 1) (bwtBlock0 o) (by omega) (by omega)
      (by omega) (by omega)
    refine ⟨bs, p1, p2, f1, fun b hb => ?_⟩
    obtain ⟨r1, r2, r3⟩ := p3 b hb
    refine ⟨r1, r2, fun s hs => ⟨(r3 s hs).1, ?_⟩⟩
    have : maxBlock = 0x7ffffffe := by decide
    have := (r3 s hs).2.1
    omega

/-- A limit of forty bytes: without preprocessing a file of ten bytes is read seven bytes at a time; with three rounds of preprocessing
it is read at once, and preprocessing leaves it as it is. -/
example : (∃ cs, InChunks (pbBlock ⟨66, 1, 0, 40⟩) [1, 2, 3, 4, 5, 6, 7, 8, 9, 10] cs) ∧ pbBlock ⟨66, 1, 0, 40⟩ = 7 ∧
    InChunks (pbBlock ⟨66, 1, 3, 40⟩) [1, 2, 3, 4, 5, 6, 7, 8, 9, 10] [[1, 2, 3, 4, 5, 6, 7, 8, 9, 10]] ∧
    precompressBlock ⟨66, 1, 3, 40⟩ sampleEnv [1, 2, 3, 4, 5, 6, 7, 8, 9, 10] = some ([1, 2, 3, 4, 5, 6, 7, 8, 9, 10], empty) := by
  have h7 : pbBlock ⟨66, 1, 0, 40⟩ = 7 := by decide +kernel
  have h29 : pbBlock ⟨66, 1, 3, 40⟩ = 29 := by decide +kernel
  refine ⟨InChunks.exists (by rw [h7]; decide) _ _ (Nat.le_refl _), h7, ?_, ?_⟩
  · rw [h29]
    exact InChunks.cons (n := 29) (l := [1, 2, 3, 4, 5, 6, 7, 8, 9, 10]) (by decide) .nil
  · exact (C36_short_blocks makeTable makeTable_initial (some (2 ^ 32)) _ [1, 2, 3, 4, 5, 6, 7, 8, 9, 10, 0] 10 2 (by decide) (by decide)
      (by decide) (by decide)).2.1

/-! ## C40 -/

/-- C40 for blocks: with every coder, in every state and for every block that is coded at all, the returned size is the number of bytes
written, and the length field holds the number of bytes behind it (modulo `2^48`). -/
theorem C40_length_fields (letter : UInt8) (cheap : List UInt8 → Nat → Nat → Nat × Nat → Bool) (fuel : Nat)
    (st t : (coderOf letter).σ) (powers stats : List Nat) (data w : List UInt8) (n : Nat)
    (h : (coderOf letter).encode cheap fuel st powers stats data = some (w, n, t)) :
    n = w.length ∧ 6 ≤ w.length ∧ w.take 6 = packBits (bitsOf 48 (w.length - 6)) :=
  coder_sized letter cheap fuel st powers stats data w n t h

/-- A block the Huffman coder codes. -/
example : ∃ w n t, (coderOf 72).encode sampleEnv.cheap 0 (coderOf 72).init [1, 3] [2, 0, 3] [7, 7, 9, 9, 9] = some (w, n, t) := by
  have hrun : ∀ c, ¬ List.replicate (2 ^ 29) c <:+: ([7, 7, 9, 9, 9] : List UInt8) := by
    intro c hc
    have := hc.length_le
    rw [List.length_replicate] at this
    exact absurd this (by decide)
  obtain ⟨w, hw, _⟩ := C22_huffman_block_partial [1, 3] [2, 0, 3] [7, 7, 9, 9, 9] (by decide) (by decide) (by decide) (by decide)
    (by decide) (by decide) (by decide) hrun
  exact ⟨w, w.length, (), by
    show (HuffBlock.encodeBlock [1, 3] [2, 0, 3] [7, 7, 9, 9, 9]).map _ = _
    rw [hw]
    rfl⟩

/-- C40 for whole files: whenever compression succeeds, the returned size is the size of the file (as a 64-bit number).
Missing: preprocessing of blocks of 4 GB and more, where the frequencies of the preprocessor wrap around. -/
theorem C40_returned_size_partial (o : Options) (e : Env) (fuel : Nat) (input file : List UInt8) (n : Nat)
    (he : ∀ F, Initial F (e.table F)) (hb : o.rounds ≤ 1 ∨ ∃ y, e.beyond = some y ∧ 2 ^ 32 ≤ y)
    (hs : o.rounds = 0 ∨ min input.length (pbBlock o) + 395759 ≤ 2 ^ 32)
    (h : compress o e fuel input = some (file, n)) : n = file.length % 2 ^ 64 := by
  simp only [compress, Option.bind_eq_bind, Option.bind_eq_some_iff, Option.pure_def, Option.some.injEq, Prod.mk.injEq] at h
  obtain ⟨⟨w, m⟩, h1, rfl, rfl⟩ := h
  have := compressBlocks_size he hb hs h1
  simp only [List.length_cons, List.length_append, List.length_nil]
  congr 1
  omega

/-- The hypotheses can be met: the file of `C38_preprocessed_short`. -/
example (fuel n : Nat) (file : List UInt8) (h : compress ⟨72, 1, 3, 100000000⟩ sampleEnv fuel [97, 98, 97, 98, 97] = some (file, n)) :
    n = file.length % 2 ^ 64 :=
  C40_returned_size_partial _ sampleEnv fuel _ file n makeTable_initial (.inr ⟨_, rfl, by decide⟩)
    (.inr (Nat.le_trans (Nat.add_le_add_right (Nat.min_le_left _ _) _) (by simp))) h

/-! ## C41 -/

/-- What is expected of the two tools: whatever the preprocessing string and the size of the blocks (in kB, `preprocess.cpp:175-180`; below `2^54`), postprocessing
restores the file. -/
def C41_claim : Prop :=
  ∀ (rounds kb : Nat) (e : Env) (input : List UInt8), (∀ F, Initial F (e.table F)) →
    (∃ y, e.beyond = some y ∧ 2 ^ 32 ≤ y) → input.length < 2 ^ 56 → 0 < kb → kb < 2 ^ 54 → ∃ file,
      preprocessTool ⟨72, 1, rounds, 0⟩ e (kb * 1024) input = some file ∧ postprocessTool file = some input

theorem tools_roundtrip {o : Options} {e : Env} {bs : Nat} (hbs : 0 < bs) {input : List UInt8} {cs : List (List UInt8)}
    (hcs : InChunks bs input cs)
    (hpre : ∀ c ∈ cs, ∃ out g, precompressBlock o e c = some (out, g) ∧ out.length < 2 ^ 56 ∧ Restores g out c) :
    ∀ f, cs.length < f → ∃ w, preprocessBlocks o e bs f input = some w ∧ cs.length ≤ w.length ∧
      ∀ f', cs.length < f' → ∀ rest, postprocessBlocks f' (bytesBits (w ++ 0 :: rest)) = some input := by
  induction hcs with
  | nil =>
    intro f hf
    obtain ⟨f, rfl⟩ : ∃ k, f = k + 1 := ⟨f - 1, by omega⟩
    refine ⟨[], by rw [preprocessBlocks, if_pos (by simp)], by simp, fun f' hf' rest => ?_⟩
    obtain ⟨f', rfl⟩ : ∃ k, f' = k + 1 := ⟨f' - 1, by omega⟩
    rw [postprocessBlocks, List.nil_append, readVar_zero]
    rfl
  | @cons l cs hl h ih =>
    intro f hf
    rw [List.length_cons] at hf
    obtain ⟨f, rfl⟩ : ∃ k, f = k + 1 := ⟨f - 1, by omega⟩
    have hlp := List.length_pos_iff.mpr hl
    have hle : (l.take bs).length = min bs l.length := List.length_take
    obtain ⟨out, g, p1, p2, c, c1, c2⟩ := hpre (l.take bs) (by simp)
    obtain ⟨a, a1, a2, a3⟩ := packed_spec p2
    obtain ⟨w, w1, w2, w3⟩ := ih (fun c hc => hpre c (by simp [hc])) f (by omega)
    have hne : out.length ≠ 0 := by
      intro hc
      obtain ⟨g', _, h2⟩ := c2 []
      have hnil : out = [] := List.length_eq_zero_iff.mp hc
      rw [hnil, postprocess] at h2
      simp only [Option.bind_eq_bind, Option.bind_eq_some_iff] at h2
      obtain ⟨t, _, h2⟩ := h2
      have : ([] : List UInt8) = l.take bs := by
        split at h2
        · simpa using h2
        · simpa [uncompress] using h2
      rw [← this, List.length_nil] at hle
      omega
    refine ⟨a ++ c ++ out ++ w, ?_, ?_, ?_⟩
    · rw [preprocessBlocks, if_neg (by omega), p1]
      simp only [Option.bind_eq_bind, Option.bind_some, a1, c1, w1, Option.pure_def]
    · simp only [List.length_append, List.length_cons]; omega
    · intro f' hf' rest
      rw [List.length_cons] at hf'
      obtain ⟨f', rfl⟩ : ∃ k, f' = k + 1 := ⟨f' - 1, by omega⟩
      obtain ⟨g', g1, g2⟩ := c2 (out ++ (w ++ 0 :: rest))
      rw [postprocessBlocks]
      simp only [List.append_assoc]
      rw [bytesBits_append, a3]
      simp only [Option.bind_eq_bind, Option.bind_some]
      rw [if_neg hne, g1]
      simp only [Option.bind_some, bytesBits_append out, readBytes_spec, g2]
      rw [w3 f' (by omega) rest]
      simp

/-- C41 (partial: every block goes through rounds that C36 covers; blocks below 4 GB).  Whatever follows the file is not looked at. -/
theorem C41_tools_partial (rounds bs : Nat) (e : Env) (input : List UInt8) (cs : List (List UInt8))
    (he : ∀ F, Initial F (e.table F)) (hb : rounds ≤ 1 ∨ ∃ y, e.beyond = some y ∧ 2 ^ 32 ≤ y) (hbs : 0 < bs)
    (hcs : InChunks bs input cs)
    (hpre : ∀ c ∈ cs, c.length + 395759 ≤ 2 ^ 32 ∧ ∃ out g,
      precompress e.table e.beyond (e.small c.length) rounds (c ++ [e.junk]) c.length = some (out, g) ∧
      out.length < 2 ^ 56 ∧ SafeRounds e.table e.beyond (e.small c.length) c.length rounds
        ⟨c ++ [e.junk], none, false, c.length, 0, empty⟩) :
    ∃ file, preprocessTool ⟨72, 1, rounds, 0⟩ e bs input = some file ∧
      ∀ rest : List UInt8, postprocessTool (file ++ rest) = some input := by
  obtain ⟨f1, f2, f3⟩ := hcs.facts hbs
  obtain ⟨w, w1, w2, w3⟩ := tools_roundtrip (o := ⟨72, 1, rounds, 0⟩) (e := e) hbs hcs (fun c hc => by
    obtain ⟨hlen, out, g, q1, q2, q3⟩ := hpre c hc
    exact ⟨out, g, q1, q2, restores_of_precompress (o := ⟨72, 1, rounds, 0⟩) he hb hlen q3 q1⟩) (input.length + 1) (by omega)
  refine ⟨w ++ [0], ?_, ?_⟩
  · rw [preprocessTool, w1]
    rfl
  · intro rest
    rw [postprocessTool, List.append_assoc, List.singleton_append]
    exact w3 _ (by simp only [List.length_append, List.length_cons]; omega) rest

/-- Five rounds of preprocessing on a file of eight bytes in one block. -/
example : ∃ file, preprocessTool ⟨72, 1, 5, 0⟩ sampleEnv 1024 [97, 98, 97, 98, 97, 98, 99, 0] = some file ∧
    ∀ rest : List UInt8, postprocessTool (file ++ rest) = some [97, 98, 97, 98, 97, 98, 99, 0] := by
  refine C41_tools_partial 5 1024 sampleEnv _ [[97, 98, 97, 98, 97, 98, 99, 0]] makeTable_initial (.inr ⟨_, rfl, by decide⟩) (by decide)
    (InChunks.cons (n := 1024) (l := [97, 98, 97, 98, 97, 98, 99, 0]) (by decide) .nil) ?_
  intro c hc
  rw [List.mem_singleton] at hc
  subst hc
  obtain ⟨s1, s2, _⟩ := C36_short_blocks makeTable makeTable_initial (some (2 ^ 32)) (sampleEnv.small 8)
    ([97, 98, 97, 98, 97, 98, 99, 0] ++ [0]) 8 4 (by decide) (by decide) (by decide) (by decide)
  exact ⟨by decide, _, empty, s2, by decide, s1⟩

/-- C41 without preprocessing, for every file and every size of the blocks. -/
theorem C41_tools_plain (bs : Nat) (e : Env) (input : List UInt8) (hbs : 0 < bs) (hin : input.length < 2 ^ 56) :
    ∃ file, preprocessTool ⟨72, 1, 0, 0⟩ e bs input = some file ∧
      ∀ rest : List UInt8, postprocessTool (file ++ rest) = some input := by
  obtain ⟨cs, hcs⟩ := InChunks.exists hbs _ input (Nat.le_refl _)
  obtain ⟨f1, f2, f3⟩ := hcs.facts hbs
  obtain ⟨w, w1, w2, w3⟩ := tools_roundtrip (o := ⟨72, 1, 0, 0⟩) (e := e) hbs hcs (fun c hc =>
    ⟨c, empty, precompress_zero rfl e c, by have := (f3 c hc).2.2; omega, restores_empty c⟩) (input.length + 1) (by omega)
  refine ⟨w ++ [0], ?_, ?_⟩
  · rw [preprocessTool, w1]
    rfl
  · intro rest
    rw [postprocessTool, List.append_assoc, List.singleton_append]
    exact w3 _ (by simp only [List.length_append, List.length_cons]; omega) rest

/-- C41 is false of the code: a file of two bytes loses the second one (C36), whatever the order of equal frequencies. -/
theorem C41_byte_lost (e : Env) (he : ∀ F, Initial F (e.table F)) (hsm : e.small 2 = fun _ => false) (a b : UInt8) (bs : Nat) (h2 : 2 ≤ bs) :
    ∃ file, preprocessTool ⟨72, 1, 1, 0⟩ e bs [a, b] = some file ∧ postprocessTool file = some [a] := by
  have hp : precompressBlock ⟨72, 1, 1, 0⟩ e [a, b] = some ([a], empty) := by
    rw [precompressBlock]
    simp only [List.length_cons, List.length_nil, Nat.zero_add, Nat.reduceAdd, hsm]
    exact C36_two_bytes_lost e.table he e.beyond a b [e.junk]
  obtain ⟨w, w1, w2⟩ := restores_empty [a]
  obtain ⟨c, c1, _, c3⟩ := packed_spec (n := 1) (by omega)
  refine ⟨c ++ w ++ [a] ++ [] ++ [0], ?_, ?_⟩
  · rw [preprocessTool, show ([a, b] : List UInt8).length + 1 = 1 + 1 + 1 from rfl, preprocessBlocks,
      List.take_of_length_le (by simpa using h2), if_neg (by simp), hp]
    simp only [Option.bind_eq_bind, Option.bind_some, List.length_singleton, c1, w1]
    rw [List.drop_of_length_le (by simpa using h2), preprocessBlocks, if_pos (by simp)]
    rfl
  · obtain ⟨g', g1, g2⟩ := w2 ([a] ++ [0])
    rw [postprocessTool]
    generalize hf : (c ++ w ++ [a] ++ [] ++ [0]).length = f
    have hf2 : 2 ≤ f := by
      rw [← hf]
      simp only [List.length_append, List.length_cons]
      omega
    obtain ⟨f, rfl⟩ : ∃ k, f = k + 1 := ⟨f - 1, by omega⟩
    rw [postprocessBlocks]
    simp only [List.append_assoc, List.nil_append]
    rw [bytesBits_append, c3]
    simp only [Option.bind_eq_bind, Option.bind_some]
    rw [if_neg (by omega), g1]
    have hb : readBytes 1 (bytesBits ([a] ++ [0])) = some ([a], bytesBits [0]) := by
      rw [bytesBits_append]
      exact readBytes_spec [a] _
    simp only [Option.bind_some, hb, g2]
    rw [postprocessBlocks, readVar_zero]
    rfl

/-- The platform of the examples is one on which the byte is lost. -/
example : (∀ F, Initial F (sampleEnv.table F)) ∧ ∃ e : Env, (∀ F, Initial F (e.table F)) ∧ e.small 2 = fun _ => false :=
  ⟨makeTable_initial, ⟨makeTable, some (2 ^ 32), fun _ _ => false, 0, fun _ _ _ _ => true⟩, makeTable_initial, rfl⟩

theorem C41_fails : ¬ C41_claim := by
  intro h
  obtain ⟨file, h1, h2⟩ := h 1 1 ⟨makeTable, some (2 ^ 32), fun _ _ => false, 0, fun _ _ _ _ => true⟩ [97, 98] makeTable_initial
    ⟨_, rfl, by decide⟩ (by simp) (by decide) (by decide)
  obtain ⟨file', h3, h4⟩ := C41_byte_lost ⟨makeTable, some (2 ^ 32), fun _ _ => false, 0, fun _ _ _ _ => true⟩ makeTable_initial
    rfl 97 98 (1 * 1024) (by decide)
  rw [h3] at h1
  simp only [Option.some.injEq] at h1
  rw [← h1, h4] at h2
  simp at h2

end Bwtc.Props
