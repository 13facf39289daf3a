import Verif.Files
import Verif.Props.Local

/-!
# C75: the files named on the command line
-/

set_option autoImplicit false

namespace Bwtc.Props
open Files Container

/-- The full claim C75: when the compressor has ended normally, decompressing its output gives the content that the input had. -/
def C75_claim : Prop := ∀ (may : Name → Bool) (letter : UInt8) (starts memLimit : Nat) (e : Env) (fuel : Nat) (fs fs' : Fs) (input output : Name) (data : List UInt8),
  6 ≤ memLimit → memLimit ≤ 2902000000 → fs input = some data → data.length < 2 ^ 56 →
  compressFile may ⟨letter, starts, 0, memLimit⟩ e fuel fs input output = some (.done fs') →
  ∃ file N, fs' output = some file ∧ ∀ fuel', N ≤ fuel' → ∀ junk, decompress junk fuel' file = some data

/-- Neither program changes any file but its output, and none at all if the input or the output cannot be opened. -/
theorem C75_others_kept (may : Name → Bool) (f : List UInt8 → Option (List UInt8)) (fs : Fs) (input output : Name) (r : End)
    (h : program may f fs input output = some r) :
    ((fs input = none ∨ may output = false) ∧ r = .failed fs) ∨
      ∃ fs', r = .done fs' ∧ fs input ≠ none ∧ may output = true ∧ ∀ n, n ≠ output → fs' n = fs n := by
  rw [program] at h
  cases hi : fs input with
  | none =>
    rw [if_neg (by rw [openIn, hi]; decide), Option.some.injEq] at h
    exact Or.inl ⟨Or.inl rfl, h.symm⟩
  | some data =>
    rw [if_pos (by rw [openIn, hi]; rfl), openOut] at h
    cases hm : may output with
    | false =>
      rw [hm, if_neg (by decide), Option.some.injEq] at h
      exact Or.inl ⟨Or.inr rfl, h.symm⟩
    | true =>
      rw [hm, if_pos rfl] at h
      simp only [Option.bind_eq_bind, Option.bind_eq_some_iff, Option.pure_def, Option.some.injEq] at h
      obtain ⟨d, _, file, _, h⟩ := h
      refine Or.inr ⟨_, h.symm, (by intro hc; cases hc), rfl, fun n hn => ?_⟩
      rw [Fs.put, if_neg hn, Fs.put, if_neg hn]

theorem program_apart (may : Name → Bool) (f : List UInt8 → Option (List UInt8)) (fs : Fs) (input output : Name) (data : List UInt8) (hne : input ≠ output)
    (hd : fs input = some data) (hm : may output = true) : program may f fs input output = (f data).map fun file => .done (fs.put output file) := by
  rw [program, if_pos (by rw [openIn, hd]; rfl), openOut, if_pos hm]
  simp only
  rw [show (fs.put output []) input = some data by rw [Fs.put, if_neg hne, hd]]
  simp only [Option.bind_eq_bind, Option.bind_some]
  cases f data with
  | none => rfl
  | some file =>
    simp only [Option.bind_some, Option.map_some]
    refine congrArg some (congrArg End.done ?_)
    funext n
    simp only [Fs.put]
    split <;> rfl

theorem program_same (may : Name → Bool) (f : List UInt8 → Option (List UInt8)) (fs : Fs) (name : Name) (data : List UInt8)
    (hd : fs name = some data) (hm : may name = true) : program may f fs name name = (f []).map fun file => .done (fs.put name file) := by
  rw [program, if_pos (by rw [openIn, hd]; rfl), openOut, if_pos hm]
  simp only
  rw [show (fs.put name []) name = some [] by rw [Fs.put, if_pos rfl]]
  simp only [Option.bind_eq_bind, Option.bind_some]
  cases f [] with
  | none => rfl
  | some file =>
    simp only [Option.bind_some, Option.map_some]
    refine congrArg some (congrArg End.done ?_)
    funext n
    simp only [Fs.put]
    split <;> rfl

/-- C75 for two different files: the input stays as it is, and the output can be decompressed to it, into any third file. -/
theorem C75_two_files_partial (may : Name → Bool) (letter : UInt8) (starts memLimit : Nat) (e : Env) (fuel : Nat) (fs fs' : Fs) (input output : Name) (data : List UInt8)
    (h6 : 6 ≤ memLimit) (hm : memLimit ≤ 2902000000) (hd : fs input = some data) (hl : data.length < 2 ^ 56) (hne : input ≠ output)
    (h : compressFile may ⟨letter, starts, 0, memLimit⟩ e fuel fs input output = some (.done fs')) :
    fs' input = some data ∧ ∃ N, ∀ fuel', N ≤ fuel' → ∀ junk back, may back = true → back ≠ output →
      ∃ fs'', uncompressFile may junk fuel' fs' output back = some (.done fs'') ∧ fs'' back = some data := by
  rcases C75_others_kept may _ fs input output _ h with ⟨_, hc⟩ | ⟨_, h1, _, h2, h3⟩
  · cases hc
  · rw [End.done.injEq] at h1
    subst h1
    rw [compressFile, program_apart may _ fs input output data hne hd h2] at h
    simp only [Option.map_map, Option.map_eq_some_iff, Function.comp_apply, End.done.injEq] at h
    obtain ⟨⟨file, n⟩, hf, rfl⟩ := h
    obtain ⟨_, N, hN⟩ := C56_written_files_restored letter starts memLimit e data h6 hm hl fuel file n hf
    refine ⟨by rw [h3 input hne, hd], N, fun fuel' hf' junk back hb hbn => ?_⟩
    have hr := hN fuel' hf' junk []
    rw [List.append_nil] at hr
    refine ⟨(fs.put output file).put back data, ?_, ?_⟩
    · rw [uncompressFile, program_apart may _ _ output back file (fun h => hbn h.symm) (by rw [Fs.put, if_pos rfl]) hb, hr]
      rfl
    · rw [Fs.put, if_pos rfl]

theorem files_back (may : Name → Bool) (f g : List UInt8 → Option (List UInt8)) (fs fs' : Fs) (input output : Name) (data : List UInt8)
    (hd : fs input = some data) (hne : input ≠ output) (h : program may f fs input output = some (.done fs'))
    (hg : ∀ file, f data = some file → g file = some data) :
    fs' input = some data ∧ ∀ back, may back = true → back ≠ output → ∃ fs'', program may g fs' output back = some (.done fs'') ∧ fs'' back = some data := by
  rcases C75_others_kept may _ fs input output _ h with ⟨_, hc⟩ | ⟨_, h1, _, h2, h3⟩
  · cases hc
  · rw [End.done.injEq] at h1
    subst h1
    rw [program_apart may _ fs input output data hne hd h2] at h
    simp only [Option.map_eq_some_iff, End.done.injEq] at h
    obtain ⟨file, hf, rfl⟩ := h
    refine ⟨by rw [h3 input hne, hd], fun back hb hbn => ⟨(fs.put output file).put back data, ?_, by rw [Fs.put, if_pos rfl]⟩⟩
    rw [program_apart may _ _ output back file (fun h => hbn h.symm) (by rw [Fs.put, if_pos rfl]) hb, hg file hf]
    rfl

/-- The same with preprocessing, under the conditions of `C56_preprocessed_partial`. -/
theorem C75_preprocessed_partial (may : Name → Bool) (letter : UInt8) (starts rounds memLimit : Nat) (e : Env) (fuel : Nat) (fs fs' : Fs) (input output : Name)
    (data : List UInt8) (cs : List (List UInt8)) (he : ∀ F, FreqTable.Initial F (e.table F)) (hb : rounds ≤ 1 ∨ ∃ y, e.beyond = some y ∧ 2 ^ 32 ≤ y) (hr : 1 ≤ rounds)
    (h20 : 20 ≤ memLimit) (hm : memLimit ≤ 2415000000) (hd : fs input = some data) (hl : data.length < 2 ^ 56) (hne : input ≠ output)
    (hcs : InChunks (times074 memLimit) data cs)
    (hpre : ∀ c ∈ cs, ∃ out g, PairReplace.precompress e.table e.beyond (e.small c.length) rounds (c ++ [e.junk]) c.length = some (out, g) ∧
      out.length ≤ c.length ∧ PairReplace.SafeRounds e.table e.beyond (e.small c.length) c.length rounds
        ⟨c ++ [e.junk], none, false, c.length, 0, Grammar.empty⟩)
    (h : compressFile may ⟨letter, starts, rounds, memLimit⟩ e fuel fs input output = some (.done fs')) :
    fs' input = some data ∧ ∃ N, ∀ fuel', N ≤ fuel' → ∀ junk back, may back = true → back ≠ output →
      ∃ fs'', uncompressFile may junk fuel' fs' output back = some (.done fs'') ∧ fs'' back = some data := by
  rcases C75_others_kept may _ fs input output _ h with ⟨_, hc⟩ | ⟨_, _, _, h2, _⟩
  · cases hc
  · have h' := h
    rw [compressFile, program_apart may _ fs input output data hne hd h2] at h'
    simp only [Option.map_map, Option.map_eq_some_iff, Function.comp_apply] at h'
    obtain ⟨⟨file, n⟩, hf, _⟩ := h'
    obtain ⟨_, N, hN⟩ := C56_preprocessed_partial letter starts rounds memLimit e data cs he hb hr h20 hm hl hcs hpre fuel file n hf
    have key : ∀ fuel', N ≤ fuel' → ∀ junk, _ := fun fuel' hf' junk => files_back may _ (decompress junk fuel') fs fs' input output data hd hne h (by
      intro file' hf2
      rw [hf, Option.map_some, Option.some.injEq] at hf2
      subst hf2
      have hr := hN fuel' hf' junk []
      rwa [List.append_nil] at hr)
    exact ⟨(key N (Nat.le_refl _) 0).1, N, fun fuel' hf' junk back hb hbn => (key fuel' hf' junk).2 back hb hbn⟩

/-- The two preprocessing tools on different files, without preprocessing: the first leaves its input as it is and ends normally if it can open its output, and the second gives
the content back, in any third file. -/
theorem C75_tools_two_files (may : Name → Bool) (bs : Nat) (e : Env) (fs : Fs) (input output : Name) (data : List UInt8)
    (hbs : 0 < bs) (hd : fs input = some data) (hl : data.length < 2 ^ 56) (hne : input ≠ output) (hm : may output = true) :
    ∃ fs', preprocessFile may ⟨72, 1, 0, 0⟩ e bs fs input output = some (.done fs') ∧ fs' input = some data ∧
      ∀ back, may back = true → back ≠ output → ∃ fs'', postprocessFile may fs' output back = some (.done fs'') ∧ fs'' back = some data := by
  obtain ⟨file, hf, hr⟩ := C41_tools_plain bs e data hbs hl
  have hrun : preprocessFile may ⟨72, 1, 0, 0⟩ e bs fs input output = some (.done (fs.put output file)) := by
    rw [preprocessFile, program_apart may _ fs input output data hne hd hm, hf]
    rfl
  refine ⟨_, hrun, files_back may _ postprocessTool fs _ input output data hd hne hrun fun file' hf' => ?_⟩
  rw [hf, Option.some.injEq] at hf'
  subst hf'
  have := hr []
  rwa [List.append_nil] at this

/-- The preprocessing tool run from a file onto itself ends normally, whatever the options, and leaves the end marker only: the content is lost. -/
theorem C75_tool_onto_itself (may : Name → Bool) (o : Options) (e : Env) (bs : Nat) (fs : Fs) (name : Name) (data : List UInt8) (hd : fs name = some data)
    (hm : may name = true) : preprocessFile may o e bs fs name name = some (.done (fs.put name [0])) ∧ postprocessTool [0] = some [] := by
  refine ⟨?_, by decide +kernel⟩
  rw [preprocessFile, program_same may _ fs name data hd hm, preprocessTool, List.length_nil, Nat.zero_add, preprocessBlocks, List.take_nil, if_pos List.length_nil]
  rfl

/-- Compressing a file onto itself ends normally, whatever the options, and leaves the archive of the empty file. -/
theorem C75_onto_itself (may : Name → Bool) (o : Options) (e : Env) (fuel : Nat) (fs : Fs) (name : Name) (data : List UInt8) (hd : fs name = some data) (hm : may name = true) :
    compressFile may o e fuel fs name name = some (.done (fs.put name [o.letter, 0])) := by
  have h : compress o e fuel [] = some ([o.letter, 0], 2) := by
    rw [compress, List.length_nil, Nat.zero_add, compressBlocks, List.take_nil, if_pos List.length_nil]
    rfl
  rw [compressFile, program_same may _ fs name data hd hm, h]
  rfl

/-- Decompressing a file onto itself is undefined, whatever the file. -/
theorem C75_uncompress_onto_itself (may : Name → Bool) (junk : UInt8) (fuel : Nat) (fs : Fs) (name : Name) (data : List UInt8) (hd : fs name = some data) (hm : may name = true) :
    uncompressFile may junk fuel fs name name = none := by
  rw [uncompressFile, program_same may _ fs name data hd hm, show decompress junk fuel [] = none from ones_undefined junk fuel 0]
  rfl

/-- C75 is false of the code: two different files compressed onto themselves leave the same file. -/
theorem C75_fails : ¬ C75_claim := by
  intro h
  have gen : ∀ data : List UInt8, data.length < 2 ^ 56 → ∃ N, ∀ fuel', N ≤ fuel' → decompress 0 fuel' [72, 0] = some data := by
    intro data hl
    obtain ⟨file, N, h1, h2⟩ := h (fun _ => true) 72 1 1000 sampleEnv 0 (fun _ => some data) _ [97] [97] data (by decide) (by decide) rfl hl
      (C75_onto_itself _ _ _ _ _ _ data rfl rfl)
    rw [Fs.put, if_pos rfl, Option.some.injEq] at h1
    subst h1
    exact ⟨N, fun fuel' hf => h2 fuel' hf 0⟩
  obtain ⟨N, hN⟩ := gen [97] (by decide)
  obtain ⟨M, hM⟩ := gen [98] (by decide)
  have e1 := hN (max N M) (by omega)
  rw [hM (max N M) (by omega)] at e1
  exact absurd e1 (by decide)

/-- The hypotheses of `C75_two_files_partial` can be met: "ba" from the file "a" into the file "b". -/
example : ∃ fs', compressFile (fun _ => true) ⟨109, 1, 0, 1000⟩ sampleEnv 20 (fun n => if n = [97] then some [98, 97] else none) [97] [98] = some (.done fs') ∧
    fs' [97] = some [98, 97] := by
  have h : (compress ⟨109, 1, 0, 1000⟩ sampleEnv 20 [98, 97]).isSome = true := by decide +kernel
  obtain ⟨⟨file, n⟩, h⟩ := Option.isSome_iff_exists.mp h
  have hr : compressFile (fun _ => true) ⟨109, 1, 0, 1000⟩ sampleEnv 20 (fun n => if n = [97] then some [98, 97] else none) [97] [98] =
      some (.done (Fs.put (fun n => if n = [97] then some [98, 97] else none) [98] file)) := by
    rw [compressFile, program_apart (fun _ => true) _ (fun n => if n = [97] then some [98, 97] else none) [97] [98] [98, 97] (by decide) rfl rfl, h]
    rfl
  exact ⟨_, hr, (C75_two_files_partial _ 109 1 1000 sampleEnv 20 _ _ [97] [98] [98, 97] (by decide) (by decide) rfl (by decide) (by decide) hr).1⟩

/-- The hypotheses of `C75_tools_two_files` can be met: three bytes in blocks of two. -/
example : ∃ fs', preprocessFile (fun _ => true) ⟨72, 1, 0, 0⟩ sampleEnv 2 (fun n => if n = [97] then some [98, 97, 99] else none) [97] [98] = some (.done fs') ∧
    fs' [97] = some [98, 97, 99] := by
  obtain ⟨fs', h1, h2, _⟩ := C75_tools_two_files (fun _ => true) 2 sampleEnv (fun n => if n = [97] then some [98, 97, 99] else none) [97] [98] [98, 97, 99]
    (by decide) rfl (by decide) (by decide) rfl
  exact ⟨fs', h1, h2⟩

/-- The hypotheses of `C75_preprocessed_partial` can be met: "ababa" with three rounds from the file "a" into the file "b". -/
example : ∃ fuel fs', compressFile (fun _ => true) ⟨72, 1, 3, 100000000⟩ sampleEnv fuel (fun n => if n = [97] then some [97, 98, 97, 98, 97] else none) [97] [98] =
      some (.done fs') ∧ fs' [97] = some [97, 98, 97, 98, 97] := by
  obtain ⟨N, h⟩ := C38_preprocessed_short 1 3 100000000 sampleEnv [97, 98, 97, 98, 97] makeTable_initial (.inr ⟨_, rfl, by decide⟩)
    (by decide) (by decide) (by decide) (by decide) (by decide) (by decide +kernel) (by decide)
  obtain ⟨file, h, _⟩ := h N (N + 1) (by omega) (by omega)
  have hr : compressFile (fun _ => true) ⟨72, 1, 3, 100000000⟩ sampleEnv N (fun n => if n = [97] then some [97, 98, 97, 98, 97] else none) [97] [98] =
      some (.done (Fs.put (fun n => if n = [97] then some [97, 98, 97, 98, 97] else none) [98] file)) := by
    rw [compressFile, program_apart (fun _ => true) _ (fun n => if n = [97] then some [97, 98, 97, 98, 97] else none) [97] [98] [97, 98, 97, 98, 97]
      (by decide) rfl rfl, h]
    rfl
  refine ⟨N, _, hr, (C75_preprocessed_partial (fun _ => true) 72 1 3 100000000 sampleEnv N _ _ [97] [98] [97, 98, 97, 98, 97] [[97, 98, 97, 98, 97]]
    makeTable_initial (.inr ⟨_, rfl, by decide⟩) (by decide) (by decide) (by decide) rfl (by decide) (by decide) ?_ ?_ hr).1⟩
  · have hfit : ([97, 98, 97, 98, 97] : List UInt8).length ≤ times074 100000000 := by decide +kernel
    have := InChunks.cons (n := times074 100000000) (l := ([97, 98, 97, 98, 97] : List UInt8)) (by decide) (cs := []) (by
      rw [List.drop_of_length_le hfit]
      exact .nil)
    rwa [List.take_of_length_le hfit] at this
  · intro c hc
    rw [List.mem_singleton] at hc
    subst hc
    obtain ⟨s1, s2, _⟩ := C36_short_blocks sampleEnv.table makeTable_initial sampleEnv.beyond (sampleEnv.small 5) ([97, 98, 97, 98, 97] ++ [sampleEnv.junk]) 5 2
      (by decide) (by decide) (by simp) (by decide)
    exact ⟨_, _, s2, Nat.le_refl _, s1⟩

end Bwtc.Props
