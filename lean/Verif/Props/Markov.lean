import Verif.Props.Container

/-!
# C38 and C43 with the Markov models
-/

set_option autoImplicit false

namespace Bwtc.Props
open ProbModels Wave WaveBlock Container PairReplace Grammar

/-- A zero coded first, in an unused table, leaves a negative exponent where the next probability is looked up. -/
theorem markov_zero_first {w : Nat} (hw : 0 < w) (m : Markov) (h0 : m.prev = 0) (h1 : m.hist = List.replicate (2 ^ w - 1) 0)
    (b : Bool) (rest : List Bool) : encBits (simpleMarkov w) (false :: b :: rest) m = none := by
  obtain ⟨k, hk⟩ : ∃ k, 2 ^ w - 1 = k + 1 := by
    obtain ⟨v, rfl⟩ : ∃ v, w = v + 1 := ⟨w - 1, by omega⟩
    have : 0 < 2 ^ v := Nat.two_pow_pos v
    exact ⟨2 ^ (v + 1) - 2, by rw [Nat.pow_succ]; omega⟩
  have hp : (0 : Nat) % 2 ^ w = 0 := Nat.zero_mod _
  have hu : encBit (simpleMarkov w) m false = some (4096 >>> 6, ⟨0, (-1) :: List.replicate k 0⟩) := by
    obtain ⟨prev, hist⟩ := m
    simp only at h0 h1
    subst h0 h1
    simp [encBit, simpleMarkov, hk, List.replicate_succ, hp]
  rw [encBits, hu]
  simp only [Option.bind_eq_bind, Option.bind_some]
  rw [encBits]
  have : encBit (simpleMarkov w) ⟨0, (-1) :: List.replicate k 0⟩ b = none := by
    simp [encBit, simpleMarkov]
  rw [this]
  rfl

/-- C43 with the letters `m` and `M`: a section whose first run is coded by a word beginning with 0 and which has a second run is not coded,
if it is the first one or all runs before it were coded by words beginning with 0 as well. -/
theorem C43_markov_undefined {w : Nat} (hw : 0 < w) (cheap : Nat → Nat → Nat × Nat → Bool) (fuel : Nat) (st : States Markov) (sec : List UInt8)
    (c : Codes) (h : Heap) (root : Node) (b : Bool) (rest : List Bool) (h0 : st.1.prev = 0) (h1 : st.1.hist = List.replicate (2 ^ w - 1) 0)
    (ht : makeTree cheap sec = some (c, h)) (hr : h [] = some root) (hb : root.bits = false :: b :: rest) :
    encodeSection (simpleMarkov w) cheap fuel st sec = none := by
  have henc : encodeTree (simpleMarkov w) integerModel gapModel fuel h st.1 st.2.1 st.2.2 = none := by
    rw [encodeTree, hr]
    simp only [Option.bind_eq_bind, Option.bind_some, hb, markov_zero_first hw st.1 h0 h1, List.head?_cons, Option.bind_none]
  rw [encodeSection, ht]
  simp only [Option.bind_eq_bind, Option.bind_some, hr, henc, Option.bind_none]
  cases Varint.packInteger root.bits.length with
  | none => rfl
  | some p => cases treeShape c <;> rfl

/-- The transform of "ab". -/
theorem transform_ab : ∃ lf freqs, Sections.sections freqs = [2] ∧ ∀ next : UInt8,
    FwdBWT.transform ([97, 98] ++ [next]) 0 2 1 (List.replicate 256 0) = some ([97, 98] ++ [next], lf, freqs) := by
  obtain ⟨s', lf, freqs, h1, _⟩ := FwdBWT.transform_spec [97, 98] 1 (List.replicate 256 0) (by simp)
    (by rw [List.length_replicate])
  have h0 : (FwdBWT.transform ([97, 98] ++ [0]) 0 2 1 (List.replicate 256 0)).map
      (fun r => (r.1, Sections.sections r.2.2)) = some ([97, 98] ++ [0], [2]) := by decide +kernel
  have h2 : FwdBWT.transform ([97, 98] ++ [0]) 0 2 1 (List.replicate 256 0) = some (s' ++ [0], lf, freqs) := h1 [] 0 []
  rw [h2] at h0
  simp only [Option.map_some, Option.some.injEq, Prod.mk.injEq] at h0
  obtain ⟨h3, h4⟩ := h0
  have hs : s' = [97, 98] := List.append_cancel_right h3
  subst hs
  exact ⟨lf, freqs, h4, fun next => h1 [] next []⟩

/-- The tree of "ab". -/
theorem tree_ab (cheap : Nat → Nat → Nat × Nat → Bool) : ∃ c h root, makeTree cheap [97, 98] = some (c, h) ∧ h [] = some root ∧
    root.bits = [false, true] := by
  have hne : ([97, 98] : List UInt8) ≠ [] := by simp
  have hlen : ([97, 98] : List UInt8).length < 2 ^ 32 := by decide
  have hruns : Runs.runsOf [97, 98] = [(97, 1), (98, 1)] := by decide +kernel
  have hs : messageCodes cheap [97, 98] ≠ none := by
    refine C43_search cheap [97, 98] hne hlen ?_ (Or.inl ⟨1, 1, ?_⟩)
    · rw [hruns]; decide
    · rw [hruns]; decide
  obtain ⟨c, hc⟩ := Option.ne_none_iff_exists'.mp hs
  obtain ⟨hg, hk⟩ := messageCodes_good hne hlen hc
  have hcodes : c.codes = [(97, [false]), (98, [true])] := by
    rw [messageCodes_eq cheap hne hlen, chooseCodes] at hc
    simp only [Option.bind_eq_bind, Option.bind_eq_some_iff, Option.pure_def, Option.some.injEq] at hc
    obtain ⟨cl, h1, root, h2, _, _, _, _, codes, h3, h4⟩ := hc
    have : ((Huff.calculateHuffmanLengths (HuffBlock.freqList (runsOfByte [97, 98]))).bind fun cl =>
        (buildTree (Huff.sortPairs cl)).bind fun root => collect root []) = some [(97, [false]), (98, [true])] := by decide +kernel
    rw [h1, Option.bind_some, h2, Option.bind_some, h3, Option.some.injEq] at this
    rw [← h4]
    exact this
  have hp := pushMessage_eq hg hne hlen (fun x hx => (hk x).mpr hx)
  rw [hruns] at hp
  obtain ⟨root, hr⟩ := treeOf_isSome (c := c) (rs := [(97, 1), (98, 1)]) (q := []) (x := (97, 1)) (by simp) (List.nil_prefix)
  refine ⟨c, _, root, ?_, hr, ?_⟩
  · rw [makeTree, hc]
    simp only [Option.bind_eq_bind, Option.bind_some, hp, Option.pure_def]
  · rw [treeOf_bits hr]
    simp [bitsAt, words, word, ccode, hcodes, codeOf, nextBit]

theorem markov_file_undefined {letter : UInt8} {w : Nat} (hw : 0 < w) (hl : coderOf letter = wavelet (simpleMarkov w)) (e : Env) (fuel : Nat) :
    compress ⟨letter, 1, 0, memLimitOf 100⟩ e fuel [97, 98] = none := by
  have hb : bwtBlock0 ⟨letter, 1, 0, memLimitOf 100⟩ = 18500000 := by
    show min (times0185 (memLimitOf 100)) maxBlock = 18500000
    decide +kernel
  have hpb : pbBlock ⟨letter, 1, 0, memLimitOf 100⟩ = 18500000 := by rw [pbBlock, if_pos rfl, hb]
  have hf := frontBlock_whole (letter := letter) (starts := 1) (memLimit := memLimitOf 100) (e := e)
    (input := [97, 98]) (by simp) (by rw [hb]; decide)
  obtain ⟨lf, freqs, h1, h2⟩ := transform_ab
  have henc : encodeSlices (coderOf letter) e.cheap fuel (clampStarts 1) [2] ([97, 98] ++ [e.junk]) 0
      (coderOf letter).init = none := by
    rw [hl]
    rw [encodeSlices, show clampStarts 1 = 1 from rfl, h2]
    simp only [Option.bind_eq_bind, Option.bind_some]
    have : (wavelet (simpleMarkov w)).encode e.cheap fuel (wavelet (simpleMarkov w)).init lf freqs
        (List.take 2 (List.drop 0 ([97, 98] ++ [e.junk]))) = none := by
      show WaveBlock.encodeBlock (simpleMarkov w) e.cheap fuel lf freqs (WaveBlock.initial (simpleMarkov w)) [97, 98] = none
      obtain ⟨c, h, root, t1, t2, t3⟩ := tree_ab (e.cheap [97, 98])
      have hsec := C43_markov_undefined hw (e.cheap [97, 98]) fuel (WaveBlock.initial (simpleMarkov w)) [97, 98] c h root true []
        rfl rfl t1 t2 t3
      rw [WaveBlock.encodeBlock, h1, WaveBlock.encodeSections, if_neg (by omega), if_pos (by simp),
        List.take_of_length_le (by simp), hsec]
      simp
    rw [this]
    rfl
  rw [compress]
  simp only [List.length_cons, List.length_nil, Nat.zero_add, Nat.reduceAdd]
  rw [compressBlocks, hpb, List.take_of_length_le (by simp), if_neg (by simp), hf]
  simp only [Option.bind_eq_bind, Option.bind_some, List.map_cons, List.map_nil, List.length_cons, List.length_nil, Nat.zero_add,
    Nat.reduceAdd, henc, Option.bind_none]
  cases writeBlockHeader 2 1 empty <;> rfl

/-- C38 is false of the code for the letters `m` and `M` on the file "ab", whatever the platform does. -/
theorem C38_markov_undefined (e : Env) (fuel : Nat) : compress ⟨109, 1, 0, memLimitOf 100⟩ e fuel [97, 98] = none ∧
    compress ⟨77, 1, 0, memLimitOf 100⟩ e fuel [97, 98] = none :=
  ⟨markov_file_undefined (w := 8) (by decide) rfl e fuel, markov_file_undefined (w := 16) (by decide) rfl e fuel⟩

/-- The hypotheses of `C43_markov_undefined`: the section "ab" in the first block. -/
example (cheap : Nat → Nat → Nat × Nat → Bool) : ∃ c h root, (initial modelm).1.prev = 0 ∧ (initial modelm).1.hist = List.replicate (2 ^ 8 - 1) 0 ∧
    makeTree cheap [97, 98] = some (c, h) ∧ h [] = some root ∧ root.bits = [false, true] := by
  obtain ⟨c, h, root, t⟩ := tree_ab cheap
  exact ⟨c, h, root, rfl, rfl, t⟩

end Bwtc.Props
