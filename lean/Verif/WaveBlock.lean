import Verif.HuffBlock
import Verif.Props.WaveCoding
import Verif.Props.WaveCodes

/-!
# A block coded with wavelet trees

Model of `WaveletEncoder` and `WaveletDecoder` (WaveletCoders.cpp:44-325).  The header of the block is
the one of the Huffman coder (`Verif.Sections`).  The probability models are members of the coder objects: they live
as long as the object and are passed from section to section and from block to block.
-/

set_option autoImplicit false

namespace Bwtc.WaveBlock
open Wave RangeCoder ProbModels Huff Varint Props

/-- The states of `m_probModel`, `m_integerProbModel` and `m_gapProbModel` (WaveletCoders.hpp:86-91, 128-133). -/
abbrev States (σ : Type) := σ × Fsm Nat × Fsm Nat

/-- The states after the constructors (WaveletCoders.cpp:44-54, 315-319). -/
def initial {σ : Type} (P : Model σ) : States σ := (P.init, integerModel.init, gapModel.init)

/-- The resets of `endContextBlock` (WaveletCoders.cpp:64-66, 72-74). -/
def resetAll {σ : Type} (P : Model σ) (st : States σ) : Option (States σ) := do
  let a ← P.reset st.1
  let b ← integerModel.reset st.2.1
  let c ← gapModel.reset st.2.2
  return (a, b, c)

/-- One section of `encodeData` (WaveletCoders.cpp:118-155): the bytes written, the amount added to
`m_compressedBlockLength` (the bytes counted by `m_destination` are added here and not at the end of the block;
the counter is a `uint64`, taken as unbounded) and the states of the models.  `cheap` stands for the outcomes
of the floating-point comparisons in the constructor of the tree, `fuel` for the unbounded loops. -/
def encodeSection {σ : Type} (P : Model σ) (cheap : Nat → Nat → Nat × Nat → Bool) (fuel : Nat) (st : States σ)
    (sec : List UInt8) : Option (List UInt8 × Nat × States σ) := do
  let (c, h) ← makeTree cheap sec
  let root ← h []
  let (p, bytes) ← packInteger root.bits.length
  let shape ← treeShape c
  let (items, t) ← encodeTree P integerModel gapModel fuel h st.1 st.2.1 st.2.2
  let t ← resetAll P t
  let coded ← encodeSeq Range.init items
  return (writePacked p ++ packBits shape ++ coded, bytes + (packBits shape).length + coded.length, t)

/-- The loop of `encodeData` over the sections (WaveletCoders.cpp:116-156).  A section longer than the rest of
the block would be read beyond its end. -/
def encodeSections {σ : Type} (P : Model σ) (cheap : List UInt8 → Nat → Nat → Nat × Nat → Bool) (fuel : Nat) :
    List Nat → States σ → List UInt8 → Option (List UInt8 × Nat × States σ)
  | [], st, _ => some ([], 0, st)
  | n :: ns, st, data =>
    if n = 0 then encodeSections P cheap fuel ns st data
    else if n ≤ data.length then do
      let (a, x, st) ← encodeSection P (cheap (data.take n)) fuel st (data.take n)
      let (b, y, st) ← encodeSections P cheap fuel ns st (data.drop n)
      return (a ++ b, x + y, st)
    else none

/-- `transformAndEncode` after the transform (WaveletCoders.cpp:82-86, 159-219): the bytes written and the
returned size.  The length field is written by going back in the output (`write48bits`). -/
def encodeBlock {σ : Type} (P : Model σ) (cheap : List UInt8 → Nat → Nat → Nat × Nat → Bool) (fuel : Nat)
    (powers stats : List Nat) (st : States σ) (data : List UInt8) : Option (List UInt8 × Nat × States σ) := do
  let (h, k) ← Sections.writeHeader powers stats
  let (body, n, st) ← encodeSections P cheap fuel (Sections.sections stats) st data
  return (packBits (bitsOf 48 (k + n)) ++ h ++ body, k + n + 6, st)

/-- One section of `decodeBlock` (WaveletCoders.cpp:267-287): the bytes written to the block. -/
def decodeSection {σ : Type} (P : Model σ) (fuel : Nat) (st : States σ) (s : List Bool) :
    Option (List UInt8 × States σ × List Bool) := do
  let (p, s) ← readPacked s
  let rootSize ← unpackInteger p
  let (c, s) ← readShape s
  let d ← decStart (alignIn s)
  let ((g, t), d) ← (decodeTree P integerModel gapModel fuel c rootSize st.1 st.2.1 st.2.2).exec d
  let out ← message fuel c g
  let t ← resetAll P t
  return (out, t, d.input)

/-- The loop of `decodeBlock` (WaveletCoders.cpp:264-288). -/
def decodeSections {σ : Type} (P : Model σ) (fuel : Nat) :
    List Nat → States σ → List Bool → Option (List UInt8 × States σ × List Bool)
  | [], st, s => some ([], st, s)
  | n :: ns, st, s =>
    if n = 0 then decodeSections P fuel ns st s
    else do
      let (a, st, s) ← decodeSection P fuel st s
      let (b, st, s) ← decodeSections P fuel ns st s
      return (a ++ b, st, s)

/-- `decodeBlock` after the end test (WaveletCoders.cpp:250-290).  The size of the block is the number of
bytes written to it (line 289), here the section lengths serve only to skip empty sections. -/
def decodeBlock {σ : Type} (P : Model σ) (fuel : Nat) (st : States σ) (s : List Bool) :
    Option (HuffBlock.Decoded × States σ × List Bool) := do
  let (_, powers, secs, s) ← Sections.readHeader s
  let (data, st, s) ← decodeSections P fuel secs st s
  return (⟨powers, data, data.length⟩, st, s)

/-! ## Lemmas -/

theorem integer_reset_eq (s : Fsm Nat) :
    integerModel.reset s = some ⟨(integerModel.init).cur, List.replicate s.preds.length 2048⟩ := by
  rw [integerModel, fsm]
  simp only []
  rw [mapM_const (f := (unbiased 100 5 2048).reset) (b := 2048) (fun _ => rfl)]
  rfl

/-- Resetting the model of the run lengths twice is resetting it once. -/
theorem integer_reset_twice {u v : Fsm Nat} (h : integerModel.reset u = some v) :
    integerModel.reset v = integerModel.reset u := by
  rw [integer_reset_eq, Option.some.injEq] at h
  rw [integer_reset_eq, integer_reset_eq, ← h]
  simp

/-- The parts of a successful constructor. -/
theorem makeTree_parts {cheap : Nat → Nat → Nat × Nat → Bool} {sec : List UInt8} {c : Codes} {h : Heap}
    (hm : makeTree cheap sec = some (c, h)) : messageCodes cheap sec = some c ∧ pushMessage c sec = some h := by
  rw [makeTree] at hm
  cases hc : messageCodes cheap sec with
  | none => rw [hc] at hm; simp at hm
  | some c' =>
    rw [hc] at hm
    cases hh : pushMessage c' sec with
    | none => simp [hh] at hm
    | some h' =>
      simp [hh] at hm
      obtain ⟨rfl, rfl⟩ := hm
      exact ⟨rfl, hh⟩

/-- The root has one bit for each run. -/
theorem root_length {c : Codes} {sec : List UInt8} {h : Heap} (hg : GoodCodes c) (hne : sec ≠ [])
    (hlen : sec.length < 2 ^ 32) (hk : ∀ x : UInt8, x.toNat ∈ c.codes.map (·.1) ↔ x ∈ sec)
    (hh : pushMessage c sec = some h) {root : Node} (hr : h [] = some root) :
    root.bits.length = (Runs.runsOf sec).length := by
  rw [pushMessage_eq hg hne hlen (fun x hx => (hk x).mpr hx), Option.some.injEq] at hh
  subst hh
  have hcov := runs_covered (c := c) hlen (fun x hx => (hk x).mpr hx)
  have hrn : ∃ l r, c.root = .node none l r := by
    rcases hg.root with ⟨l, r, h, _⟩ | ⟨s, h⟩
    · exact ⟨l, r, h⟩
    · exact ⟨_, _, h⟩
  obtain ⟨l, r, hroot⟩ := hrn
  rw [treeOf_bits hr, root_bits hg hcov hroot]
  simp

/-- The shape written for a message is read back. -/
theorem shape_of_message {cheap : Nat → Nat → Nat × Nat → Bool} {sec : List UInt8} (hne : sec ≠ [])
    (hlen : sec.length < 2 ^ 32) (hrun : ∀ r ∈ Runs.runsOf sec, r.2 < 2 ^ 30) {c : Codes}
    (hc : messageCodes cheap sec = some c) :
    ∃ bits, treeShape c = some bits ∧ ∀ rest, readShape (bits ++ rest) = some (c, rest) := by
  rw [messageCodes_eq cheap hne hlen] at hc
  have hp : presentSymbols (HuffBlock.freqList (runsOfByte sec)) ≠ [] := by
    cases sec with
    | nil => exact absurd rfl hne
    | cons x l => exact List.ne_nil_of_mem ((mem_present _ x).mpr (runsOfByte_pos.mpr (by simp)))
  have hrd : ∀ p ∈ runDist (runsOfLength sec) sec.length, ∃ r ∈ Runs.runsOf sec, r.2 = p.2 := by
    intro p hp
    obtain ⟨h1, h2, _⟩ := mem_runDist.mp hp
    have : 0 < runsOfLength sec p.2 := by omega
    rw [runsOfLength, List.count_pos_iff] at this
    obtain ⟨r, hr, e⟩ := List.mem_map.mp this
    exact ⟨r, hr, e⟩
  cases hf : findParameters cheap (runDist (runsOfLength sec) sec.length) with
  | none =>
    rw [chooseCodes, hf] at hc
    simp at hc
  | some r =>
    obtain ⟨w, lens⟩ := r
    obtain ⟨c', bits, h1, _, h2, h3, _⟩ := shape_roundtrip (cheap := cheap) (freqList_length _) hp (runDist_nodup _ _)
      (by
        intro p hp
        obtain ⟨r, hr, e⟩ := hrd p hp
        have := (Runs.runsOf_isRuns sec).pos r hr
        omega)
      (by
        intro p hp
        obtain ⟨r, hr, e⟩ := hrd p hp
        have := hrun r hr
        omega) hf
    rw [hc, Option.some.injEq] at h1
    subst h1
    exact ⟨bits, h2, h3⟩

/-- What is needed of the states: both coders keep the models in legal states. -/
structure Fine {σ : Type} (I : σ → Prop) (K J : Fsm Nat → Prop) (st : States σ) : Prop where
  inner : I st.1
  run : K st.2.1
  gap : J st.2.2

theorem resetAll_fine {σ : Type} {P : Model σ} {I : σ → Prop} {K J : Fsm Nat → Prop} (hP : Safe P I)
    (hK : Safe integerModel K) (hJ : Safe gapModel J) {st : States σ} (h : Fine I K J st) :
    ∃ t, resetAll P st = some t ∧ Fine I K J t := by
  obtain ⟨a, a1, a2⟩ := hP.step st.1 .reset h.inner
  obtain ⟨b, b1, b2⟩ := hK.step st.2.1 .reset h.run
  obtain ⟨c, c1, c2⟩ := hJ.step st.2.2 .reset h.gap
  rw [Model.step] at a1 b1 c1
  refine ⟨(a, b, c), ?_, a2, b2, c2⟩
  simp only [resetAll, a1, b1, c1, Option.bind_eq_bind, Option.bind_some, Option.pure_def]

/-- One section: it is encoded, the counted length is the number of bytes, it is decoded again from the same
states, and the states agree afterwards. -/
theorem section_roundtrip {σ : Type} {P : Model σ} {I : σ → Prop} (hP : Safe P I) :
    ∃ K J, Safe integerModel K ∧ Safe gapModel J ∧
    ∀ (cheap : Nat → Nat → Nat × Nat → Bool) (sec : List UInt8), sec ≠ [] → sec.length < 2 ^ 32 →
      (∀ r ∈ Runs.runsOf sec, r.2 < 2 ^ 30) → messageCodes cheap sec ≠ none →
      ∃ N, ∀ fuel fuel', N ≤ fuel → fuel < fuel' → ∀ st, Fine I K J st →
        ∃ w t, encodeSection P cheap fuel st sec = some (w, w.length, t) ∧ Fine I K J t ∧ ∀ rest : List UInt8,
          decodeSection P fuel' st (bytesBits (w ++ rest)) = some (sec, t, bytesBits rest) := by
  obtain ⟨K, J, hK, hJ, hmsg⟩ := C25_message hP
  refine ⟨K, J, hK, hJ, ?_⟩
  intro cheap sec hne hlen hrun hc
  obtain ⟨c, hc⟩ := Option.ne_none_iff_exists'.mp hc
  obtain ⟨h, hm, _⟩ := C24_tree_exists cheap sec hne hlen c hc
  obtain ⟨_, hh⟩ := makeTree_parts hm
  obtain ⟨hg, hk⟩ := messageCodes_good hne hlen hc
  obtain ⟨bits, hb1, hb2⟩ := shape_of_message hne hlen hrun hc
  obtain ⟨root, hr, N, hN⟩ := hmsg cheap sec hne hlen c h hm
  have hrl := root_length hg hne hlen hk hh hr
  have hle := Runs.runsOf_length_le sec
  obtain ⟨p, k, p1, p2, _, _, _, p6, _, p8⟩ := C01_packed_integer_roundtrip root.bits.length (by omega)
  refine ⟨N, ?_⟩
  intro fuel fuel' hf hf' st hst
  obtain ⟨items, u1, u2, u3, F, e1, e2, i1, i2, i3, hdec⟩ := hN fuel fuel' hf hf' st.1 st.2.1 st.2.2 hst.inner hst.run hst.gap
  obtain ⟨t, t1, t2⟩ := resetAll_fine hP hK hJ (st := (u1, u2, u3)) ⟨i1, i2, i3⟩
  refine ⟨writePacked p ++ packBits bits ++ F, t, ?_, t2, ?_⟩
  · simp only [encodeSection, hm, hr, p1, hb1, e1, t1, e2, Option.bind_eq_bind, Option.bind_some, Option.pure_def]
    congr 3
    simp only [List.length_append, p6]
  · intro rest
    obtain ⟨d, d', g, v2, d1, d2, d3, d4, d5⟩ := hdec (bytesBits rest)
    have hreset : resetAll P (u1, v2, u3) = some t := by
      rw [← t1]
      rcases d3 with d3 | d3
      · rw [d3]
      · simp only [resetAll, integer_reset_twice d3]
    obtain ⟨j, hj, ej⟩ := bytesBits_packBits_append bits (F ++ rest)
    have hal : alignIn (List.replicate j false ++ bytesBits (F ++ rest)) = bytesBits (F ++ rest) :=
      HuffBlock.alignIn_replicate hj _
    rw [decodeSection, List.append_assoc, List.append_assoc, bytesBits_append, (p8 _).1]
    simp only [Option.bind_eq_bind, Option.bind_some, p2, ej, hb2, hal]
    rw [bytesBits_append, d1]
    simp only [Option.bind_some, d2, d4, hreset, d5, Option.pure_def]

/-- The slices of the block that the sections cover. -/
def slices : List Nat → List UInt8 → List (List UInt8)
  | [], _ => []
  | n :: ns, data => data.take n :: slices ns (data.drop n)

theorem sections_roundtrip {σ : Type} {P : Model σ} {I : σ → Prop} (hP : Safe P I) :
    ∃ K J, Safe integerModel K ∧ Safe gapModel J ∧
    ∀ (cheap : List UInt8 → Nat → Nat → Nat × Nat → Bool) (ns : List Nat) (data : List UInt8), ns.sum = data.length →
      data.length < 2 ^ 32 → (∀ c, ¬ List.replicate (2 ^ 30) c <:+: data) →
      (∀ sec ∈ slices ns data, sec ≠ [] → messageCodes (cheap sec) sec ≠ none) →
      ∃ N, ∀ fuel fuel', N ≤ fuel → fuel < fuel' → ∀ st, Fine I K J st →
        ∃ w t, encodeSections P cheap fuel ns st data = some (w, w.length, t) ∧ Fine I K J t ∧ ∀ rest : List UInt8,
          decodeSections P fuel' ns st (bytesBits (w ++ rest)) = some (data, t, bytesBits rest) := by
  obtain ⟨K, J, hK, hJ, hsec⟩ := section_roundtrip hP
  refine ⟨K, J, hK, hJ, ?_⟩
  intro cheap ns
  induction ns with
  | nil =>
    intro data hsum _ _ _
    have : data = [] := by simpa using hsum.symm
    subst this
    exact ⟨0, fun _ _ _ _ st hst => ⟨[], st, rfl, hst, fun _ => rfl⟩⟩
  | cons n ns ih =>
    intro data hsum hlen hrun hsearch
    rw [List.sum_cons] at hsum
    by_cases h0 : n = 0
    · subst h0
      obtain ⟨N, hN⟩ := ih data (by omega) hlen hrun (fun sec hs => hsearch sec (by
        rw [slices, List.drop_zero]; exact List.mem_cons_of_mem _ hs))
      refine ⟨N, ?_⟩
      intro fuel fuel' hf hf' st hst
      obtain ⟨w, t, e1, e2, e3⟩ := hN fuel fuel' hf hf' st hst
      refine ⟨w, t, by rw [encodeSections, if_pos rfl, e1], e2, ?_⟩
      intro rest
      rw [decodeSections, if_pos rfl, e3]
    · have ht : (data.take n).length = n := by rw [List.length_take]; omega
      have htn : data.take n ≠ [] := by
        intro hc; rw [hc] at ht; simp at ht; omega
      obtain ⟨N1, h1⟩ := hsec (cheap (data.take n)) (data.take n) htn (by omega)
        (HuffBlock.runs_infix (List.take_prefix n data).isInfix hrun)
        (hsearch _ (by rw [slices]; exact List.mem_cons_self) htn)
      obtain ⟨N2, h2⟩ := ih (data.drop n) (by rw [List.length_drop]; omega) (by rw [List.length_drop]; omega)
        (fun c hc => hrun c (hc.trans (List.drop_suffix n data).isInfix))
        (fun sec hs => hsearch sec (by rw [slices]; exact List.mem_cons_of_mem _ hs))
      refine ⟨max N1 N2, ?_⟩
      intro fuel fuel' hf hf' st hst
      obtain ⟨w1, t1, a1, a2, a3⟩ := h1 fuel fuel' (by omega) hf' st hst
      obtain ⟨w2, t2, b1, b2, b3⟩ := h2 fuel fuel' (by omega) hf' t1 a2
      refine ⟨w1 ++ w2, t2, ?_, b2, ?_⟩
      · rw [encodeSections, if_neg h0, if_pos (by omega), a1]
        simp only [Option.bind_eq_bind, Option.bind_some, b1, Option.pure_def, List.length_append]
      · intro rest
        rw [decodeSections, if_neg h0, List.append_assoc, a3]
        simp only [Option.bind_eq_bind, Option.bind_some]
        rw [b3 rest]
        simp only [Option.bind_some, Option.pure_def, List.take_append_drop]

end Bwtc.WaveBlock
