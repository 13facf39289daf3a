import Verif.MemoryProof
import Verif.Sound

/-!
# The memory of the decompressor

The arrays that the decompressor allocates on the heap and releases again, in order: the block, the runs of the Huffman decoder, the table of the
inverse transform and the counters it is built with.  Not counted: objects of a fixed size, the vector of slices (PrecompressorBlock.cpp:108, see `headerRequests`), the
grammar, the two buffers of the streams, the wavelet tree, the vectors of `Postprocessor::uncompress`.  The list ends where the program ends or where
its behaviour is undefined; an allocation that fails is C72.
-/

set_option autoImplicit false

namespace Bwtc.DecMemory
open Container Memory Varint Grammar PairReplace ProbModels FreqTable

/-! ## Model -/

/-- The runs that `HuffmanDecoder::decodeBlock` allocates (HuffmanCoders.cpp:349-353) once it has read the header of the block (343): `runseq` has a
byte, `runlen` four bytes for every byte of the block.  Nothing is counted for the other coders, nor if the header cannot be read. -/
def coderArrays (letter : UInt8) (s : List Bool) : List Nat :=
  if letter = 72 then
    match Sections.readHeader s with
    | some (_, _, secs, _) => [secs.sum, secs.sum * 4]
    | none => []
  else []

/-- The arrays of the inverse transform of a block of `len` bytes, to which a byte is added (InverseBWT.cpp:47-51): `data`
(MtlSaInverseBWT.cpp:267, computed in 32 bits), then `count`, `rank` and `pairs_count` (55-63), all with entries of four bytes. -/
def inverseArrays (len : Nat) : List Nat :=
  [3 * ((len + 2) % 2 ^ 32 / 2) % 2 ^ 32 * 4, (256 + 1) * 4, (256 + 1) * 4, (256 * 256 + 1) * 4]

/-- The loop over the slices (Decompressor.cpp:75-80), as `decodeSlices`.  The runs are released at the end of `decodeBlock`
(HuffmanCoders.cpp:614-615), the counters at the end of `computeData`, the table at the end of the transform (MtlSaInverseBWT.cpp:361). -/
def sliceLog (C : Coder) (letter junk : UInt8) (fuel cap : Nat) : Nat → List UInt8 → C.σ → List Bool → List Ev
  | 0, _, _, _ => []
  | n + 1, acc, st, s =>
    if s.length < 16 then []
    else (coderArrays letter s).map .take ++
      match C.decode fuel st s with
      | none => []
      | some (d, st, s') =>
        if cap < acc.length + d.size ∨ d.size ≠ d.data.length then []
        else (coderArrays letter s).map .give ++ ((inverseArrays d.size).map .take ++
          match InvBWT.inverseBlock d.data junk d.powers with
          | none => []
          | some (b, _) => (inverseArrays d.size).reverse.map .give ++ sliceLog C letter junk fuel cap n (acc ++ b) st s')

/-- The loop of `decompress` (Decompressor.cpp:66-90), as `decompressBlocks`.  `readBlockHeader` allocates the block as soon as its size is read
(PrecompressorBlock.cpp:37-39, 103-112, `size + 1` in 64 bits), also for the end marker; `delete pb` releases it. -/
def loopLog (C : Coder) (letter junk : UInt8) (fuel : Nat) : Nat → C.σ → List Bool → List Ev
  | 0, _, _ => []
  | f + 1, st, s =>
    match readVar s with
    | none => []
    | some (size, _, _) => .take ((size + 1) % 2 ^ 64) ::
      match readBlockHeader s with
      | none => []
      | some (none, _) => [.give ((size + 1) % 2 ^ 64)]
      | some (some (originalSize, slices, g), s) => sliceLog C letter junk fuel originalSize slices [] st s ++
        match decodeSlices C junk fuel originalSize slices [] st s with
        | none => []
        | some (data, st, s) =>
          match postprocess g data with
          | none => []
          | some _ => .give ((size + 1) % 2 ^ 64) :: loopLog C letter junk fuel f st s

/-- `decompress(1)` (Decompressor.cpp:50-93). -/
def events (junk : UInt8) (fuel : Nat) (file : List UInt8) : List Ev :=
  match readByte (bytesBits file) with
  | none => []
  | some (letter, s) => loopLog (coderOf letter) letter junk fuel (file.length + 1) (coderOf letter).init s

/-- The requests of `readBlockHeader` alone (PrecompressorBlock.cpp:98-112): the block, then the vector of slices (108), whose entries have `B` bytes
(`sizeof(BWTBlock)`).  The product is not bounded here; a request that cannot be granted ends the program. -/
def headerRequests (B : Nat) (s : List Bool) : List Ev :=
  match readVar s with
  | none => []
  | some (size, _, s) => .take ((size + 1) % 2 ^ 64) ::
    if size = 0 then []
    else match readVar s with
      | none => []
      | some (slices, _, _) => [.take (slices * B)]

/-- The requests of all headers that `decompress` reads (Decompressor.cpp:66-90), one list for each header. -/
def headerLog (B : Nat) (C : Coder) (junk : UInt8) (fuel : Nat) : Nat → C.σ → List Bool → List (List Ev)
  | 0, _, _ => []
  | f + 1, st, s => headerRequests B s ::
    match readBlockHeader s with
    | some (some (originalSize, slices, _), s) =>
      match decodeSlices C junk fuel originalSize slices [] st s with
      | some (_, st, s) => headerLog B C junk fuel f st s
      | none => []
    | _ => []

/-- The same for a file. -/
def fileHeaders (B : Nat) (junk : UInt8) (fuel : Nat) (file : List UInt8) : List (List Ev) :=
  match readByte (bytesBits file) with
  | none => []
  | some (letter, s) => headerLog B (coderOf letter) junk fuel (file.length + 1) (coderOf letter).init s

/-! ## Lemmas -/

/-- Every slice that is restored has a byte, and all of them fit into the block. -/
theorem decodeSlices_count {C : Coder} {junk : UInt8} {fuel cap : Nat} : ∀ (n : Nat) (acc : List UInt8) (st : C.σ) (s : List Bool) (r : List UInt8 × C.σ × List Bool),
    acc.length ≤ cap → decodeSlices C junk fuel cap n acc st s = some r → acc.length + n ≤ r.1.length ∧ r.1.length ≤ cap := by
  intro n
  induction n with
  | zero =>
    intro acc st s r ha h
    simp only [decodeSlices, Option.some.injEq] at h
    subst h
    exact ⟨Nat.le_refl _, ha⟩
  | succ n ih =>
    intro acc st s r ha h
    rw [decodeSlices] at h
    by_cases h0 : s.length < 16
    · rw [if_pos h0] at h; cases h
    rw [if_neg h0] at h
    simp only [Option.bind_eq_bind, Option.bind_eq_some_iff] at h
    obtain ⟨⟨d, st', s'⟩, _, h⟩ := h
    simp only at h
    split at h
    · cases h
    rename_i hc
    simp only [Option.bind_eq_some_iff] at h
    obtain ⟨⟨b, z⟩, h2, h3⟩ := h
    simp only at h3
    have hb : b.length = d.data.length ∧ 1 ≤ d.data.length := by
      rw [InvBWT.inverseBlock] at h2
      simp only [Option.bind_eq_bind, Option.bind_eq_some_iff, Option.pure_def, Option.some.injEq, Prod.mk.injEq] at h2
      obtain ⟨_, _, x, _, q, h4, z', h5, rfl, _⟩ := h2
      obtain ⟨h6, -⟩ := List.getElem?_eq_some_iff.mp h5
      rw [InvBWT.inverse] at h4
      split at h4
      · cases h4
      · rename_i h7
        rw [List.length_append, List.length_singleton] at h7
        rw [List.length_take]
        omega
    obtain ⟨i1, i2⟩ := ih _ _ _ _ (by rw [List.length_append]; omega) h3
    rw [List.length_append] at i1
    omega

/-- The events of a slice of `d` bytes. -/
def sliceEvs (letter : UInt8) (d : Nat) : List Ev :=
  ((if letter = 72 then [d, d * 4] else []).map .take ++ (if letter = 72 then [d, d * 4] else []).map .give) ++
    ((inverseArrays d).map .take ++ (inverseArrays d).reverse.map .give)

/-- The events of a block: its size and the sizes of its slices. -/
def blockEvs (letter : UInt8) (p : Nat × List Nat) : List Ev :=
  .take ((p.1 + 1) % 2 ^ 64) :: (p.2.flatMap (sliceEvs letter) ++ [.give ((p.1 + 1) % 2 ^ 64)])

/-- What the coder allocates belongs to the block it returns. -/
def Fits (C : Coder) (letter : UInt8) : Prop := ∀ fuel st s d st' s', C.decode fuel st s = some (d, st', s') →
  coderArrays letter s = if letter = 72 then [d.size, d.size * 4] else []

theorem fits (letter : UInt8) : Fits (coderOf letter) letter := by
  intro fuel st s d st' s' h
  rw [coderArrays]
  by_cases hl : letter = 72
  · subst hl
    rw [if_pos rfl, if_pos rfl]
    have h' : ∃ r, HuffBlock.decodeBlock s = some r ∧ r.1 = d := by
      have h : (HuffBlock.decodeBlock s).map (fun r => (r.1, (), r.2)) = some (d, st', s') := h
      cases hd : HuffBlock.decodeBlock s with
      | none => rw [hd] at h; cases h
      | some r =>
        rw [hd] at h
        exact ⟨r, rfl, congrArg Prod.fst (Option.some.inj h)⟩
    obtain ⟨⟨d', s1⟩, hb, rfl⟩ := h'
    rw [HuffBlock.decodeBlock] at hb
    simp only [Option.bind_eq_bind, Option.bind_eq_some_iff] at hb
    obtain ⟨⟨l, ps, secs, s2⟩, h1, ⟨data, s3⟩, _, h3⟩ := hb
    simp only [Option.pure_def, Option.some.injEq, Prod.mk.injEq] at h3
    obtain ⟨rfl, -⟩ := h3
    rw [h1]
  · rw [if_neg hl, if_neg hl]

theorem inverseBlock_length {data : List UInt8} {next : UInt8} {lf : List Nat} {b : List UInt8} {z : UInt8}
    (h : InvBWT.inverseBlock data next lf = some (b, z)) : b.length = data.length := by
  rw [InvBWT.inverseBlock] at h
  simp only [Option.bind_eq_bind, Option.bind_eq_some_iff] at h
  obtain ⟨_, _, _, _, r, _, z', h4, h5⟩ := h
  simp only [Option.pure_def, Option.some.injEq, Prod.mk.injEq] at h5
  obtain ⟨rfl, -⟩ := h5
  obtain ⟨h6, -⟩ := List.getElem?_eq_some_iff.mp h4
  rw [List.length_take]
  omega

theorem sliceLog_ok {C : Coder} {letter : UInt8} (hC : Fits C letter) (junk : UInt8) (fuel cap : Nat) :
    ∀ (n : Nat) (acc : List UInt8) (st : C.σ) (s : List Bool) (r : List UInt8) (t : C.σ) (s' : List Bool),
      decodeSlices C junk fuel cap n acc st s = some (r, t, s') → ∃ ds : List Nat,
        sliceLog C letter junk fuel cap n acc st s = ds.flatMap (sliceEvs letter) ∧ ds.length = n ∧ (∀ d ∈ ds, d ≤ cap) ∧
        acc.length + ds.sum = r.length := by
  intro n
  induction n with
  | zero =>
    intro acc st s r t s' h
    simp only [decodeSlices, Option.some.injEq, Prod.mk.injEq] at h
    exact ⟨[], rfl, rfl, by simp, by simp [h.1]⟩
  | succ n ih =>
    intro acc st s r t s' h
    rw [decodeSlices] at h
    by_cases h0 : s.length < 16
    · rw [if_pos h0] at h; cases h
    rw [if_neg h0] at h
    simp only [Option.bind_eq_bind, Option.bind_eq_some_iff] at h
    obtain ⟨⟨d, st1, s1⟩, h1, h⟩ := h
    simp only [] at h
    by_cases h2 : cap < acc.length + d.size ∨ d.size ≠ d.data.length
    · rw [if_pos h2] at h; cases h
    rw [if_neg h2] at h
    simp only [Option.bind_eq_some_iff] at h
    obtain ⟨⟨b, z⟩, h3, h⟩ := h
    obtain ⟨ds, i1, i2, i3, i4⟩ := ih _ _ _ _ _ _ h
    have hl := inverseBlock_length h3
    refine ⟨d.size :: ds, ?_, by simp [i2], ?_, ?_⟩
    · rw [sliceLog, if_neg h0, h1]
      simp only []
      rw [if_neg h2, h3]
      simp only []
      rw [i1, hC _ _ _ _ _ _ h1, List.flatMap_cons, sliceEvs]
      simp only [List.append_assoc]
    · intro x hx
      rcases List.mem_cons.mp hx with rfl | hx
      · omega
      · exact i3 x hx
    · rw [List.sum_cons]
      simp only [List.length_append] at i4
      omega

theorem header_some {s s' : List Bool} {n k : Nat} {g : G} (h : readBlockHeader s = some (some (n, k, g), s')) :
    n ≠ 0 ∧ ∃ b r, readVar s = some (n, b, r) := by
  rw [readBlockHeader] at h
  simp only [Option.bind_eq_bind, Option.bind_eq_some_iff] at h
  obtain ⟨⟨n', b, r⟩, h1, h⟩ := h
  simp only [] at h
  by_cases h0 : n' = 0
  · rw [if_pos h0] at h
    simp at h
  · rw [if_neg h0] at h
    simp only [Option.bind_eq_some_iff] at h
    obtain ⟨_, _, _, _, h⟩ := h
    simp only [Option.pure_def, Option.some.injEq, Prod.mk.injEq] at h
    obtain ⟨⟨rfl, -⟩, -⟩ := h
    exact ⟨h0, b, r, h1⟩

theorem header_end {s s' : List Bool} (h : readBlockHeader s = some (none, s')) : ∃ b r, readVar s = some (0, b, r) := by
  rw [readBlockHeader] at h
  simp only [Option.bind_eq_bind, Option.bind_eq_some_iff] at h
  obtain ⟨⟨n', b, r⟩, h1, h⟩ := h
  simp only [] at h
  by_cases h0 : n' = 0
  · subst h0
    exact ⟨b, r, h1⟩
  · rw [if_neg h0] at h
    simp only [Option.bind_eq_some_iff] at h
    obtain ⟨_, _, _, _, h⟩ := h
    simp at h

/-- One block that is read. -/
theorem loopLog_block {C : Coder} {letter : UInt8} {junk : UInt8} {fuel f : Nat} {st t : C.σ} {s s1 s2 : List Bool} {n k : Nat}
    {g : G} {data out : List UInt8} {ds : List Nat} (h1 : readBlockHeader s = some (some (n, k, g), s1))
    (h2 : decodeSlices C junk fuel n k [] st s1 = some (data, t, s2))
    (h5 : sliceLog C letter junk fuel n k [] st s1 = ds.flatMap (sliceEvs letter)) (h3 : postprocess g data = some out) :
    loopLog C letter junk fuel (f + 1) st s = blockEvs letter (n, ds) ++ loopLog C letter junk fuel f t s2 := by
  obtain ⟨_, b, r, h4⟩ := header_some h1
  rw [loopLog, h4]
  simp only []
  rw [h1]
  simp only []
  rw [h2]
  simp only []
  rw [h3, h5, blockEvs]
  simp

/-- A file that is decompressed: blocks, and the end marker. -/
theorem loopLog_ok {C : Coder} {letter : UInt8} (hC : Fits C letter) (junk : UInt8) (fuel : Nat) :
    ∀ (f : Nat) (st : C.σ) (s : List Bool) (out : List UInt8), decompressBlocks C junk fuel f st s = some out →
      ∃ bl : List (Nat × List Nat), loopLog C letter junk fuel f st s = bl.flatMap (blockEvs letter) ++ [.take 1, .give 1] ∧
        ∀ p ∈ bl, ∀ d ∈ p.2, d ≤ p.1 := by
  intro f
  induction f with
  | zero => intro st s out h; cases h
  | succ f ih =>
    intro st s out h
    rw [decompressBlocks] at h
    simp only [Option.bind_eq_bind, Option.bind_eq_some_iff] at h
    obtain ⟨⟨h0, s1⟩, h1, h⟩ := h
    cases h0 with
    | none =>
      obtain ⟨b, r, h2⟩ := header_end h1
      refine ⟨[], ?_, by simp⟩
      rw [loopLog, h2]
      simp only []
      rw [h1]
      rfl
    | some p =>
      obtain ⟨n, k, g⟩ := p
      simp only [Option.bind_eq_some_iff] at h
      obtain ⟨⟨data, t, s2⟩, h2, o', h3, r, h4, _⟩ := h
      obtain ⟨bl, i1, i2⟩ := ih _ _ _ h4
      obtain ⟨ds, j0, _, j3, _⟩ := sliceLog_ok hC _ _ _ _ _ _ _ _ _ _ h2
      have j1 := loopLog_block (f := f) h1 h2 j0 h3
      refine ⟨(n, ds) :: bl, by rw [j1, i1, List.flatMap_cons, List.append_assoc], ?_⟩
      intro p hp
      rcases List.mem_cons.mp hp with rfl | hp
      · exact j3
      · exact i2 p hp

theorem sliceEvs_within {b : Int} (letter : UInt8) (d : Nat) (h : 6 * (d : Int) + 264216 ≤ b) :
    AtMost b (sliceEvs letter d) ∧ held (sliceEvs letter d) = 0 := by
  have hx : 3 * ((d + 2) % 2 ^ 32 / 2) % 2 ^ 32 ≤ 3 * ((d + 2) / 2) :=
    Nat.le_trans (Nat.mod_le _ _) (Nat.mul_le_mul_left _ (Nat.div_le_div_right (Nat.mod_le _ _)))
  rw [sliceEvs, inverseArrays]
  generalize 3 * ((d + 2) % 2 ^ 32 / 2) % 2 ^ 32 = x at *
  have hx : 4 * x ≤ 6 * d + 12 := by omega
  constructor
  · split
    · simp only [List.map_cons, List.map_nil, List.cons_append, List.nil_append, List.reverse_cons, List.reverse_nil, AtMost]
      omega
    · simp only [List.map_cons, List.map_nil, List.cons_append, List.nil_append, List.reverse_cons, List.reverse_nil, AtMost]
      omega
  · split
    · simp only [List.map_cons, List.map_nil, List.cons_append, List.nil_append, List.reverse_cons, List.reverse_nil, held]
      omega
    · simp only [List.map_cons, List.map_nil, List.cons_append, List.nil_append, List.reverse_cons, List.reverse_nil, held]
      omega

theorem flatMap_within {α : Type} {b : Int} (ev : α → List Ev) (l : List α) (h0 : 0 ≤ b)
    (h : ∀ x ∈ l, AtMost b (ev x) ∧ held (ev x) = 0) : AtMost b (l.flatMap ev) ∧ held (l.flatMap ev) = 0 := by
  induction l with
  | nil => exact ⟨h0, rfl⟩
  | cons x l ih =>
    obtain ⟨i1, i2⟩ := ih fun y hy => h y (List.mem_cons_of_mem _ hy)
    obtain ⟨h1, h2⟩ := h x List.mem_cons_self
    rw [List.flatMap_cons]
    exact ⟨atMost_append h1 (by rw [h2, Int.sub_zero]; exact i1), by rw [held_append, h2, i2]; rfl⟩

theorem blockEvs_within {b : Int} (letter : UInt8) (p : Nat × List Nat) (hp : ∀ d ∈ p.2, (p.1 : Int) + 6 * d + 264217 ≤ b)
    (h : (p.1 : Int) + 1 ≤ b) : AtMost b (blockEvs letter p) ∧ held (blockEvs letter p) = 0 := by
  have hx : (p.1 + 1) % 2 ^ 64 ≤ p.1 + 1 := Nat.mod_le _ _
  rw [blockEvs]
  generalize (p.1 + 1) % 2 ^ 64 = x at *
  obtain ⟨i1, i2⟩ := flatMap_within (b := b - x) (sliceEvs letter) p.2 (by omega) (fun d hd => sliceEvs_within letter d (by
    have := hp d hd
    omega))
  refine ⟨⟨by omega, atMost_append i1 ?_⟩, ?_⟩
  · rw [i2]
    simp only [AtMost]
    omega
  · simp only [held, held_append, i2]
    omega

theorem blocks_within {b : Int} (letter : UInt8) (bl : List (Nat × List Nat)) (hb : 1 ≤ b)
    (h : ∀ p ∈ bl, (p.1 : Int) + 1 ≤ b ∧ ∀ d ∈ p.2, (p.1 : Int) + 6 * d + 264217 ≤ b) :
    AtMost b (bl.flatMap (blockEvs letter) ++ [.take 1, .give 1]) ∧ held (bl.flatMap (blockEvs letter) ++ [.take 1, .give 1]) = 0 := by
  obtain ⟨i1, i2⟩ := flatMap_within (b := b) (blockEvs letter) bl (by omega) fun p hp => blockEvs_within letter p (h p hp).2 (h p hp).1
  refine ⟨atMost_append i1 ?_, by rw [held_append, i2]; rfl⟩
  rw [i2]
  simp only [AtMost]
  omega

/-- The log of the slices that the compressor writes, as `slices_sound`. -/
theorem slices_log {C : Coder} {letter : UInt8} (hF : Fits C letter) {cheap : List UInt8 → Nat → Nat → Nat × Nat → Bool} {R : C.σ → Prop}
    {ok : List Nat → List UInt8 → Prop} (hC : C.Sound cheap R ok) (starts fuel : Nat) : ∀ sl : List (List UInt8),
      (∀ s ∈ sl, s ≠ [] ∧ s.length < 2 ^ 31 - 1 ∧ SliceOK starts ok s) →
      ∀ (pre : List UInt8) (next : UInt8) (post : List UInt8)
      (st t : C.σ) (w : List UInt8) (n : Nat), R st →
      encodeSlices C cheap fuel starts (sl.map List.length) (pre ++ sl.flatten ++ next :: post) pre.length st = some (w, n, t) →
      ∃ N, ∀ fuel', N ≤ fuel' → ∀ junk cap acc, acc.length + sl.flatten.length ≤ cap →
        ∀ rest : List UInt8, sliceLog C letter junk fuel' cap sl.length acc st (bytesBits (w ++ rest)) =
          (sl.map List.length).flatMap (sliceEvs letter) := by
  intro sl
  induction sl with
  | nil =>
    intro _ pre next post st t w n hst he
    exact ⟨0, fun _ _ _ _ acc _ rest => rfl⟩
  | cons s sl ih =>
    intro h pre next post st t w n hst he
    obtain ⟨hne, hlen, hok⟩ := h s (by simp)
    obtain ⟨s', lf, freqs, h1, h2, h3, h4, h5, h6, h7⟩ := FwdBWT.transform_spec s starts
      (List.replicate 256 0) hne (by rw [List.length_replicate])
    obtain ⟨_, p2, _⟩ := FwdBWT.prepare_length s.length starts
    have hl' : s'.length = s.length := h2.length_eq
    have hsum : freqs.sum = s'.length := by
      rw [h6.2.2, List.sum_replicate_nat, List.length_reverse]
      omega
    have hfl : freqs.length = 256 := by rw [h6.1, List.length_replicate]
    obtain ⟨n', post', hn'⟩ : ∃ n' post', sl.flatten ++ next :: post = n' :: post' := by
      cases hf : sl.flatten with
      | nil => exact ⟨next, post, rfl⟩
      | cons x l => exact ⟨x, l ++ next :: post, rfl⟩
    have hmem : pre ++ (s :: sl).flatten ++ next :: post = pre ++ s ++ n' :: post' := by
      rw [← hn']; simp
    have hmem' : pre ++ s' ++ n' :: post' = (pre ++ s') ++ sl.flatten ++ next :: post := by
      rw [← hn']; simp
    have htake : ((pre ++ s' ++ n' :: post').drop pre.length).take s.length = s' := by
      rw [List.append_assoc, List.drop_left, ← hl', List.take_left]
    rw [List.map_cons, encodeSlices, hmem, h1 pre n' post'] at he
    simp only [Option.bind_eq_bind, Option.bind_some, htake, Option.bind_eq_some_iff] at he
    obtain ⟨⟨a, x, t1⟩, e1, ⟨b, y, t2⟩, e2, he⟩ := he
    simp only [Option.pure_def, Option.some.injEq, Prod.mk.injEq] at he
    obtain ⟨rfl, rfl, rfl⟩ := he
    obtain ⟨a1, a2, a3, N1, a4⟩ := hC.block lf freqs s' h4.1 (by omega) (fun p hp => by have := h5 p hp; omega)
      (by omega) hsum (by
        intro hc
        rw [hc] at hl'
        exact hne (List.length_eq_zero_iff.mp hl'.symm)) (by omega)
      (hok s' lf freqs (h1 [] 0 [])) fuel st t1 a x hst e1
    simp only [] at e2
    rw [hmem', show pre.length + s.length = (pre ++ s').length by rw [List.length_append, hl']] at e2
    obtain ⟨N2, b3⟩ := ih (fun x hx => h x (by simp [hx])) (pre ++ s') next post t1 t2 b y a2 e2
    refine ⟨max N1 N2, ?_⟩
    intro fuel' hf' junk cap acc hcap rest
    rw [List.flatten_cons, List.length_append] at hcap
    obtain ⟨z, hz⟩ := h7 junk
    have hdec := a4 fuel' (by omega) (b ++ rest)
    rw [List.length_cons, sliceLog, List.append_assoc, if_neg (by
      rw [bytesBits_append, List.length_append]; omega), hF _ _ _ _ _ _ hdec, hdec]
    simp only []
    rw [if_neg (show ¬ (cap < acc.length + s'.length ∨ s'.length ≠ s'.length) by omega), hz]
    simp only []
    rw [b3 fuel' (by omega) junk cap (acc ++ s) (by rw [List.length_append]; omega) rest, List.map_cons, List.flatMap_cons, sliceEvs, hl']
    simp only [List.append_assoc]

/-- The size of a block, and of its slices. -/
def _root_.Bwtc.Container.Block.sizes (b : Block) : Nat × List Nat := (b.data.length, b.slices.map List.length)

/-- The log of the blocks that the compressor writes, as `blocks_read`. -/
theorem blocks_log {C : Coder} {letter : UInt8} (hF : Fits C letter) {o : Options} {e : Env} {R : C.σ → Prop} {ok : List Nat → List UInt8 → Prop}
    (hC : C.Sound e.cheap R ok) (fuel : Nat) : ∀ (f bwt : Nat) (input : List UInt8) (bs : List Block), bwt ≤ maxBlock →
      input.length < 2 ^ 56 → planFrom o e f bwt input = some bs →
      (∀ b ∈ bs, BlockOK (clampStarts o.starts) ok b) → ∀ (st : C.σ) (w : List UInt8) (n : Nat), R st →
      compressBlocks C o e fuel f bwt st input = some (w, n) →
        ∃ t N, ∀ fuel', N ≤ fuel' → ∀ junk f' (rest : List UInt8),
          loopLog C letter junk fuel' (f' + bs.length) st (bytesBits (w ++ rest)) =
            (bs.map Block.sizes).flatMap (blockEvs letter) ++ loopLog C letter junk fuel' f' t (bytesBits rest) := by
  intro f
  induction f with
  | zero => intro _ _ _ _ _ h; simp [planFrom] at h
  | succ f ih =>
    intro bwt input bs hbwt hin h hok st w n hst he
    rw [planFrom] at h
    rw [compressBlocks] at he
    by_cases h0 : (input.take (pbBlock o)).length = 0
    · rw [if_pos h0] at h he
      simp only [Option.some.injEq, Prod.mk.injEq] at h he
      subst h
      obtain ⟨rfl, rfl⟩ := he
      refine ⟨st, 0, ?_⟩
      intro fuel' _ junk f' rest
      simp
    · rw [if_neg h0] at h he
      simp only [Option.bind_eq_bind, Option.bind_eq_some_iff] at h
      obtain ⟨⟨b, bwt'⟩, h1, bs', h2, h3⟩ := h
      simp only [Option.pure_def, Option.some.injEq] at h3 h2
      subst h3
      obtain ⟨g1, g2, _, g4, _, _, g7⟩ := frontBlock_facts hbwt h1
      have hb := hok b (by simp)
      have hin' : (input.take (pbBlock o)).length ≤ input.length := by rw [List.length_take]; omega
      have hmx := maxBlock_lt
      have hfits := hb.fits
      have hsl := length_le_flatten b.slices fun s hs => (g7 s hs).1
      rw [g4] at hsl
      have hbl : b.data.length = (input.take (pbBlock o)).length := by rw [g2]
      obtain ⟨hd, hd1, hd2, hd3⟩ := header_roundtrip (n := b.data.length) (k := b.slices.length) (by omega) (by omega)
        (by omega) hb.restores
      rw [h1] at he
      simp only [Option.bind_eq_bind, Option.bind_some, hd1, Option.bind_eq_some_iff] at he
      obtain ⟨⟨v, y, t⟩, e1, ⟨r, z⟩, e2, he⟩ := he
      simp only [Option.pure_def, Option.some.injEq, Prod.mk.injEq] at he
      obtain ⟨rfl, rfl⟩ := he
      have e1 : encodeSlices C e.cheap fuel (clampStarts o.starts) (b.slices.map List.length)
          ([] ++ b.slices.flatten ++ e.junk :: []) ([] : List UInt8).length st = some (v, y, t) := by
        rw [List.nil_append, g4]
        exact e1
      obtain ⟨a1, a2, N1, a3⟩ := slices_sound hC (clampStarts o.starts) fuel b.slices (fun s hs =>
        ⟨(g7 s hs).1, by have := (g7 s hs).2; omega, hb.slices s hs⟩) _ _ _ _ _ _ _ hst e1
      obtain ⟨N3, a5⟩ := slices_log hF hC (clampStarts o.starts) fuel b.slices (fun s hs =>
        ⟨(g7 s hs).1, by have := (g7 s hs).2; omega, hb.slices s hs⟩) _ _ _ _ _ _ _ hst e1
      simp only [] at e2
      obtain ⟨t', N2, b3⟩ := ih bwt' (input.drop (pbBlock o)) bs' g1 (by rw [List.length_drop]; omega) h2
        (fun x hx => hok x (by simp [hx])) t r z a2 e2
      refine ⟨t', max N1 (max N2 N3), ?_⟩
      intro fuel' hf junk f' rest
      obtain ⟨g', q1, q2⟩ := hd3 (v ++ (r ++ rest))
      have h5 := a3 fuel' (by omega) junk b.data.length [] (by rw [g4, List.length_nil]; omega) (r ++ rest)
      have h6 := a5 fuel' (by omega) junk b.data.length [] (by rw [g4, List.length_nil]; omega) (r ++ rest)
      rw [List.nil_append, g4] at h5
      rw [List.length_cons, ← Nat.add_assoc, List.append_assoc, List.append_assoc, loopLog_block (f := f' + bs'.length) q1 h5 h6 q2,
        b3 fuel' (by omega) junk f' rest, List.map_cons, List.flatMap_cons, List.append_assoc, Block.sizes]

end Bwtc.DecMemory
