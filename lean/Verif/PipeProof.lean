import Verif.Pipe

/-!
# What arrives through a pipe
-/

set_option autoImplicit false

namespace Bwtc.Pipe
open Streams (OutOp bytes48 bytes48_spec)

/-- What the reader will get if nothing else is written. -/
def St.all (st : St) : List UInt8 := st.sent ++ st.buf

theorem flush_all (st : St) : (flush st).all = st.all ∧ (flush st).buf = [] := by
  unfold flush send St.all
  split
  · simp
  · rename_i h
    have : st.buf = [] := List.length_eq_zero_iff.mp (by omega)
    simp [this]

theorem send_fold (bs : List UInt8) (st : St) : bs.foldl (fun st b => send [b] st) st = { st with sent := st.sent ++ bs } := by
  induction bs generalizing st with
  | nil => simp
  | cons b bs ih => rw [List.foldl_cons, ih]; simp [send]

theorem step_all {K : Nat} {st : St} (h : st.buf.length < K) (op : OutOp) : ∃ o st', step K st op = some (o, st') ∧
    st'.all = st.all ++ adds op ∧ st'.buf.length < K ∧ (op = .getPos → o = [-1]) ∧ (op ≠ .getPos → o = []) := by
  cases op with
  | byte b =>
    simp only [step, writeByte, h, if_true]
    by_cases h1 : (st.buf ++ [b]).length = K
    · exact ⟨[], ⟨st.sent ++ (st.buf ++ [b]), []⟩, by simp only [h1, if_true]; rfl, by simp [St.all, adds], by simp only [List.length_nil]; omega, by simp, by simp⟩
    · refine ⟨[], ⟨st.sent, st.buf ++ [b]⟩, by simp only [h1, if_false]; rfl, by simp [St.all, adds], ?_, by simp, by simp⟩
      simp only [List.length_append, List.length_singleton] at h1 ⊢
      omega
  | block d =>
    refine ⟨[], writeBlock K d st, rfl, ?_, ?_, by simp, by simp⟩
    · unfold writeBlock
      split
      · simp [St.all, adds]
      · obtain ⟨f1, f2⟩ := flush_all st
        simp only [St.all] at f1
        simp [St.all, send, f2, adds] at f1 ⊢
        rw [← List.append_assoc, f1]
    · unfold writeBlock
      split
      · rename_i h1
        simpa using h1
      · rw [send, (flush_all st).2]
        simp only [List.length_nil]
        omega
  | flush => exact ⟨[], flush st, rfl, by simp [(flush_all st).1, adds], by rw [(flush_all st).2]; simp only [List.length_nil]; omega, by simp, by simp⟩
  | getPos => exact ⟨[-1], flush st, rfl, by simp [(flush_all st).1, adds], by rw [(flush_all st).2]; simp only [List.length_nil]; omega, by simp, by simp⟩
  | put48 v p =>
    refine ⟨[], write48 v st, rfl, ?_, ?_, by simp, by simp⟩
    · obtain ⟨f1, f2⟩ := flush_all st
      rw [write48, send_fold]
      simp only [St.all, f2, List.append_nil, adds, bytes48_spec] at f1 ⊢
      rw [f1]
    · rw [write48, send_fold, (flush_all st).2]
      simp only [List.length_nil]
      omega

theorem run_all {K : Nat} (ops : List OutOp) {st : St} (h : st.buf.length < K) : ∃ os st', run K st ops = some (os, st') ∧
    st'.all = st.all ++ (ops.map adds).flatten ∧ st'.buf.length < K := by
  induction ops generalizing st with
  | nil => exact ⟨[], st, rfl, by simp, h⟩
  | cons op ops ih =>
    obtain ⟨o, s1, a1, a2, a3, _⟩ := step_all h op
    obtain ⟨os, s2, b1, b2, b3⟩ := ih a3
    refine ⟨o ++ os, s2, ?_, ?_, b3⟩
    · rw [run, a1]
      simp only [Option.bind_eq_bind, Option.bind_some, b1]
      rfl
    · rw [b2, a2]; simp

theorem close_all (st : St) : close st = st.all := by
  unfold close
  split
  · have := flush_all st
    rw [← this.1, St.all, this.2, List.append_nil]
  · rename_i h
    have : st.buf = [] := List.length_eq_zero_iff.mp (by omega)
    simp [St.all, this]

end Bwtc.Pipe

namespace Bwtc.Container
open Varint Grammar PairReplace ProbModels FreqTable

/-- The coder with the length field behind the block. -/
abbrev Coder.toPipe (C : Coder) : Coder where
  σ := C.σ
  init := C.init
  encode cheap fuel st powers stats data := (C.encode cheap fuel st powers stats data).map fun r =>
    (List.replicate 6 0 ++ r.1.drop 6 ++ r.1.take 6, r.2)
  decode := C.decode

theorem field_length (v : Nat) : (packBits (bitsOf 48 v)).length = 6 := by
  rw [Streams.bytes48_spec, Streams.bytes48_length]

theorem toPipe_huffman : huffman.toPipe = huffmanOnPipe := by
  unfold Coder.toPipe huffmanOnPipe
  congr 1
  funext cheap fuel st powers stats data
  simp only [huffman, HuffBlock.encodeBlock, huffmanPiped, Option.bind_eq_bind]
  cases h1 : Sections.writeHeader powers stats with
  | none => rfl
  | some p =>
    simp only [Option.bind_some]
    cases h2 : HuffBlock.encodeSections (Sections.sections stats) data with
    | none => rfl
    | some q =>
      simp only [Option.bind_some, Option.pure_def, Option.map_some, List.append_assoc]
      rw [List.drop_left' (field_length _), List.take_left' (field_length _)]
      simp only [List.append_assoc]

theorem toPipe_wavelet {σ : Type} (P : Model σ) : (wavelet P).toPipe = waveletOnPipe P := by
  unfold Coder.toPipe waveletOnPipe
  congr 1
  funext cheap fuel st powers stats data
  simp only [wavelet, WaveBlock.encodeBlock, waveletPiped, Option.bind_eq_bind]
  cases h1 : Sections.writeHeader powers stats with
  | none => rfl
  | some p =>
    simp only [Option.bind_some]
    cases h2 : WaveBlock.encodeSections P cheap fuel (Sections.sections stats) st data with
    | none => rfl
    | some q =>
      simp only [Option.bind_some, Option.pure_def, Option.map_some, List.append_assoc]
      rw [List.drop_left' (field_length _), List.take_left' (field_length _)]
      simp only [List.append_assoc]

theorem pipedOf_eq (letter : UInt8) : pipedOf letter = (coderOf letter).toPipe := by
  unfold pipedOf coderOf
  repeat' split
  all_goals first | exact toPipe_huffman.symm | exact (toPipe_wavelet _).symm

/-- The encoder puts the length of the block first, and the decoder does not look at it. -/
structure Coder.Field (C : Coder) : Prop where
  first : ∀ cheap fuel st powers stats data w n t, C.encode cheap fuel st powers stats data = some (w, n, t) →
    ∃ v tail, w = packBits (bitsOf 48 v) ++ tail ∧ n = v + 6
  blind : ∀ fuel st (x y rest : List UInt8), x.length = 6 → y.length = 6 →
    C.decode fuel st (bytesBits (x ++ rest)) = C.decode fuel st (bytesBits (y ++ rest))

theorem readHeader_blind {x y rest : List UInt8} (hx : x.length = 6) (hy : y.length = 6) :
    (Sections.readHeader (bytesBits (x ++ rest))).map (·.2) = (Sections.readHeader (bytesBits (y ++ rest))).map (·.2) := by
  have hb : ∀ z : List UInt8, z.length = 6 → (bytesBits z).length = 48 := by intro z hz; rw [bytesBits_length, hz]
  have gen : ∀ z : List UInt8, z.length = 6 → readBits 48 (bytesBits (z ++ rest)) = some (bytesBits z, bytesBits rest) := by
    intro z hz
    rw [bytesBits_append, ← hb z hz, readBits_append]
  unfold Sections.readHeader
  rw [gen x hx, gen y hy]
  simp only [Option.bind_eq_bind, Option.bind_some]
  cases BlockHeader.readHeader (bytesBits rest) with
  | none => rfl
  | some p =>
    simp only [Option.bind_some]
    cases Sections.readSections p.2 with
    | none => rfl
    | some q => rfl

theorem bind_blind {α β : Type} {a b : Option (Nat × α)} (h : a.map (·.2) = b.map (·.2)) (f : α → Option β) :
    (a.bind fun r => f r.2) = b.bind fun r => f r.2 := by
  cases a <;> cases b <;> simp_all

theorem huffman_field : huffman.Field := by
  constructor
  · intro cheap fuel st powers stats data w n t h
    simp only [huffman, HuffBlock.encodeBlock, Option.bind_eq_bind, Option.map_eq_some_iff, Option.bind_eq_some_iff] at h
    obtain ⟨r, ⟨p, h1, q, h2, h3⟩, h4⟩ := h
    simp only [Option.pure_def, Option.some.injEq, Prod.mk.injEq] at h3 h4
    subst h3
    obtain ⟨rfl, rfl, _⟩ := h4
    exact ⟨p.2 + q.2, p.1 ++ q.1, by simp, rfl⟩
  · intro fuel st x y rest hx hy
    simp only [huffman, HuffBlock.decodeBlock, Option.bind_eq_bind]
    exact congrArg _ (bind_blind (readHeader_blind hx hy) fun r =>
      (HuffBlock.decodeSections r.2.1.sum r.2.1 r.2.2).bind fun q => pure (HuffBlock.Decoded.mk r.1 q.1 r.2.1.sum, q.2))

theorem wavelet_field {σ : Type} (P : Model σ) : (wavelet P).Field := by
  constructor
  · intro cheap fuel st powers stats data w n t h
    simp only [wavelet, WaveBlock.encodeBlock, Option.bind_eq_bind, Option.bind_eq_some_iff] at h
    obtain ⟨p, h1, q, h2, h3⟩ := h
    simp only [Option.pure_def, Option.some.injEq, Prod.mk.injEq] at h3
    obtain ⟨rfl, rfl, _⟩ := h3
    exact ⟨p.2 + q.2.1, p.1 ++ q.1, by simp, rfl⟩
  · intro fuel st x y rest hx hy
    simp only [wavelet, WaveBlock.decodeBlock, Option.bind_eq_bind]
    exact bind_blind (readHeader_blind hx hy) fun r =>
      (WaveBlock.decodeSections P fuel r.2.1 st r.2.2).bind fun q => pure (HuffBlock.Decoded.mk r.1 q.1 q.1.length, q.2.1, q.2.2)

theorem coder_field (letter : UInt8) : (coderOf letter).Field := by
  unfold coderOf
  repeat' split
  all_goals first | exact huffman_field | exact wavelet_field _

theorem encodeSlices_cons (C : Coder) (cheap : List UInt8 → Nat → Nat → Nat × Nat → Bool) (fuel starts len : Nat) (lens : List Nat)
    (mem : List UInt8) (pos : Nat) (st : C.σ) : encodeSlices C cheap fuel starts (len :: lens) mem pos st =
      (FwdBWT.transform mem pos len starts (List.replicate 256 0)).bind fun p =>
        (C.encode cheap fuel st p.2.1 p.2.2 ((p.1.drop pos).take len)).bind fun q =>
          (encodeSlices C cheap fuel starts lens p.1 (pos + len) q.2.2).bind fun r => some (q.1 ++ r.1, q.2.1 + r.2.1, r.2.2) := rfl

theorem encodeSlices_toPipe (C : Coder) (cheap : List UInt8 → Nat → Nat → Nat × Nat → Bool) (fuel starts len : Nat) (lens : List Nat)
    (mem : List UInt8) (pos : Nat) (st : C.σ) : encodeSlices C.toPipe cheap fuel starts (len :: lens) mem pos st =
      (FwdBWT.transform mem pos len starts (List.replicate 256 0)).bind fun p =>
        (C.encode cheap fuel st p.2.1 p.2.2 ((p.1.drop pos).take len)).bind fun q =>
          (encodeSlices C.toPipe cheap fuel starts lens p.1 (pos + len) q.2.2).bind fun r =>
            some (List.replicate 6 0 ++ q.1.drop 6 ++ q.1.take 6 ++ r.1, q.2.1 + r.2.1, r.2.2) := by
  rw [encodeSlices_cons]
  cases FwdBWT.transform mem pos len starts (List.replicate 256 0) with
  | none => rfl
  | some p =>
    simp only [Option.bind_some]
    show (Option.map _ (C.encode cheap fuel st p.2.1 p.2.2 ((p.1.drop pos).take len))).bind _ = _
    cases C.encode cheap fuel st p.2.1 p.2.2 ((p.1.drop pos).take len) with
    | none => rfl
    | some q => rfl

/-- Slices behind one another: the same size, six more bytes each. -/
theorem slices_piped {C : Coder} (hF : C.Field) (cheap : List UInt8 → Nat → Nat → Nat × Nat → Bool) (fuel starts : Nat) :
    ∀ (lens : List Nat) (mem : List UInt8) (pos : Nat) (st : C.σ),
      (encodeSlices C cheap fuel starts lens mem pos st = none → encodeSlices C.toPipe cheap fuel starts lens mem pos st = none) ∧
      ∀ w n t, encodeSlices C cheap fuel starts lens mem pos st = some (w, n, t) → ∃ w',
        encodeSlices C.toPipe cheap fuel starts lens mem pos st = some (w', n, t) ∧ w'.length = w.length + 6 * lens.length := by
  intro lens
  induction lens with
  | nil =>
    intro mem pos st
    refine ⟨fun h => by simp [encodeSlices] at h, fun w n t h => ?_⟩
    simp only [encodeSlices, Option.some.injEq, Prod.mk.injEq] at h
    obtain ⟨rfl, rfl, rfl⟩ := h
    exact ⟨[], rfl, by simp⟩
  | cons len lens ih =>
    intro mem pos st
    rw [encodeSlices_cons, encodeSlices_toPipe]
    cases h1 : FwdBWT.transform mem pos len starts (List.replicate 256 0) with
    | none => exact ⟨fun _ => rfl, fun w n t h => by simp at h⟩
    | some p =>
      simp only [Option.bind_some]
      cases h2 : C.encode cheap fuel st p.2.1 p.2.2 ((p.1.drop pos).take len) with
      | none => exact ⟨fun _ => rfl, fun w n t h => by simp at h⟩
      | some q =>
        obtain ⟨a, x, t1⟩ := q
        obtain ⟨i1, i2⟩ := ih p.1 (pos + len) t1
        obtain ⟨v, tail, hw, hn⟩ := hF.first _ _ _ _ _ _ _ _ _ h2
        simp only [Option.bind_some]
        cases h3 : encodeSlices C cheap fuel starts lens p.1 (pos + len) t1 with
        | none =>
          refine ⟨fun _ => ?_, fun w n t h => by simp at h⟩
          rw [i1 h3]; rfl
        | some r =>
          obtain ⟨b, y, t2⟩ := r
          obtain ⟨w', j1, j2⟩ := i2 _ _ _ h3
          refine ⟨fun h => by simp at h, fun w n t h => ?_⟩
          simp only [Option.bind_some, Option.some.injEq, Prod.mk.injEq] at h
          obtain ⟨rfl, rfl, rfl⟩ := h
          refine ⟨List.replicate 6 0 ++ a.drop 6 ++ a.take 6 ++ w', by rw [j1]; rfl, ?_⟩
          rw [hw]
          have := field_length v
          simp only [List.length_append, List.length_replicate, List.length_drop, List.length_take, List.length_cons, j2, this]
          omega

theorem compressBlocks_succ (C : Coder) (o : Options) (e : Env) (fuel f bwt : Nat) (st : C.σ) (input : List UInt8) :
    compressBlocks C o e fuel (f + 1) bwt st input = if (input.take (pbBlock o)).length = 0 then some ([], 0) else
      (frontBlock o e bwt (input.take (pbBlock o))).bind fun b =>
        (writeBlockHeader b.1.data.length b.1.slices.length b.1.g).bind fun h =>
          (encodeSlices C e.cheap fuel (clampStarts o.starts) (b.1.slices.map List.length) (b.1.out ++ [e.junk]) 0 st).bind fun w =>
            (compressBlocks C o e fuel f b.2 w.2.2 (input.drop (pbBlock o))).bind fun r => some (h.1 ++ w.1 ++ r.1, h.2 + w.2.1 + r.2) := rfl

theorem planFrom_succ (o : Options) (e : Env) (f bwt : Nat) (input : List UInt8) :
    planFrom o e (f + 1) bwt input = if (input.take (pbBlock o)).length = 0 then some [] else
      (frontBlock o e bwt (input.take (pbBlock o))).bind fun b =>
        (planFrom o e f b.2 (input.drop (pbBlock o))).bind fun r => some (b.1 :: r) := rfl

/-- The compressor gets as far with a pipe as with a file and returns the same size; six bytes more arrive for every slice. -/
theorem blocks_piped {C : Coder} (hF : C.Field) (o : Options) (e : Env) (fuel : Nat) : ∀ (f bwt : Nat) (st : C.σ) (input : List UInt8),
    (compressBlocks C o e fuel f bwt st input = none → compressBlocks C.toPipe o e fuel f bwt st input = none) ∧
    ∀ w n, compressBlocks C o e fuel f bwt st input = some (w, n) → ∃ w' bs, planFrom o e f bwt input = some bs ∧
      compressBlocks C.toPipe o e fuel f bwt st input = some (w', n) ∧ w'.length = w.length + 6 * (bs.map fun b => b.slices.length).sum := by
  intro f
  induction f with
  | zero => intro bwt st input; exact ⟨fun _ => rfl, fun w n h => by simp [compressBlocks] at h⟩
  | succ f ih =>
    intro bwt st input
    rw [compressBlocks_succ, compressBlocks_succ C.toPipe, planFrom_succ]
    by_cases h0 : (input.take (pbBlock o)).length = 0
    · rw [if_pos h0, if_pos h0, if_pos h0]
      refine ⟨fun h => by simp at h, fun w n h => ⟨[], [], rfl, ?_, ?_⟩⟩
      · simp only [Option.some.injEq, Prod.mk.injEq] at h
        rw [h.2]
      · simp only [Option.some.injEq, Prod.mk.injEq] at h
        rw [← h.1]; simp
    rw [if_neg h0, if_neg h0, if_neg h0]
    cases h1 : frontBlock o e bwt (input.take (pbBlock o)) with
    | none => exact ⟨fun _ => rfl, fun w n h => by simp at h⟩
    | some b =>
      simp only [Option.bind_some]
      cases h2 : writeBlockHeader b.1.data.length b.1.slices.length b.1.g with
      | none => exact ⟨fun _ => rfl, fun w n h => by simp at h⟩
      | some q =>
        simp only [Option.bind_some]
        obtain ⟨s1, s2⟩ := slices_piped hF e.cheap fuel (clampStarts o.starts) (b.1.slices.map List.length) (b.1.out ++ [e.junk]) 0 st
        cases h3 : encodeSlices C e.cheap fuel (clampStarts o.starts) (b.1.slices.map List.length) (b.1.out ++ [e.junk]) 0 st with
        | none =>
          refine ⟨fun _ => ?_, fun w n h => by simp at h⟩
          rw [s1 h3]; rfl
        | some r =>
          obtain ⟨v, y, t⟩ := r
          obtain ⟨v', j1, j2⟩ := s2 _ _ _ h3
          obtain ⟨i1, i2⟩ := ih b.2 t (input.drop (pbBlock o))
          simp only [Option.bind_some, j1]
          cases h4 : compressBlocks C o e fuel f b.2 t (input.drop (pbBlock o)) with
          | none =>
            refine ⟨fun _ => ?_, fun w n h => by simp at h⟩
            rw [i1 h4]; rfl
          | some z =>
            obtain ⟨z1, z2⟩ := z
            obtain ⟨w', bs, k1, k2, k3⟩ := i2 _ _ h4
            refine ⟨fun h => by simp at h, fun w n h => ?_⟩
            simp only [Option.bind_some, Option.some.injEq, Prod.mk.injEq] at h
            obtain ⟨rfl, rfl⟩ := h
            refine ⟨q.1 ++ v' ++ w', b.1 :: bs, by rw [k1]; rfl, by rw [k2]; rfl, ?_⟩
            rw [List.length_map] at j2
            simp only [List.length_append, List.map_cons, List.sum_cons, j2, k3]
            omega

theorem decodeSlices_blind {C : Coder} (hF : C.Field) (junk : UInt8) (fuel cap n : Nat) (acc : List UInt8) (st : C.σ) {x y rest : List UInt8}
    (hx : x.length = 6) (hy : y.length = 6) :
    decodeSlices C junk fuel cap (n + 1) acc st (bytesBits (x ++ rest)) = decodeSlices C junk fuel cap (n + 1) acc st (bytesBits (y ++ rest)) := by
  rw [decodeSlices, decodeSlices, hF.blind fuel st x y rest hx hy]
  have : (bytesBits (x ++ rest)).length = (bytesBits (y ++ rest)).length := by
    rw [bytesBits_length, bytesBits_length, List.length_append, List.length_append, hx, hy]
  rw [this]

theorem field_zero {v : Nat} (h : v < 2 ^ 40) : ∃ z, packBits (bitsOf 48 v) = 0 :: z := by
  refine ⟨[4, 3, 2, 1, 0].map fun i => UInt8.ofNat (0xFF &&& (v >>> (i * 8))), ?_⟩
  rw [Streams.bytes48_spec, Streams.bytes48, List.map_cons, Nat.shiftRight_eq_div_pow, Nat.div_eq_of_lt (by exact h)]
  rfl

theorem single_piped {C : Coder} (hF : C.Field) {cheap : List UInt8 → Nat → Nat → Nat × Nat → Bool} {fuel starts len : Nat}
    {mem : List UInt8} {pos : Nat} {st t : C.σ} {v : List UInt8} {y : Nat}
    (h : encodeSlices C.toPipe cheap fuel starts [len] mem pos st = some (v, y, t)) : ∃ x tail,
      encodeSlices C cheap fuel starts [len] mem pos st = some (packBits (bitsOf 48 x) ++ tail, y, t) ∧ y = x + 6 ∧
        v = List.replicate 6 0 ++ tail ++ packBits (bitsOf 48 x) := by
  rw [encodeSlices_toPipe] at h
  rw [encodeSlices_cons]
  simp only [Option.bind_eq_some_iff] at h
  obtain ⟨p, h1, ⟨a, n, t1⟩, h2, r, h3, h4⟩ := h
  simp only [encodeSlices, Option.some.injEq] at h3
  subst h3
  simp only [Option.some.injEq, Prod.mk.injEq] at h4
  obtain ⟨rfl, rfl, rfl⟩ := h4
  obtain ⟨x, tail, hw, hn⟩ := hF.first _ _ _ _ _ _ _ _ _ h2
  subst hw hn
  refine ⟨x, tail, ?_, rfl, ?_⟩
  · rw [h1]
    simp only [Option.bind_some, h2, encodeSlices, List.append_nil]
  · rw [List.drop_left' (field_length _), List.take_left' (field_length _), List.append_nil]

/-- A block of one slice that came through a pipe is restored; behind it, the decompressor takes the length field for the end of the file. -/
theorem block_through_pipe {C : Coder} {o : Options} {e : Env} {R : C.σ → Prop} {ok : List Nat → List UInt8 → Prop} (hF : C.Field)
    (hC : C.Sound e.cheap R ok) (fuel f bwt : Nat) (input : List UInt8) (b : Block) (bs : List Block) (hbwt : bwt ≤ maxBlock)
    (hin : input.length < 2 ^ 56) (h : planFrom o e (f + 1) bwt input = some (b :: bs)) (hb : BlockOK (clampStarts o.starts) ok b)
    (s0 : List UInt8) (hs0 : b.slices = [s0]) (st : C.σ) (w : List UInt8) (n : Nat) (hst : R st)
    (he : compressBlocks C.toPipe o e fuel (f + 1) bwt st input = some (w, n)) (hw : w.length < 2 ^ 40) :
    ∃ N, ∀ fuel', N ≤ fuel' → ∀ junk f' (rest : List UInt8),
      decompressBlocks C junk fuel' (f' + 2) st (bytesBits (w ++ rest)) = some b.data := by
  rw [planFrom_succ] at h
  rw [compressBlocks_succ] at he
  by_cases h0 : (input.take (pbBlock o)).length = 0
  · rw [if_pos h0] at h
    simp at h
  rw [if_neg h0] at h he
  simp only [Option.bind_eq_some_iff] at h
  obtain ⟨⟨b1, bwt'⟩, h1, bs1, h2, h3⟩ := h
  simp only [Option.some.injEq, List.cons.injEq] at h3
  obtain ⟨rfl, rfl⟩ := h3
  obtain ⟨g1, g2, _, g4, _, _, g7⟩ := frontBlock_facts hbwt h1
  have hin' : (input.take (pbBlock o)).length ≤ input.length := by rw [List.length_take]; omega
  have hmx := maxBlock_lt
  have hfits := hb.fits
  have hbl : b1.data.length = (input.take (pbBlock o)).length := by rw [g2]
  obtain ⟨hd, d1, d2, d3⟩ := header_roundtrip (n := b1.data.length) (k := b1.slices.length) (by omega) (by omega) (by rw [hs0, List.length_singleton]; decide) hb.restores
  rw [h1] at he
  simp only [Option.bind_some, d1, Option.bind_eq_some_iff] at he
  obtain ⟨⟨v, y, t⟩, e1, ⟨r, z⟩, e2, he⟩ := he
  simp only [Option.some.injEq, Prod.mk.injEq] at he
  obtain ⟨rfl, rfl⟩ := he
  rw [hs0, List.map_cons, List.map_nil] at e1
  obtain ⟨x, tail, f1, f2, f3⟩ := single_piped hF e1
  rw [hs0] at g4
  simp only [List.flatten_cons, List.flatten_nil, List.append_nil] at g4
  have f1' : encodeSlices C e.cheap fuel (clampStarts o.starts) (([s0] : List (List UInt8)).map List.length)
      ([] ++ ([s0] : List (List UInt8)).flatten ++ e.junk :: []) ([] : List UInt8).length st = some (packBits (bitsOf 48 x) ++ tail, y, t) := by
    simpa [g4] using f1
  obtain ⟨w1, w2, N1, w3⟩ := slices_sound hC (clampStarts o.starts) fuel [s0] (fun s hs => by
    rw [← hs0] at hs
    exact ⟨(g7 s hs).1, by have := (g7 s hs).2; omega, hb.slices s hs⟩) _ _ _ _ _ _ _ hst f1'
  obtain ⟨z', hz⟩ := field_zero (v := x) (by
    have h5 := field_length x
    rw [f2] at w1
    simp only [List.length_append, f3, List.length_replicate, h5] at w1 hw
    omega)
  refine ⟨N1, fun fuel' hf' junk f' rest => ?_⟩
  obtain ⟨g', k1, k2⟩ := d3 (v ++ (r ++ rest))
  rw [show hd ++ v ++ r ++ rest = hd ++ (v ++ (r ++ rest)) by simp, decompressBlocks, k1]
  simp only [Option.bind_eq_bind, Option.bind_some]
  rw [show v ++ (r ++ rest) = List.replicate 6 0 ++ (tail ++ (packBits (bitsOf 48 x) ++ (r ++ rest))) by rw [f3]; simp, hs0, List.length_singleton,
    decodeSlices_blind hF junk fuel' b1.data.length 0 [] st (y := packBits (bitsOf 48 x)) (by simp) (field_length x)]
  have h6 := w3 fuel' hf' junk b1.data.length [] (by
    simp only [List.length_nil, List.flatten_cons, List.flatten_nil, List.append_nil]; rw [g4]; omega) (packBits (bitsOf 48 x) ++ (r ++ rest))
  rw [List.append_assoc, List.length_singleton] at h6
  rw [h6]
  simp only [List.nil_append, List.flatten_cons, List.flatten_nil, List.append_nil, Option.bind_some]
  rw [g4, k2]
  simp only [Option.bind_some]
  rw [hz, List.cons_append, decompressBlocks, readEnd]
  simp

end Bwtc.Container
