import Verif.PipeProof
import Verif.Props.Sound
import Verif.Props.HuffSize
import Verif.Props.Memory

/-!
# C69: compressing to a pipe
-/

set_option autoImplicit false

namespace Bwtc.Props
open Container PairReplace FreqTable Grammar Streams

/-- The full claim C69: what the compressor sends through a pipe is a compressed file of the input. -/
def C69_claim : Prop := ∀ (letter : UInt8) (starts memLimit : Nat) (e : Env) (input : List UInt8) (fuel : Nat) (sent : List UInt8) (n : Nat),
  6 ≤ memLimit → memLimit ≤ 2902000000 → input.length < 2 ^ 56 →
  compressPiped ⟨letter, starts, 0, memLimit⟩ e fuel input = some (sent, n) → sent.length < 2 ^ 40 →
  ∃ N, ∀ fuel', N ≤ fuel' → ∀ junk, decompress junk fuel' sent = some input

/-- The stream on a pipe: whatever is called, no access is outside the buffer, and the reader gets what the calls have put out, one behind the
other, the 48-bit fields too. -/
theorem C69_stream (K : Nat) (hK : 0 < K) (ops : List OutOp) : ∃ os st, Pipe.run K Pipe.St.open ops = some (os, st) ∧
    Pipe.close st = (ops.map Pipe.adds).flatten := by
  obtain ⟨os, st, h1, h2, _⟩ := Pipe.run_all (K := K) ops (st := Pipe.St.open) hK
  exact ⟨os, st, h1, by rw [Pipe.close_all, h2]; rfl⟩

/-- The calls for a block, on a file and on a pipe: in the file the length replaces the six zero bytes, on a pipe it follows the block. -/
theorem C69_block_calls (before content : List UInt8) (len position : Nat) :
    absOutRun before (Pipe.blockCalls content len before.length) =
        some ([before.length], before ++ packBits (bitsOf 48 len) ++ content) ∧
      ((Pipe.blockCalls content len position).map Pipe.adds).flatten = List.replicate 6 0 ++ content ++ packBits (bitsOf 48 len) := by
  have gen : ∀ (bs a : List UInt8) (ops : List OutOp), absOutRun a (bs.map OutOp.byte ++ ops) = absOutRun (a ++ bs) ops := by
    intro bs
    induction bs with
    | nil => intro a ops; simp
    | cons b bs ih =>
      intro a ops
      rw [List.map_cons, List.cons_append, absOutRun]
      simp only [absOut, Option.bind_eq_bind, Option.bind_some, ih]
      rw [List.append_assoc, List.singleton_append]
      cases absOutRun (a ++ b :: bs) ops with
      | none => rfl
      | some r => simp
  constructor
  · rw [Pipe.blockCalls, absOutRun]
    simp only [absOut, Option.bind_eq_bind, Option.bind_some]
    rw [show List.replicate 6 (OutOp.byte 0) = (List.replicate 6 (0 : UInt8)).map OutOp.byte by rfl, List.append_assoc, gen, gen, absOutRun]
    have h1 : before.length + 6 ≤ (before ++ List.replicate 6 0 ++ content).length := by
      simp only [List.length_append, List.length_replicate]; omega
    simp only [absOut, h1, if_true, Option.bind_eq_bind, Option.bind_some, absOutRun]
    have h2 : (before ++ List.replicate 6 0 ++ content).take before.length = before := by
      rw [List.append_assoc, List.take_left]
    have h3 : (before ++ List.replicate 6 0 ++ content).drop (before.length + 6) = content := by
      rw [List.drop_left' (by simp)]
    rw [h2, h3]
    rfl
  · have : (content.map OutOp.byte).map Pipe.adds = content.map fun b => [b] := by
      rw [List.map_map]; rfl
    rw [Pipe.blockCalls, List.map_cons, List.map_append, List.map_append, this]
    simp only [Pipe.adds, List.map_replicate, List.map_cons, List.map_nil, List.flatten_cons, List.flatten_append, List.flatten_nil, List.nil_append,
      List.append_nil]
    rw [show (List.replicate 6 [(0 : UInt8)]).flatten = List.replicate 6 0 by rfl]
    congr 2
    induction content with
    | nil => rfl
    | cons b bs ih => rw [List.map_cons, List.flatten_cons, ih (by rw [List.map_map]; rfl)]; rfl

theorem toPipe_compress (o : Options) (e : Env) (fuel : Nat) (input : List UInt8) : compressPiped o e fuel input =
    (compressBlocks (coderOf o.letter).toPipe o e fuel (input.length + 1) (bwtBlock0 o) (coderOf o.letter).init input).bind fun r =>
      some (o.letter :: (r.1 ++ [0]), (1 + r.2 + 1) % 2 ^ 64) := by
  rw [compressPiped]
  obtain ⟨D, hD⟩ : ∃ D, D = pipedOf o.letter := ⟨_, rfl⟩
  rw [← hD]
  rw [pipedOf_eq] at hD
  subst hD
  rfl

theorem chunks_count {n : Nat} (hn : 0 < n) {l : List UInt8} {cs : List (List UInt8)} (h : InChunks n l cs) : cs.length = (l.length + n - 1) / n := by
  induction h with
  | nil => rw [List.length_nil, List.length_nil, Nat.zero_add, Nat.div_eq_of_lt (by omega)]
  | @cons l cs hl h ih =>
    have hp := List.length_pos_iff.mpr hl
    rw [List.length_cons, ih, List.length_drop]
    by_cases h1 : l.length ≤ n
    · rw [show l.length - n + n - 1 = n - 1 by omega, Nat.div_eq_of_lt (by omega), show l.length + n - 1 = (l.length - 1) + n by omega,
        Nat.add_div_right _ hn, Nat.div_eq_of_lt (by omega)]
    · rw [show l.length + n - 1 = (l.length - n + n - 1) + n by omega, Nat.add_div_right _ hn]

/-- The compressor does the same whether it writes to a pipe or to a file, and returns the same size: six bytes less than arrive for every
block. -/
theorem C69_size (letter : UInt8) (starts memLimit : Nat) (e : Env) (input : List UInt8) (h6 : 6 ≤ memLimit) (hm : memLimit ≤ 2902000000) (fuel : Nat) :
    (compress ⟨letter, starts, 0, memLimit⟩ e fuel input = none → compressPiped ⟨letter, starts, 0, memLimit⟩ e fuel input = none) ∧
    ∀ file n, compress ⟨letter, starts, 0, memLimit⟩ e fuel input = some (file, n) →
      ∃ sent, compressPiped ⟨letter, starts, 0, memLimit⟩ e fuel input = some (sent, n) ∧
        sent.length = file.length + 6 * ((input.length + times0185 memLimit - 1) / times0185 memLimit) := by
  have hsm := times0185_small hm
  obtain ⟨_, _, t3, _⟩ := times_bounds memLimit
  have t3 := t3 h6
  have hmx : 2 ^ 29 ≤ maxBlock := by decide
  have hpb : pbBlock ⟨letter, starts, 0, memLimit⟩ = times0185 memLimit := by
    rw [pbBlock, if_pos rfl, bwtBlock0]
    exact Nat.min_eq_left (Nat.le_trans (Nat.le_of_lt hsm) hmx)
  obtain ⟨cs, hcs⟩ := InChunks.exists (n := times0185 memLimit) t3 _ input (Nat.le_refl _)
  have hcount := chunks_count t3 hcs
  obtain ⟨_, f2, _⟩ := hcs.facts t3
  rw [← hpb] at hcs
  have hplan := plan_plain (o := ⟨letter, starts, 0, memLimit⟩) (e := e) rfl (by rw [hpb]; exact t3) hcs (input.length + 1) (by omega)
  rw [toPipe_compress, compress]
  simp only [Option.bind_eq_bind]
  obtain ⟨b1, b2⟩ := blocks_piped (coder_field letter) ⟨letter, starts, 0, memLimit⟩ e fuel (input.length + 1)
    (bwtBlock0 ⟨letter, starts, 0, memLimit⟩) (coderOf letter).init input
  cases hc : compressBlocks (coderOf letter) ⟨letter, starts, 0, memLimit⟩ e fuel (input.length + 1)
      (bwtBlock0 ⟨letter, starts, 0, memLimit⟩) (coderOf letter).init input with
  | none =>
    refine ⟨fun _ => ?_, fun file n h => by simp at h⟩
    rw [b1 hc]; rfl
  | some r =>
    obtain ⟨w, m⟩ := r
    obtain ⟨w', bs, c1, c2, c3⟩ := b2 _ _ hc
    refine ⟨fun h => by simp at h, fun file n h => ?_⟩
    simp only [Option.bind_some, Option.pure_def, Option.some.injEq, Prod.mk.injEq] at h
    obtain ⟨rfl, rfl⟩ := h
    refine ⟨_, by rw [c2]; rfl, ?_⟩
    rw [hplan, Option.some.injEq] at c1
    subst c1
    have hsum : ∀ l : List (List UInt8), ((l.map fun c => (⟨c, c, empty, [c]⟩ : Block)).map fun b => b.slices.length).sum = l.length := by
      intro l
      induction l with
      | nil => rfl
      | cons c l ih => rw [List.map_cons, List.map_cons, List.sum_cons, ih, List.length_cons]; exact Nat.add_comm _ _
    rw [hsum, hcount] at c3
    simp only [List.length_cons, List.length_append, List.length_nil, c3]
    omega

/-- C69, exactly, for every coder without preprocessing: of what has come through a pipe, the decompressor restores the first block and ends there,
without an error.  It takes the length field behind the block for the end of the file. -/
theorem C69_first_block_only (letter : UInt8) (starts memLimit : Nat) (e : Env) (input : List UInt8) (h6 : 6 ≤ memLimit)
    (hm : memLimit ≤ 2902000000) (hin : input.length < 2 ^ 56) (fuel : Nat) (sent : List UInt8) (n : Nat)
    (hc : compressPiped ⟨letter, starts, 0, memLimit⟩ e fuel input = some (sent, n)) (hs : sent.length < 2 ^ 40) :
    ∃ N, ∀ fuel', N ≤ fuel' → ∀ junk (rest : List UInt8), decompress junk fuel' (sent ++ rest) = some (input.take (times0185 memLimit)) := by
  have hsm := times0185_small hm
  obtain ⟨_, _, t3, _⟩ := times_bounds memLimit
  have t3 := t3 h6
  have hmx : 2 ^ 29 ≤ maxBlock := by decide
  have hpb : pbBlock ⟨letter, starts, 0, memLimit⟩ = times0185 memLimit := by
    rw [pbBlock, if_pos rfl, bwtBlock0]
    exact Nat.min_eq_left (Nat.le_trans (Nat.le_of_lt hsm) hmx)
  have hb : bwtBlock0 ⟨letter, starts, 0, memLimit⟩ ≤ maxBlock := Nat.min_le_right _ _
  obtain ⟨cs, hcs⟩ := InChunks.exists (n := times0185 memLimit) t3 _ input (Nat.le_refl _)
  obtain ⟨_, f2, f3⟩ := hcs.facts t3
  rw [← hpb] at hcs
  have hplan := plan_plain (o := ⟨letter, starts, 0, memLimit⟩) (e := e) rfl (by rw [hpb]; exact t3) hcs (input.length + 1) (by omega)
  obtain ⟨R, hR⟩ := coder_sound letter e.cheap
  rw [toPipe_compress] at hc
  simp only [Option.bind_eq_some_iff, Option.some.injEq, Prod.mk.injEq] at hc
  obtain ⟨⟨w, m⟩, e1, rfl, rfl⟩ := hc
  simp only [List.length_cons, List.length_append, List.length_nil] at hs
  have hread : ∀ rest : List UInt8, readByte (bytesBits (letter :: (w ++ [0]) ++ rest)) = some (letter, bytesBits (w ++ (0 :: rest))) := by
    intro rest
    rw [List.cons_append, bytesBits_cons, readByte_byteBits, List.append_assoc, List.singleton_append]
  cases hcs with
  | nil =>
    rw [compressBlocks_succ, if_pos (by simp)] at e1
    simp only [Option.some.injEq, Prod.mk.injEq] at e1
    obtain ⟨rfl, rfl⟩ := e1
    refine ⟨0, fun fuel' _ junk rest => ?_⟩
    rw [decompress, hread]
    simp only [Option.bind_eq_bind, Option.bind_some]
    rw [decompressBlocks, List.nil_append, readEnd]
    simp
  | @cons _ cs' hne hcs' =>
    have f4 := f3 (input.take (pbBlock ⟨letter, starts, 0, memLimit⟩)) (by simp)
    obtain ⟨N, hN⟩ := block_through_pipe (C := coderOf letter) (coder_field letter) hR fuel _ _ input
      ⟨input.take (pbBlock ⟨letter, starts, 0, memLimit⟩), input.take (pbBlock ⟨letter, starts, 0, memLimit⟩), empty, [input.take (pbBlock ⟨letter, starts, 0, memLimit⟩)]⟩
      (cs'.map fun c => ⟨c, c, empty, [c]⟩) hb hin hplan (by
        refine ⟨restores_empty _, Nat.le_refl _, fun s hs => ?_⟩
        simp only [List.mem_singleton] at hs
        subst hs
        obtain ⟨g1, g2, _⟩ := f4
        refine sliceOK_of_count g1 fun x => ?_
        have := List.count_le_length (a := x) (l := input.take (pbBlock ⟨letter, starts, 0, memLimit⟩))
        omega) _ rfl _ _ _ hR.init e1 (by omega)
    refine ⟨N, fun fuel' hf junk rest => ?_⟩
    rw [decompress, hread]
    simp only [Option.bind_eq_bind, Option.bind_some]
    have h7 := hN fuel' hf junk ((letter :: (w ++ [0]) ++ rest).length + 1 - 2) (0 :: rest)
    rw [Nat.sub_add_cancel (by simp only [List.length_append, List.length_cons, List.length_nil]; omega)] at h7
    rw [h7, hpb]

/-- C69, the part that holds (no preprocessing): an input that fits into one block comes through a pipe. -/
theorem C69_one_block_partial (letter : UInt8) (starts memLimit : Nat) (e : Env) (input : List UInt8) (h6 : 6 ≤ memLimit)
    (hm : memLimit ≤ 2902000000) (hfit : input.length ≤ times0185 memLimit) (fuel : Nat) (sent : List UInt8) (n : Nat)
    (hc : compressPiped ⟨letter, starts, 0, memLimit⟩ e fuel input = some (sent, n)) (hs : sent.length < 2 ^ 40) :
    ∃ N, ∀ fuel', N ≤ fuel' → ∀ junk (rest : List UInt8), decompress junk fuel' (sent ++ rest) = some input := by
  have hsm := times0185_small hm
  obtain ⟨N, h⟩ := C69_first_block_only letter starts memLimit e input h6 hm (by omega) fuel sent n hc hs
  rw [List.take_of_length_le hfit] at h
  exact ⟨N, h⟩

theorem postprocess_nil {g : G} {out : List UInt8} (h : postprocess g [] = some out) : out = [] := by
  rw [postprocess] at h
  simp only [Option.bind_eq_bind, Option.bind_eq_some_iff] at h
  obtain ⟨t, _, h⟩ := h
  split at h
  · exact (Option.some.inj h).symm
  · rw [uncompress] at h
    exact (Option.some.inj h).symm

theorem bwtBlockAfter_fits {m k : Nat} (hm : m ≤ 2415000000) (h : 11 * k ≤ 2 * m) : k ≤ bwtBlockAfter m k := by
  have e2 : (m + (2 ^ 64 - k % 2 ^ 64)) % 2 ^ 64 = m - k := by
    rw [Nat.mod_eq_of_lt (show k < 2 ^ 64 by omega), show m + (2 ^ 64 - k) = (m - k) + 2 ^ 64 by omega, Nat.add_mod_right,
      Nat.mod_eq_of_lt (by omega)]
  rw [bwtBlockAfter, e2, maxBlock]
  omega

/-- C69 with preprocessing (partial: hypotheses of C56 on the blocks, and what the first block is replaced by has at most 2/11 of the memory limit,
so that it is one slice): again the first block is restored and nothing else. -/
theorem C69_preprocessed_partial (letter : UInt8) (starts rounds memLimit : Nat) (e : Env) (input : List UInt8) (cs : List (List UInt8))
    (he : ∀ F, Initial F (e.table F)) (hb : rounds ≤ 1 ∨ ∃ y, e.beyond = some y ∧ 2 ^ 32 ≤ y) (hr : 1 ≤ rounds)
    (h20 : 1000000 ≤ memLimit) (hm : memLimit ≤ 2415000000) (hin : input.length < 2 ^ 56)
    (hcs : InChunks (times074 memLimit) input cs)
    (hpre : ∀ c ∈ cs, ∃ out g, precompress e.table e.beyond (e.small c.length) rounds (c ++ [e.junk]) c.length = some (out, g) ∧
      out.length ≤ c.length ∧ SafeRounds e.table e.beyond (e.small c.length) c.length rounds
        ⟨c ++ [e.junk], none, false, c.length, 0, empty⟩)
    (hone : ∀ c, cs.head? = some c → ∀ out g, precompress e.table e.beyond (e.small c.length) rounds (c ++ [e.junk]) c.length = some (out, g) →
      11 * out.length ≤ 2 * memLimit) (fuel : Nat) (sent : List UInt8) (n : Nat)
    (hc : compressPiped ⟨letter, starts, rounds, memLimit⟩ e fuel input = some (sent, n)) (hs : sent.length < 2 ^ 40) :
    ∃ N, ∀ fuel', N ≤ fuel' → ∀ junk (rest : List UInt8), decompress junk fuel' (sent ++ rest) = some (input.take (times074 memLimit)) := by
  have hr0 : (⟨letter, starts, rounds, memLimit⟩ : Options).rounds ≠ 0 := by show rounds ≠ 0; omega
  have hpb : pbBlock ⟨letter, starts, rounds, memLimit⟩ = times074 memLimit := by rw [pbBlock, if_neg hr0]
  have hq := first_size ⟨letter, starts, rounds, memLimit⟩ h20
  rw [if_neg hr0] at hq
  have hb0 : bwtBlock0 ⟨letter, starts, rounds, memLimit⟩ ≤ maxBlock := Nat.min_le_right _ _
  obtain ⟨bs, _, p1, p2⟩ := preprocessed_plan letter starts rounds memLimit e input cs he hb hr (by omega) hm hcs hpre
  obtain ⟨R, hR⟩ := coder_sound letter e.cheap
  rw [toPipe_compress] at hc
  simp only [Option.bind_eq_some_iff, Option.some.injEq, Prod.mk.injEq] at hc
  obtain ⟨⟨w, m⟩, e1, rfl, rfl⟩ := hc
  simp only [List.length_cons, List.length_append, List.length_nil] at hs
  have hread : ∀ rest : List UInt8, readByte (bytesBits (letter :: (w ++ [0]) ++ rest)) = some (letter, bytesBits (w ++ (0 :: rest))) := by
    intro rest
    rw [List.cons_append, bytesBits_cons, readByte_byteBits, List.append_assoc, List.singleton_append]
  cases hcs with
  | nil =>
    rw [compressBlocks_succ, if_pos (by simp)] at e1
    simp only [Option.some.injEq, Prod.mk.injEq] at e1
    obtain ⟨rfl, rfl⟩ := e1
    refine ⟨0, fun fuel' _ junk rest => ?_⟩
    rw [decompress, hread]
    simp only [Option.bind_eq_bind, Option.bind_some]
    rw [decompressBlocks, List.nil_append, readEnd]
    simp
  | @cons _ cs' hne hcs' =>
    have hpl := p1
    have hin' := List.length_pos_iff.mpr hne
    have hg := times074_ge (m := memLimit) (by omega)
    have h0 : ¬ (input.take (pbBlock ⟨letter, starts, rounds, memLimit⟩)).length = 0 := by
      rw [hpb, List.length_take]
      omega
    rw [planFrom_succ, if_neg h0] at p1
    simp only [Option.bind_eq_some_iff] at p1
    obtain ⟨⟨b, bwt'⟩, h1, bs', h2, h3⟩ := p1
    simp only [Option.some.injEq] at h3
    subst h3
    obtain ⟨k1, k2, k3⟩ := Memory.frontBlock_out h1
    obtain ⟨g1, g2, _⟩ := frontBlock_facts hb0 h1
    rw [if_pos hq] at k2
    rw [hpb] at k1 g2
    have q2 := hone _ rfl b.out b.g k1
    have q1 : b.out ≠ [] := by
      intro h
      obtain ⟨_, _, h4⟩ := (p2 b (by simp)).restores
      obtain ⟨g', _, h4⟩ := h4 []
      rw [h] at h4
      rw [hpb, ← g2, postprocess_nil h4] at h0
      exact h0 rfl
    have hsl : b.slices = [b.out] := by
      have hf := bwtBlockAfter_fits hm q2
      rw [← k2] at hf
      have hml := maxBlock_lt
      rw [run_single q1 hf (by omega), Option.some.injEq] at k3
      exact k3.symm
    obtain ⟨N, hN⟩ := block_through_pipe (C := coderOf letter) (coder_field letter) hR fuel _ _ input b bs' hb0 hin hpl
      (p2 b (by simp)) _ hsl _ _ _ hR.init e1 (by omega)
    refine ⟨N, fun fuel' hf junk rest => ?_⟩
    rw [decompress, hread]
    simp only [Option.bind_eq_bind, Option.bind_some]
    have h7 := hN fuel' hf junk ((letter :: (w ++ [0]) ++ rest).length + 1 - 2) (0 :: rest)
    rw [Nat.sub_add_cancel (by simp only [List.length_append, List.length_cons, List.length_nil]; omega)] at h7
    rw [h7, g2]

/-- Inputs of 5 to 255 bytes come through a pipe with preprocessing, too. -/
theorem C69_preprocessed_short (letter : UInt8) (starts rounds memLimit : Nat) (e : Env) (input : List UInt8)
    (he : ∀ F, Initial F (e.table F)) (hb : rounds ≤ 1 ∨ ∃ y, e.beyond = some y ∧ 2 ^ 32 ≤ y) (hr : 1 ≤ rounds)
    (h20 : 1000000 ≤ memLimit) (hm : memLimit ≤ 2415000000) (h5 : 5 ≤ input.length)
    (h255 : input.length ≤ 255) (hsm : e.small input.length input.length = false)
    (fuel : Nat) (sent : List UInt8) (n : Nat) (hc : compressPiped ⟨letter, starts, rounds, memLimit⟩ e fuel input = some (sent, n))
    (hs : sent.length < 2 ^ 40) :
    ∃ N, ∀ fuel', N ≤ fuel' → ∀ junk (rest : List UInt8), decompress junk fuel' (sent ++ rest) = some input := by
  have hg := times074_ge (m := memLimit) (by omega)
  have hfit : input.length ≤ times074 memLimit := by omega
  have hne : input ≠ [] := by
    intro hc
    rw [hc] at h5
    simp at h5
  have hcs : InChunks (times074 memLimit) input [input] := by
    have := InChunks.cons (n := times074 memLimit) hne (cs := []) (by
      rw [List.drop_of_length_le hfit]
      exact .nil)
    rwa [List.take_of_length_le hfit] at this
  obtain ⟨k, rfl⟩ : ∃ k, rounds = k + 1 := ⟨rounds - 1, by omega⟩
  obtain ⟨s1, s2, _⟩ := C36_short_blocks e.table he e.beyond (e.small input.length) (input ++ [e.junk]) input.length k h5 h255
    (by simp) hsm
  rw [List.take_left] at s2
  obtain ⟨N, h⟩ := C69_preprocessed_partial letter starts (k + 1) memLimit e input [input] he hb hr h20 hm (by omega) hcs (by
    intro c hc
    rw [List.mem_singleton] at hc
    subst hc
    exact ⟨c, empty, s2, Nat.le_refl _, s1⟩) (by
    intro c hc out g hp
    obtain rfl : input = c := Option.some.inj hc
    rw [s2, Option.some.injEq, Prod.mk.injEq] at hp
    rw [← hp.1]
    omega) fuel sent n hc hs
  rw [List.take_of_length_le hfit] at h
  exact ⟨N, h⟩

theorem steps_le (n B : Nat) (hB : 0 < B) : (n + B - 1) / B ≤ n := by
  have h1 : n ≤ n * B := Nat.le_mul_of_pos_right n hB
  have h2 : n + B - 1 < (n + 1) * B := by rw [Nat.add_mul, Nat.one_mul]; omega
  have := (Nat.div_lt_iff_lt_mul hB).mpr h2
  omega

theorem maxBlock_large : 2 ^ 29 ≤ maxBlock := by decide

theorem clampStarts_le (starts : Nat) : clampStarts starts ≤ 256 := by rw [clampStarts]; split <;> (try split) <;> omega

theorem sent_small {c P len file sent : Nat} (hc : c ≤ 256) (hl : len ≤ 2 ^ 28)
    (h2 : 32 * file ≤ 39 * len + 32 * ((861 + (31 * c + 7) / 8) * P + 2)) (h3 : P ≤ len) (h4 : sent = file + 6 * P) : sent < 2 ^ 40 := by
  have h5 : (861 + (31 * c + 7) / 8) * P ≤ 1853 * 2 ^ 28 := Nat.mul_le_mul (by omega) (by omega)
  generalize (861 + (31 * c + 7) / 8) * P = X at h2 h5
  omega

/-- With the Huffman coder, every input of up to 2^28 bytes that is longer than a block (185000 bytes at the smallest memory limit of the command line) is lost but for its
first block when it is compressed to a pipe. -/
theorem C69_huffman_loses (starts memLimit : Nat) (e : Env) (input : List UInt8) (h6 : 6 ≤ memLimit) (hm : memLimit ≤ 2902000000)
    (hlong : times0185 memLimit < input.length) (hshort : input.length ≤ 2 ^ 28) :
    ∃ N, ∀ fuel, N ≤ fuel → ∃ sent n, compressPiped ⟨72, starts, 0, memLimit⟩ e fuel input = some (sent, n) ∧ sent.length < 2 ^ 40 ∧
      ∃ M, ∀ fuel', M ≤ fuel' → ∀ junk, decompress junk fuel' sent = some (input.take (times0185 memLimit)) ∧
        decompress junk fuel' sent ≠ some input := by
  obtain ⟨_, _, t3, _⟩ := times_bounds memLimit
  have t3 := t3 h6
  have hsm := times0185_small hm
  have hin : input.length < 2 ^ 56 := Nat.lt_of_le_of_lt hshort (by decide)
  obtain ⟨N, hN⟩ := C38_huffman starts memLimit e input h6 hm hin
  refine ⟨N, fun fuel hf => ?_⟩
  obtain ⟨file, h1, _⟩ := hN fuel (fuel + 1) hf (Nat.lt_succ_self _)
  obtain ⟨sent, s1, s2⟩ := (C69_size 72 starts memLimit e input h6 hm fuel).2 _ _ h1
  have h2 := C52_huffman_file starts memLimit e input h6 hm fuel file _ h1
  have hmin : min (times0185 memLimit) maxBlock = times0185 memLimit :=
    Nat.min_eq_left (Nat.le_trans (Nat.le_of_lt hsm) maxBlock_large)
  rw [hmin, pieces] at h2
  have h3 := steps_le input.length (times0185 memLimit) t3
  have h7 : sent.length < 2 ^ 40 := sent_small (clampStarts_le starts) hshort h2 h3 s2
  obtain ⟨M, hM⟩ := C69_first_block_only 72 starts memLimit e input h6 hm hin fuel sent _ s1 h7
  refine ⟨sent, _, s1, h7, M, fun fuel' hf' junk => ?_⟩
  have h5 := hM fuel' hf' junk []
  rw [List.append_nil] at h5
  refine ⟨h5, fun h6 => ?_⟩
  rw [h5, Option.some.injEq] at h6
  have := congrArg List.length h6
  rw [List.length_take, Nat.min_eq_left (Nat.le_of_lt hlong)] at this
  exact absurd this (Nat.ne_of_lt hlong)

/-- C69 is false of the code: 200000 bytes, Huffman coder, a megabyte of memory. -/
theorem C69_fails : ¬ C69_claim := by
  intro h
  obtain ⟨m, hm1, hm2⟩ : ∃ m, 6 ≤ m ∧ m = 1000000 := ⟨1000000, by decide, rfl⟩
  obtain ⟨_, t2, _, _⟩ := times_bounds m
  obtain ⟨input, hi⟩ : ∃ l : List UInt8, l.length = 200000 := ⟨List.replicate 200000 97, List.length_replicate⟩
  have hlong : times0185 m < input.length := by
    generalize times0185 m = x at t2
    omega
  have h28 : input.length ≤ 2 ^ 28 := by rw [hi]; decide
  have hm3 : m ≤ 2902000000 := by rw [hm2]; decide
  obtain ⟨N, hN⟩ := C69_huffman_loses 8 m sampleEnv input hm1 hm3 hlong h28
  obtain ⟨sent, n, h1, h2, M, h3⟩ := hN N (Nat.le_refl _)
  obtain ⟨M', h4⟩ := h 72 8 m sampleEnv input N sent n hm1 hm3 (Nat.lt_of_le_of_lt h28 (by decide)) h1 h2
  exact (h3 (max M M') (Nat.le_max_left _ _) 0).2 (h4 (max M M') (Nat.le_max_right _ _) 0)

/-- The hypotheses of `C69_one_block_partial` and of `C69_first_block_only` can be met: "ba" in one block, and in two. -/
example : (∃ sent n, compressPiped ⟨109, 1, 0, 1000⟩ sampleEnv 20 [98, 97] = some (sent, n) ∧ sent.length < 2 ^ 40 ∧ [98, 97].length ≤ times0185 1000) ∧
    ∃ sent n, compressPiped ⟨109, 1, 0, 6⟩ sampleEnv 20 [98, 97] = some (sent, n) ∧ sent.length < 2 ^ 40 ∧ times0185 6 < [98, 97].length := by
  have h1 : ((compressPiped ⟨109, 1, 0, 1000⟩ sampleEnv 20 [98, 97]).any fun r => decide (r.1.length < 2 ^ 40)) = true := by decide +kernel
  have h2 : ((compressPiped ⟨109, 1, 0, 6⟩ sampleEnv 20 [98, 97]).any fun r => decide (r.1.length < 2 ^ 40)) = true := by decide +kernel
  rw [Option.any_eq_true_iff_get] at h1 h2
  obtain ⟨a, h1⟩ := h1
  obtain ⟨b, h2⟩ := h2
  exact ⟨⟨_, _, (Option.some_get a).symm, of_decide_eq_true h1, by decide +kernel⟩, ⟨_, _, (Option.some_get b).symm, of_decide_eq_true h2, by decide +kernel⟩⟩

/-- The hypotheses of `C69_preprocessed_short` can be met: "ababa", whatever the number of bytes sent for the file. -/
example : ∃ fuel sent n, compressPiped ⟨72, 1, 1, 1000000⟩ sampleEnv fuel [97, 98, 97, 98, 97] = some (sent, n) := by
  have hf : 5 ≤ times074 1000000 := by decide +kernel
  obtain ⟨N, h⟩ := C38_preprocessed_short 1 1 1000000 sampleEnv [97, 98, 97, 98, 97] makeTable_initial (.inr ⟨_, rfl, by decide⟩)
    (by decide) (by decide) (by decide) (by decide) (by decide) hf (by decide)
  obtain ⟨file, h, _⟩ := h N (N + 1) (Nat.le_refl _) (Nat.lt_succ_self _)
  rw [compress] at h
  simp only [Option.bind_eq_bind, Option.bind_eq_some_iff] at h
  obtain ⟨⟨w, m⟩, h, _⟩ := h
  obtain ⟨w', _, _, h', _⟩ := (blocks_piped (coder_field 72) ⟨72, 1, 1, 1000000⟩ sampleEnv N _ _ _ _).2 _ _ h
  exact ⟨N, _, _, by rw [toPipe_compress, h']; rfl⟩

/-- A stream on a pipe with a buffer of four bytes. -/
example : (Pipe.run 4 Pipe.St.open (Pipe.blockCalls [1, 2, 3] 3 0)).map (fun r => (r.1, Pipe.close r.2)) =
    some ([-1], [0, 0, 0, 0, 0, 0, 1, 2, 3, 0, 0, 0, 0, 0, 3]) := by decide +kernel

end Bwtc.Props
