import Verif.DecMemory
import Verif.Props.Sound
import Verif.Props.Memory

/-!
# C77: the memory of the decompressor
-/

set_option autoImplicit false

namespace Bwtc.Props
open Container Memory DecMemory Varint Grammar PairReplace FreqTable

/-- The number of bytes that the decompressor writes if it ends normally. -/
def restored (junk : UInt8) (fuel : Nat) (file : List UInt8) : Nat :=
  match decompress junk fuel file with
  | some out => out.length
  | none => 0

/-- The full claim C77: what the decompressor holds in its arrays is in proportion to what it reads and writes (a factor of a thousand and half a
megabyte are granted). -/
def C77_claim : Prop := ∀ (junk : UInt8) (fuel : Nat) (file : List UInt8) (u : Int), InUse (DecMemory.events junk fuel file) u →
  u ≤ 1000 * (file.length + restored junk fuel file) + 500000

/-- The size in the first header is allocated, whatever follows, before anything is checked. -/
theorem C77_huge_request (letter junk : UInt8) (fuel N : Nat) (h : N < 2 ^ 56) : ∃ w, packed N = some (w, w.length) ∧
    ∀ rest : List UInt8, InUse (DecMemory.events junk fuel (letter :: (w ++ rest))) (N + 1) := by
  obtain ⟨w, w1, _, w3⟩ := packed_spec h
  refine ⟨w, w1, fun rest => ?_⟩
  rw [DecMemory.events, bytesBits_cons, readByte_byteBits]
  simp only []
  rw [loopLog, bytesBits_append, w3]
  simp only []
  rw [Nat.mod_eq_of_lt (show N + 1 < 2 ^ 64 by omega)]
  exact ⟨[.take (N + 1)], _, rfl, by simp only [held]; omega⟩

/-- The number of slices in a header is allocated too, whatever the size of the block is: two numbers decide on both requests. -/
theorem C77_huge_slices (B N M : Nat) (h0 : 0 < N) (h1 : N < 2 ^ 56) (h2 : M < 2 ^ 56) : ∃ w v, packed N = some (w, w.length) ∧ packed M = some (v, v.length) ∧
    ∀ rest : List UInt8, headerRequests B (bytesBits (w ++ (v ++ rest))) = [.take (N + 1), .take (M * B)] := by
  obtain ⟨w, w1, _, w3⟩ := packed_spec h1
  obtain ⟨v, v1, _, v3⟩ := packed_spec h2
  refine ⟨w, v, w1, v1, fun rest => ?_⟩
  rw [headerRequests, bytesBits_append, w3]
  simp only []
  rw [if_neg (by omega), bytesBits_append, v3, Nat.mod_eq_of_lt (show N + 1 < 2 ^ 64 by omega)]

/-- A block of one byte with a trillion slices. -/
example : headerRequests 48 (bytesBits [1, 128, 128, 128, 128, 128, 32]) = [.take 2, .take (2 ^ 40 * 48)] := by decide +kernel

/-- For a block that is restored the vector of slices has no more entries than the block has bytes. -/
theorem header_requests (C : Coder) (junk : UInt8) (fuel B N k : Nat) (g : G) (st : C.σ) (s s' : List Bool) (r : List UInt8 × C.σ × List Bool)
    (hh : readBlockHeader s = some (some (N, k, g), s')) (hd : decodeSlices C junk fuel N k [] st s' = some r) :
    headerRequests B s = [.take ((N + 1) % 2 ^ 64), .take (k * B)] ∧ k ≤ r.1.length ∧ r.1.length ≤ N := by
  have hc := decodeSlices_count k [] st s' r (Nat.zero_le _) hd
  rw [List.length_nil, Nat.zero_add] at hc
  refine ⟨?_, hc⟩
  rw [readBlockHeader] at hh
  simp only [Option.bind_eq_bind, Option.bind_eq_some_iff] at hh
  obtain ⟨⟨size, q, s1⟩, e1, hh⟩ := hh
  simp only at hh
  split at hh
  · cases hh
  · rename_i h0
    simp only [Option.bind_eq_some_iff] at hh
    obtain ⟨⟨sl, q2, s2⟩, e2, ⟨g', s3⟩, _, e3⟩ := hh
    cases e3
    rw [headerRequests, e1]
    simp only []
    rw [if_neg h0, e2]

/-- Whenever the decompressor ends normally, no vector of slices has more entries than its block has bytes; the last header asks for one byte. -/
theorem C77_slices_partial (B : Nat) (junk : UInt8) (fuel : Nat) (file out : List UInt8) (h : decompress junk fuel file = some out) :
    ∀ q ∈ fileHeaders B junk fuel file, q = [.take 1] ∨ ∃ N k, q = [.take ((N + 1) % 2 ^ 64), .take (k * B)] ∧ k ≤ N := by
  rw [decompress] at h
  simp only [Option.bind_eq_bind, Option.bind_eq_some_iff] at h
  obtain ⟨⟨letter, s⟩, h1, h2⟩ := h
  rw [fileHeaders, h1]
  simp only [] at h2 ⊢
  generalize coderOf letter = C at *
  generalize C.init = st at *
  clear h1
  generalize file.length + 1 = f at *
  induction f generalizing st s out with
  | zero => intro q hq; cases hq
  | succ f ih =>
    intro q hq
    rw [decompressBlocks] at h2
    simp only [Option.bind_eq_bind, Option.bind_eq_some_iff] at h2
    obtain ⟨⟨hd, s'⟩, k1, h2⟩ := h2
    rw [headerLog, k1] at hq
    cases hd with
    | none =>
      simp only [List.mem_singleton] at hq
      left
      rw [hq]
      rw [readBlockHeader] at k1
      simp only [Option.bind_eq_bind, Option.bind_eq_some_iff] at k1
      obtain ⟨⟨size, n, s1⟩, e1, k1⟩ := k1
      simp only at k1
      split at k1
      · rename_i h0
        rw [headerRequests, e1]
        simp only []
        rw [if_pos h0, h0]
      · simp only [Option.bind_eq_some_iff] at k1
        obtain ⟨_, _, _, _, k1⟩ := k1
        cases k1
    | some p =>
      obtain ⟨N, k, g⟩ := p
      simp only [Option.bind_eq_some_iff] at h2
      obtain ⟨⟨data, st', s2⟩, k2, o, _, r, k3, _⟩ := h2
      simp only [k2, List.mem_cons] at hq
      rcases hq with rfl | hq
      · obtain ⟨e1, e2, e3⟩ := header_requests C junk fuel B N k g st s s' _ k1 k2
        exact .inr ⟨N, k, e1, Nat.le_trans e2 e3⟩
      · exact ih r _ _ k3 q hq

/-- Seven bytes that make the decompressor ask for a terabyte; it writes nothing. -/
theorem C77_fails : ¬ C77_claim := by
  intro h
  obtain ⟨w, w1, w2⟩ := C77_huge_request 72 0 0 (2 ^ 40) (by decide)
  have hw : packed (2 ^ 40) = some ([128, 128, 128, 128, 128, 32], 6) := by decide +kernel
  rw [hw] at w1
  obtain ⟨rfl, -⟩ := Prod.mk.inj (Option.some.inj w1)
  have h1 := h 0 0 _ _ (w2 [])
  have h2 : restored 0 0 (72 :: ([128, 128, 128, 128, 128, 32] ++ [])) = 0 := by
    have : decompress 0 0 (72 :: ([128, 128, 128, 128, 128, 32] ++ [])) = none := by decide +kernel
    rw [restored, this]
  rw [h2] at h1
  simp at h1

/-- Whenever the decompressor ends normally, every array is released, and at no time was more in use than seven times the largest block it
allocated and a quarter of a megabyte. -/
theorem C77_released_partial (junk : UInt8) (fuel : Nat) (file out : List UInt8) (h : decompress junk fuel file = some out) :
    held (DecMemory.events junk fuel file) = 0 ∧ ∃ N, (N = 0 ∨ Ev.take ((N + 1) % 2 ^ 64) ∈ DecMemory.events junk fuel file) ∧
      ∀ u, InUse (DecMemory.events junk fuel file) u → u ≤ 7 * N + 264217 := by
  rw [decompress] at h
  simp only [Option.bind_eq_bind, Option.bind_eq_some_iff] at h
  obtain ⟨⟨letter, s⟩, h1, h2⟩ := h
  obtain ⟨bl, h3, h4⟩ := loopLog_ok (fits letter) _ _ _ _ _ _ h2
  have he : DecMemory.events junk fuel file = bl.flatMap (blockEvs letter) ++ [.take 1, .give 1] := by
    rw [DecMemory.events, h1]
    exact h3
  rw [he]
  obtain ⟨N, n1, n2⟩ : ∃ N, (N = 0 ∨ ∃ p ∈ bl, p.1 = N) ∧ ∀ p ∈ bl, p.1 ≤ N := by
    clear h3 h4 he
    induction bl with
    | nil => exact ⟨0, .inl rfl, by simp⟩
    | cons p bl ih =>
      obtain ⟨N, i1, i2⟩ := ih
      by_cases hp : p.1 ≤ N
      · refine ⟨N, ?_, ?_⟩
        · rcases i1 with i1 | ⟨q, q1, q2⟩
          · exact .inl i1
          · exact .inr ⟨q, List.mem_cons_of_mem _ q1, q2⟩
        · intro q hq
          rcases List.mem_cons.mp hq with rfl | hq
          · exact hp
          · exact i2 q hq
      · refine ⟨p.1, .inr ⟨p, List.mem_cons_self, rfl⟩, ?_⟩
        intro q hq
        rcases List.mem_cons.mp hq with rfl | hq
        · exact Nat.le_refl _
        · have := i2 q hq
          omega
  obtain ⟨w1, w2⟩ := blocks_within (b := 7 * N + 264217) letter bl (by omega) fun p hp =>
    ⟨by have := n2 p hp; omega, fun d hd => by have := n2 p hp; have := h4 p hp d hd; omega⟩
  refine ⟨w2, N, ?_, fun u hu => w1.use hu⟩
  rcases n1 with n1 | ⟨p, p1, rfl⟩
  · exact .inl n1
  · refine .inr (List.mem_append_left _ (List.mem_flatMap.mpr ⟨p, p1, ?_⟩))
    rw [blockEvs]
    exact List.mem_cons_self

/-- The events of a file that the compressor wrote. -/
theorem written_log {o : Options} {e : Env} {input : List UInt8} {bs : List Block} (hin : input.length < 2 ^ 56)
    (hpl : planFrom o e (input.length + 1) (bwtBlock0 o) input = some bs)
    (hok : ∀ b ∈ bs, BlockOK (clampStarts o.starts) (fun _ => NoRun (2 ^ 29)) b) {fuel n : Nat} {file : List UInt8}
    (he : compress o e fuel input = some (file, n)) : ∃ N, ∀ fuel', N ≤ fuel' → ∀ junk (rest : List UInt8),
      DecMemory.events junk fuel' (file ++ rest) = (bs.map Block.sizes).flatMap (blockEvs o.letter) ++ [.take 1, .give 1] := by
  obtain ⟨R, hC⟩ := coder_sound o.letter e.cheap
  rw [compress] at he
  simp only [Option.bind_eq_bind, Option.bind_eq_some_iff, Option.pure_def, Option.some.injEq, Prod.mk.injEq] at he
  obtain ⟨⟨w, m⟩, e1, rfl, rfl⟩ := he
  obtain ⟨_, hw, _⟩ := blocks_read hC fuel _ _ _ _ (Nat.min_le_right _ _) hin hpl hok _ _ _ hC.init e1
  obtain ⟨t, N, h⟩ := blocks_log (fits o.letter) hC fuel _ _ _ _ (Nat.min_le_right _ _) hin hpl hok _ _ _ hC.init e1
  refine ⟨N, ?_⟩
  intro fuel' hf junk rest
  obtain ⟨k, hk⟩ : ∃ k, (o.letter :: (w ++ [0]) ++ rest).length + 1 = k + 1 + bs.length :=
    ⟨(o.letter :: (w ++ [0]) ++ rest).length - bs.length, by
      simp only [List.length_cons, List.length_append]
      omega⟩
  rw [DecMemory.events, hk, List.cons_append, bytesBits_cons, readByte_byteBits]
  simp only []
  rw [List.append_assoc, List.singleton_append, h fuel' hf junk (k + 1) (0 :: rest), loopLog, readVar_zero]
  simp only []
  rw [readEnd]

/-- Without preprocessing. -/
theorem written_plain (letter : UInt8) (starts memLimit : Nat) (e : Env) (input : List UInt8) (h6 : 6 ≤ memLimit)
    (hm : memLimit ≤ 2902000000) (hin : input.length < 2 ^ 56) {fuel n : Nat} {file : List UInt8}
    (he : compress ⟨letter, starts, 0, memLimit⟩ e fuel input = some (file, n)) : ∃ cs : List (List UInt8), ∃ N,
      InChunks (min (times0185 memLimit) maxBlock) input cs ∧ ∀ fuel', N ≤ fuel' → ∀ junk (rest : List UInt8),
        DecMemory.events junk fuel' (file ++ rest) =
          (cs.map fun c => (c.length, [c.length])).flatMap (blockEvs letter) ++ [.take 1, .give 1] := by
  obtain ⟨bs, p1, p2⟩ := plain_plan letter starts memLimit e input h6 hm
  obtain ⟨_, _, t3, _⟩ := times_bounds memLimit
  have t3 := t3 h6
  have hmx := maxBlock_pos
  obtain ⟨cs, hcs⟩ := InChunks.exists (n := min (times0185 memLimit) maxBlock) (by omega) _ input (Nat.le_refl _)
  have hpb : pbBlock ⟨letter, starts, 0, memLimit⟩ = min (times0185 memLimit) maxBlock := by
    rw [pbBlock, if_pos rfl, bwtBlock0]
  have hcs' := hcs
  rw [← hpb] at hcs'
  obtain ⟨f1, f2, f3⟩ := hcs.facts (by omega)
  have hpl := plan_plain (e := e) rfl (by omega) hcs' (input.length + 1) (by omega)
  rw [hpl, Option.some.injEq] at p1
  subst p1
  obtain ⟨N, h⟩ := written_log (o := ⟨letter, starts, 0, memLimit⟩) hin hpl p2 he
  refine ⟨cs, N, hcs, fun fuel' hf junk rest => ?_⟩
  rw [h fuel' hf junk rest, List.map_map]
  rfl

/-- A file compressed without preprocessing: everything is released, and what is in use is at most seven times the input, and at most 1.302
times the limit of the compressor, and a quarter of a megabyte. -/
theorem C77_written_partial (letter : UInt8) (starts memLimit : Nat) (e : Env) (input : List UInt8) (h6 : 6 ≤ memLimit)
    (hm : memLimit ≤ 2902000000) (hin : input.length < 2 ^ 56) (fuel n : Nat) (file : List UInt8)
    (he : compress ⟨letter, starts, 0, memLimit⟩ e fuel input = some (file, n)) : ∃ N, ∀ fuel', N ≤ fuel' → ∀ junk (rest : List UInt8),
      held (DecMemory.events junk fuel' (file ++ rest)) = 0 ∧ ∀ u, InUse (DecMemory.events junk fuel' (file ++ rest)) u →
        u ≤ 7 * input.length + 264217 ∧ 1000 * u ≤ 1302 * memLimit + 264217000 := by
  obtain ⟨cs, N, h1, h2⟩ := written_plain letter starts memLimit e input h6 hm hin he
  obtain ⟨_, t2, t3, _⟩ := times_bounds memLimit
  have t3 := t3 h6
  have hmx := maxBlock_pos
  obtain ⟨-, -, f3⟩ := h1.facts (by omega)
  refine ⟨N, fun fuel' hf junk rest => ?_⟩
  rw [h2 fuel' hf junk rest]
  have hL : ∀ p ∈ cs.map fun c => (c.length, [c.length]), (p.1 ≤ input.length ∧ 1000 * p.1 ≤ 186 * memLimit) ∧ ∀ d ∈ p.2, d ≤ p.1 := by
    intro p hp
    obtain ⟨c, hc, rfl⟩ := List.mem_map.mp hp
    obtain ⟨_, c2, c3⟩ := f3 c hc
    refine ⟨⟨c3, ?_⟩, by simp⟩
    simp only []
    generalize times0185 memLimit = x at *
    omega
  obtain ⟨w1, w2⟩ := blocks_within (b := 7 * input.length + 264217) letter _ (by omega) fun p hp =>
    ⟨by have := (hL p hp).1.1; omega, fun d hd => by have := (hL p hp).1.1; have := (hL p hp).2 d hd; omega⟩
  refine ⟨w2, fun u hu => ⟨w1.use hu, ?_⟩⟩
  obtain ⟨v1, _⟩ := blocks_within (b := 7 * (186 * memLimit / 1000 : Nat) + 264217) letter _ (by omega) fun p hp =>
    ⟨by have := (hL p hp).1.2; omega, fun d hd => by have := (hL p hp).1.2; have := (hL p hp).2 d hd; omega⟩
  have := v1.use hu
  omega

/-- The sizes of the blocks and slices with preprocessing. -/
theorem plan_sizes {o : Options} {e : Env} (h0 : o.rounds ≠ 0) (h1 : 1000000 ≤ o.memLimit) (h2 : o.memLimit < 2 ^ 64) :
    ∀ (f bwt : Nat) (input : List UInt8) (bs : List Block), bwt ≤ maxBlock → pbBlock o ≠ bwt → planFrom o e f bwt input = some bs →
      ∀ b ∈ bs, b.data.length ≤ pbBlock o ∧ b.data.length ≤ input.length ∧ ∀ s ∈ b.slices, s.length ≤ b.out.length ∧
        9 * s.length + 2 * b.out.length ≤ 2 * o.memLimit := by
  intro f
  induction f with
  | zero => intro _ _ _ _ _ h; simp [planFrom] at h
  | succ f ih =>
    intro bwt input bs hbwt hq h
    rw [planFrom] at h
    by_cases h3 : (input.take (pbBlock o)).length = 0
    · rw [if_pos h3, Option.some.injEq] at h
      subst h
      simp
    · rw [if_neg h3] at h
      simp only [Option.bind_eq_bind, Option.bind_eq_some_iff] at h
      obtain ⟨⟨b, bwt'⟩, h4, bs', h5, h6⟩ := h
      simp only [Option.pure_def, Option.some.injEq] at h6 h5
      subst h6
      obtain ⟨g1, g2, _, g4, _, _, _⟩ := frontBlock_facts hbwt h4
      have hd : (input.take (pbBlock o)).length ≤ pbBlock o := by rw [List.length_take]; exact Nat.min_le_left _ _
      have hd' : (input.take (pbBlock o)).length ≤ input.length := by rw [List.length_take]; exact Nat.min_le_right _ _
      obtain ⟨q1, q2⟩ := slices_small h1 h2 (by rw [if_neg h0]; exact hq) hd h4
      rw [if_neg h0] at q1
      intro x hx
      rcases List.mem_cons.mp hx with rfl | hx
      · refine ⟨by rw [g2]; exact hd, by rw [g2]; exact hd', fun s hs => ⟨?_, ?_⟩⟩
        · rw [← g4]
          exact (List.sublist_flatten_of_mem hs).length_le
        · have := q2 s hs
          rw [if_neg h0] at this
          exact this.2
      · obtain ⟨i1, i2, i3⟩ := ih bwt' (input.drop (pbBlock o)) bs' g1 q1 h5 x hx
        exact ⟨i1, Nat.le_trans i2 (by rw [List.length_drop]; omega), i3⟩

/-- A file compressed with preprocessing: everything is released, and what is in use is at most 1.832 times the limit of the compressor and a
quarter of a megabyte.  The hypothesis on the blocks is that of C56. -/
theorem C77_preprocessed_partial (letter : UInt8) (starts rounds memLimit : Nat) (e : Env) (input : List UInt8) (cs : List (List UInt8))
    (he : ∀ F, Initial F (e.table F)) (hb : rounds ≤ 1 ∨ ∃ y, e.beyond = some y ∧ 2 ^ 32 ≤ y) (hr : 1 ≤ rounds)
    (h20 : 1000000 ≤ memLimit) (hm : memLimit ≤ 2415000000) (hin : input.length < 2 ^ 56)
    (hcs : InChunks (times074 memLimit) input cs)
    (hpre : ∀ c ∈ cs, ∃ out g, precompress e.table e.beyond (e.small c.length) rounds (c ++ [e.junk]) c.length = some (out, g) ∧
      out.length ≤ c.length ∧ SafeRounds e.table e.beyond (e.small c.length) c.length rounds
        ⟨c ++ [e.junk], none, false, c.length, 0, empty⟩) (fuel : Nat) (file : List UInt8) (n : Nat)
    (hc : compress ⟨letter, starts, rounds, memLimit⟩ e fuel input = some (file, n)) :
    ∃ N, ∀ fuel', N ≤ fuel' → ∀ junk (rest : List UInt8),
      held (DecMemory.events junk fuel' (file ++ rest)) = 0 ∧ ∀ u, InUse (DecMemory.events junk fuel' (file ++ rest)) u →
        u ≤ 7 * input.length + 264217 ∧ 1000 * u ≤ 1832 * memLimit + 264217000 := by
  obtain ⟨bs, _, p1, p2⟩ := preprocessed_plan letter starts rounds memLimit e input cs he hb hr (by omega) hm hcs hpre
  obtain ⟨N, h⟩ := written_log (o := ⟨letter, starts, rounds, memLimit⟩) hin p1 p2 hc
  have hr0 : rounds ≠ 0 := by omega
  have hpb := first_size ⟨letter, starts, rounds, memLimit⟩ h20
  rw [if_neg (show (⟨letter, starts, rounds, memLimit⟩ : Options).rounds ≠ 0 from hr0)] at hpb
  have ht := pbBlock_tight ⟨letter, starts, rounds, memLimit⟩
  rw [if_neg (show (⟨letter, starts, rounds, memLimit⟩ : Options).rounds ≠ 0 from hr0)] at ht
  have hs := plan_sizes (o := ⟨letter, starts, rounds, memLimit⟩) (e := e) hr0 h20 (by show memLimit < 2 ^ 64; omega) _ _ _ _
    (Nat.min_le_right _ _) hpb p1
  simp only [] at ht hs
  refine ⟨N, fun fuel' hf junk rest => ?_⟩
  rw [h fuel' hf junk rest]
  have hL : ∀ p ∈ bs.map Block.sizes, (p.1 ≤ input.length ∧ 1000 * p.1 ≤ 741 * memLimit) ∧ ∀ d ∈ p.2, d ≤ p.1 ∧ 11 * d ≤ 2 * memLimit := by
    intro p hp
    obtain ⟨b, hb, rfl⟩ := List.mem_map.mp hp
    obtain ⟨c1, c2, c3⟩ := hs b hb
    refine ⟨⟨c2, Nat.le_trans (Nat.mul_le_mul_left _ c1) ht⟩, fun d hd => ?_⟩
    obtain ⟨s, hs', rfl⟩ := List.mem_map.mp hd
    obtain ⟨c4, c5⟩ := c3 s hs'
    have := (p2 b hb).fits
    refine ⟨?_, by omega⟩
    show s.length ≤ b.data.length
    omega
  obtain ⟨w1, w2⟩ := blocks_within (b := 7 * input.length + 264217) letter (bs.map Block.sizes) (by omega) fun p hp =>
    ⟨by have := (hL p hp).1.1; omega, fun d hd => by have := (hL p hp).1.1; have := ((hL p hp).2 d hd).1; omega⟩
  refine ⟨w2, fun u hu => ⟨w1.use hu, ?_⟩⟩
  obtain ⟨v1, _⟩ := blocks_within (b := (741 * memLimit / 1000 + 6 * (2 * memLimit / 11) : Nat) + 264217) letter (bs.map Block.sizes) (by omega) fun p hp =>
    ⟨by have := (hL p hp).1.2; omega, fun d hd => by
      have i1 : p.1 ≤ 741 * memLimit / 1000 := (Nat.le_div_iff_mul_le (by decide)).mpr (by have := (hL p hp).1.2; omega)
      have i2 : d ≤ 2 * memLimit / 11 := (Nat.le_div_iff_mul_le (by decide)).mpr (by have := ((hL p hp).2 d hd).2; omega)
      omega⟩
  have := v1.use hu
  omega

theorem exceeds_sum (letter : UInt8) (m M : Nat) (h : m < 2 ^ 29) (t : 184 * M ≤ 1000 * m) : 1288 * (M : Int) + 264000000 ≤
    1000 * held (.take ((m + 1) % 2 ^ 64) :: (((if letter = 72 then [m, m * 4] else []).map .take ++
      (if letter = 72 then [m, m * 4] else []).map .give) ++ (inverseArrays m).map .take)) := by
  have e1 : held ((if letter = 72 then [m, m * 4] else []).map .take ++ (if letter = 72 then [m, m * 4] else []).map .give) = 0 := by
    split
    · simp only [List.map_cons, List.map_nil, List.cons_append, List.nil_append, held]
      omega
    · rfl
  have e2 : (m + 1) % 2 ^ 64 = m + 1 := Nat.mod_eq_of_lt (by omega)
  have e3 : 3 * ((m + 2) % 2 ^ 32 / 2) % 2 ^ 32 = 3 * ((m + 2) / 2) := by
    rw [Nat.mod_eq_of_lt (show m + 2 < 2 ^ 32 by omega), Nat.mod_eq_of_lt (by omega)]
  rw [held, held_append, e1, inverseArrays, e2, e3]
  simp only [List.map_cons, List.map_nil, held]
  omega

/-- With a full block the decompressor holds more than the limit that the compressor was given. -/
theorem C77_exceeds (letter : UInt8) (starts memLimit : Nat) (e : Env) (input : List UInt8) (h6 : 1000 ≤ memLimit)
    (hm : memLimit ≤ 2902000000) (hin : input.length < 2 ^ 56) (hfull : times0185 memLimit ≤ input.length) (fuel n : Nat) (file : List UInt8)
    (he : compress ⟨letter, starts, 0, memLimit⟩ e fuel input = some (file, n)) : ∃ N, ∀ fuel', N ≤ fuel' → ∀ junk (rest : List UInt8),
      ∃ u, InUse (DecMemory.events junk fuel' (file ++ rest)) u ∧ 1288 * memLimit + 264000000 ≤ 1000 * u := by
  obtain ⟨cs, N, h1, h2⟩ := written_plain letter starts memLimit e input (by omega) hm hin he
  have t := (times_tight memLimit).2 h6
  have hsm := times0185_small hm
  refine ⟨N, fun fuel' hf junk rest => ?_⟩
  rw [h2 fuel' hf junk rest]
  have hmin : min (times0185 memLimit) maxBlock = times0185 memLimit := Nat.min_eq_left (by rw [maxBlock]; omega)
  rw [hmin] at h1
  generalize times0185 memLimit = x at *
  cases h1 with
  | nil => rw [List.length_nil] at hfull; omega
  | cons a b =>
    rw [List.map_cons, List.length_take, Nat.min_eq_left hfull, List.flatMap_cons, blockEvs, List.flatMap_cons, sliceEvs]
    refine ⟨_, ⟨.take ((x + 1) % 2 ^ 64) :: (((if letter = 72 then [x, x * 4] else []).map .take ++
      (if letter = 72 then [x, x * 4] else []).map .give) ++ (inverseArrays x).map .take), _, by
        simp only [List.append_assoc, List.cons_append]
        rfl, rfl⟩, ?_⟩
    exact exceeds_sum letter x memLimit (by omega) t

/-- The hypotheses of the bounds can be met: four bytes, with the Huffman coder. -/
example : ∃ N file n, compress ⟨72, 4, 0, 100⟩ sampleEnv N [97, 98, 97, 98] = some (file, n) := by
  obtain ⟨N, h⟩ := C38_huffman 4 100 sampleEnv [97, 98, 97, 98] (by decide) (by decide) (by decide)
  obtain ⟨file, h, _⟩ := h N (N + 1) (Nat.le_refl _) (Nat.lt_succ_self _)
  exact ⟨N, file, _, h⟩

/-- A full block, and a file for it. -/
theorem exceeds_met (m : Nat) (h1 : 1000 ≤ m) (h2 : m ≤ 2902000000) : ∃ input : List UInt8, times0185 m ≤ input.length ∧ input.length < 2 ^ 56 ∧
    ∃ N file n, compress ⟨72, 8, 0, m⟩ sampleEnv N input = some (file, n) := by
  have hsm := times0185_small h2
  refine ⟨List.replicate (times0185 m) 97, by rw [List.length_replicate]; exact Nat.le_refl _, by rw [List.length_replicate]; omega, ?_⟩
  obtain ⟨N, h⟩ := C38_huffman 8 m sampleEnv (List.replicate (times0185 m) 97) (by omega) h2 (by rw [List.length_replicate]; omega)
  obtain ⟨file, h, _⟩ := h N (N + 1) (Nat.le_refl _) (Nat.lt_succ_self _)
  exact ⟨N, file, _, h⟩

example : ∃ N file out, decompress 0 N file = some out ∧ out = [97, 98, 97, 98] := by
  obtain ⟨N, h⟩ := C38_huffman 4 100 sampleEnv [97, 98, 97, 98] (by decide) (by decide) (by decide)
  obtain ⟨file, _, h⟩ := h N (N + 1) (Nat.le_refl _) (Nat.lt_succ_self _)
  exact ⟨N + 1, file ++ [], _, h 0 [], rfl⟩

/-- The hypotheses of `C77_preprocessed_partial` are met: five bytes with three rounds, for which the decompressor needs at most 264252 bytes. -/
example : ∃ fuel file n N, compress ⟨72, 1, 3, 100000000⟩ sampleEnv fuel [97, 98, 97, 98, 97] = some (file, n) ∧
    ∀ u, InUse (DecMemory.events 0 N (file ++ [])) u → u ≤ 264252 := by
  have hf : 5 ≤ times074 100000000 := by decide +kernel
  obtain ⟨N, h⟩ := C38_preprocessed_short 1 3 100000000 sampleEnv [97, 98, 97, 98, 97] makeTable_initial (.inr ⟨_, rfl, by decide⟩)
    (by decide) (by decide) (by decide) (by decide) (by decide) hf (by decide)
  obtain ⟨file, h, _⟩ := h N (N + 1) (Nat.le_refl _) (Nat.lt_succ_self _)
  have hcs : InChunks (times074 100000000) [97, 98, 97, 98, 97] [[97, 98, 97, 98, 97]] := by
    have := InChunks.cons (n := times074 100000000) (l := [97, 98, 97, 98, 97]) (by decide) (cs := []) (by
      rw [List.drop_of_length_le hf]
      exact .nil)
    rwa [List.take_of_length_le hf] at this
  obtain ⟨M, h'⟩ := C77_preprocessed_partial 72 1 3 100000000 sampleEnv [97, 98, 97, 98, 97] _ makeTable_initial (.inr ⟨_, rfl, by decide⟩)
    (by decide) (by decide) (by decide) (by decide) hcs (by
      intro c hc
      rw [List.mem_singleton] at hc
      subst hc
      obtain ⟨s1, s2, _⟩ := C36_short_blocks sampleEnv.table makeTable_initial sampleEnv.beyond (sampleEnv.small 5)
        ([97, 98, 97, 98, 97] ++ [sampleEnv.junk]) 5 2 (by decide) (by decide) (by simp) (by decide)
      exact ⟨_, empty, s2, by decide, s1⟩) N file _ h
  exact ⟨N, file, _, M, h, fun u hu => ((h' M (Nat.le_refl _) 0 []).2 u hu).1⟩

end Bwtc.Props
