import Verif.WaveSound
import Verif.Props.Container

/-!
# Files that were written are restored

The lemmas of `ContainerProof` again, for coders that may fail: from the success of the compressor instead of
the totality of the coder.
-/

set_option autoImplicit false

namespace Bwtc.Container
open Varint Grammar PairReplace ProbModels FreqTable

/-- The coder restores, from the same state, what it has encoded: whenever the encoder gets through a block that is `ok`. -/
structure Coder.Sound (C : Coder) (cheap : List UInt8 → Nat → Nat → Nat × Nat → Bool) (R : C.σ → Prop)
    (ok : List Nat → List UInt8 → Prop) : Prop where
  init : R C.init
  block : ∀ (powers stats : List Nat) (data : List UInt8), 1 ≤ powers.length → powers.length ≤ 256 →
    (∀ p ∈ powers, p < 2 ^ 31) → stats.length ≤ 256 → stats.sum = data.length → data ≠ [] → data.length < 2 ^ 31 →
    ok stats data → ∀ (fuel : Nat) (st t : C.σ) (w : List UInt8) (n : Nat), R st →
      C.encode cheap fuel st powers stats data = some (w, n, t) →
      n = w.length ∧ R t ∧ 16 ≤ (bytesBits w).length ∧ ∃ N, ∀ fuel', N ≤ fuel' → ∀ rest : List UInt8,
        C.decode fuel' st (bytesBits (w ++ rest)) = some (⟨powers, data, data.length⟩, t, bytesBits rest)

theorem slices_sound {C : Coder} {cheap : List UInt8 → Nat → Nat → Nat × Nat → Bool} {R : C.σ → Prop}
    {ok : List Nat → List UInt8 → Prop} (hC : C.Sound cheap R ok) (starts fuel : Nat) : ∀ sl : List (List UInt8),
    (∀ s ∈ sl, s ≠ [] ∧ s.length < 2 ^ 31 - 1 ∧ SliceOK starts ok s) → ∀ (pre : List UInt8) (next : UInt8) (post : List UInt8)
      (st t : C.σ) (w : List UInt8) (n : Nat), R st →
      encodeSlices C cheap fuel starts (sl.map List.length) (pre ++ sl.flatten ++ next :: post) pre.length st = some (w, n, t) →
      n = w.length ∧ R t ∧ ∃ N, ∀ fuel', N ≤ fuel' → ∀ junk cap acc, acc.length + sl.flatten.length ≤ cap →
        ∀ rest : List UInt8, decodeSlices C junk fuel' cap sl.length acc st (bytesBits (w ++ rest)) =
          some (acc ++ sl.flatten, t, bytesBits rest) := by
  intro sl
  induction sl with
  | nil =>
    intro _ pre next post st t w n hst he
    simp only [List.map_nil, encodeSlices, Option.some.injEq, Prod.mk.injEq] at he
    obtain ⟨rfl, rfl, rfl⟩ := he
    exact ⟨rfl, hst, 0, fun _ _ _ _ acc _ rest => by simp [decodeSlices]⟩
  | cons s sl ih =>
    intro h pre next post st t w n hst he
    obtain ⟨hne, hlen, hok⟩ := h s (by simp)
    obtain ⟨s', lf, freqs, h1, h2, h3, h4, h5, h6, h7⟩ := FwdBWT.transform_spec s starts
      (List.replicate 256 0) hne (by rw [List.length_replicate])
    obtain ⟨_, p2, _⟩ := FwdBWT.prepare_length s.length starts
    have hl' : s'.length = s.length := h2.length_eq
    have hsum : freqs.sum = s'.length := by
      rw [h6.2.2, List.sum_replicate_nat, List.length_reverse]
      omega
    have hfl : freqs.length = 256 := by rw [h6.1, List.length_replicate]
    obtain ⟨n', post', hn'⟩ : ∃ n' post', sl.flatten ++ next :: post = n' :: post' := by
      cases hf : sl.flatten with
      | nil => exact ⟨next, post, rfl⟩
      | cons x l => exact ⟨x, l ++ next :: post, rfl⟩
    have hmem : pre ++ (s :: sl).flatten ++ next :: post = pre ++ s ++ n' :: post' := by
      rw [← hn']; simp
    have hmem' : pre ++ s' ++ n' :: post' = (pre ++ s') ++ sl.flatten ++ next :: post := by
      rw [← hn']; simp
    have htake : ((pre ++ s' ++ n' :: post').drop pre.length).take s.length = s' := by
      rw [List.append_assoc, List.drop_left, ← hl', List.take_left]
    rw [List.map_cons, encodeSlices, hmem, h1 pre n' post'] at he
    simp only [Option.bind_eq_bind, Option.bind_some, htake, Option.bind_eq_some_iff] at he
    obtain ⟨⟨a, x, t1⟩, e1, ⟨b, y, t2⟩, e2, he⟩ := he
    simp only [Option.pure_def, Option.some.injEq, Prod.mk.injEq] at he
    obtain ⟨rfl, rfl, rfl⟩ := he
    obtain ⟨a1, a2, a3, N1, a4⟩ := hC.block lf freqs s' h4.1 (by omega) (fun p hp => by have := h5 p hp; omega)
      (by omega) hsum (by
        intro hc
        rw [hc] at hl'
        exact hne (List.length_eq_zero_iff.mp hl'.symm)) (by omega)
      (hok s' lf freqs (h1 [] 0 [])) fuel st t1 a x hst e1
    simp only [] at e2
    rw [hmem', show pre.length + s.length = (pre ++ s').length by rw [List.length_append, hl']] at e2
    obtain ⟨b1, b2, N2, b3⟩ := ih (fun x hx => h x (by simp [hx])) (pre ++ s') next post t1 t2 b y a2 e2
    refine ⟨by simp only [List.length_append, a1, b1], b2, max N1 N2, ?_⟩
    intro fuel' hf' junk cap acc hcap rest
    rw [List.flatten_cons, List.length_append] at hcap
    obtain ⟨z, hz⟩ := h7 junk
    rw [List.length_cons, decodeSlices, List.append_assoc, if_neg (by
      rw [bytesBits_append, List.length_append]; omega), a4 fuel' (by omega)]
    simp only [Option.bind_eq_bind, Option.bind_some]
    rw [if_neg (by simp only [hl']; omega), hz]
    simp only [Option.bind_some]
    rw [b3 fuel' (by omega) junk cap (acc ++ s) (by rw [List.length_append]; omega) rest, List.append_assoc, List.flatten_cons]

/-- The blocks are read back, and the decompressor goes on behind them. -/
theorem blocks_read {C : Coder} {o : Options} {e : Env} {R : C.σ → Prop} {ok : List Nat → List UInt8 → Prop}
    (hC : C.Sound e.cheap R ok) (fuel : Nat) : ∀ (f bwt : Nat) (input : List UInt8) (bs : List Block), bwt ≤ maxBlock →
      input.length < 2 ^ 56 → planFrom o e f bwt input = some bs →
      (∀ b ∈ bs, BlockOK (clampStarts o.starts) ok b) → ∀ (st : C.σ) (w : List UInt8) (n : Nat), R st →
      compressBlocks C o e fuel f bwt st input = some (w, n) → n = w.length ∧ bs.length ≤ w.length ∧
        ∃ t N, ∀ fuel', N ≤ fuel' → ∀ junk f' (rest : List UInt8),
          decompressBlocks C junk fuel' (f' + bs.length) st (bytesBits (w ++ rest)) =
            (decompressBlocks C junk fuel' f' t (bytesBits rest)).map ((bs.map Block.data).flatten ++ ·) := by
  intro f
  induction f with
  | zero => intro _ _ _ _ _ h; simp [planFrom] at h
  | succ f ih =>
    intro bwt input bs hbwt hin h hok st w n hst he
    rw [planFrom] at h
    rw [compressBlocks] at he
    by_cases h0 : (input.take (pbBlock o)).length = 0
    · rw [if_pos h0] at h he
      simp only [Option.some.injEq, Prod.mk.injEq] at h he
      subst h
      obtain ⟨rfl, rfl⟩ := he
      refine ⟨rfl, by simp, st, 0, ?_⟩
      intro fuel' _ junk f' rest
      simp
    · rw [if_neg h0] at h he
      simp only [Option.bind_eq_bind, Option.bind_eq_some_iff] at h
      obtain ⟨⟨b, bwt'⟩, h1, bs', h2, h3⟩ := h
      simp only [Option.pure_def, Option.some.injEq] at h3 h2
      subst h3
      obtain ⟨g1, g2, _, g4, _, _, g7⟩ := frontBlock_facts hbwt h1
      have hb := hok b (by simp)
      have hin' : (input.take (pbBlock o)).length ≤ input.length := by rw [List.length_take]; omega
      have hmx := maxBlock_lt
      have hfits := hb.fits
      have hsl := length_le_flatten b.slices fun s hs => (g7 s hs).1
      rw [g4] at hsl
      have hbl : b.data.length = (input.take (pbBlock o)).length := by rw [g2]
      obtain ⟨hd, hd1, hd2, hd3⟩ := header_roundtrip (n := b.data.length) (k := b.slices.length) (by omega) (by omega)
        (by omega) hb.restores
      rw [h1] at he
      simp only [Option.bind_eq_bind, Option.bind_some, hd1, Option.bind_eq_some_iff] at he
      obtain ⟨⟨v, y, t⟩, e1, ⟨r, z⟩, e2, he⟩ := he
      simp only [Option.pure_def, Option.some.injEq, Prod.mk.injEq] at he
      obtain ⟨rfl, rfl⟩ := he
      have e1 : encodeSlices C e.cheap fuel (clampStarts o.starts) (b.slices.map List.length)
          ([] ++ b.slices.flatten ++ e.junk :: []) ([] : List UInt8).length st = some (v, y, t) := by
        rw [List.nil_append, g4]
        exact e1
      obtain ⟨a1, a2, N1, a3⟩ := slices_sound hC (clampStarts o.starts) fuel b.slices (fun s hs =>
        ⟨(g7 s hs).1, by have := (g7 s hs).2; omega, hb.slices s hs⟩) _ _ _ _ _ _ _ hst e1
      simp only [] at e2
      obtain ⟨b1, b2, t', N2, b3⟩ := ih bwt' (input.drop (pbBlock o)) bs' g1 (by rw [List.length_drop]; omega) h2
        (fun x hx => hok x (by simp [hx])) t r z a2 e2
      refine ⟨by simp only [List.length_append, a1, b1], by rw [List.length_append, List.length_append, List.length_cons]; omega,
        t', max N1 N2, ?_⟩
      intro fuel' hf junk f' rest
      obtain ⟨g', q1, q2⟩ := hd3 (v ++ (r ++ rest))
      rw [List.length_cons, ← Nat.add_assoc, decompressBlocks, List.append_assoc, List.append_assoc, q1]
      simp only [Option.bind_eq_bind, Option.bind_some]
      have := a3 fuel' (by omega) junk b.data.length [] (by rw [g4, List.length_nil]; omega) (r ++ rest)
      rw [List.nil_append, g4] at this
      rw [this]
      simp only [Option.bind_some, q2]
      rw [b3 fuel' (by omega) junk f' rest]
      cases decompressBlocks C junk fuel' f' t' (bytesBits rest) <;> simp

theorem blocks_sound {C : Coder} {o : Options} {e : Env} {R : C.σ → Prop} {ok : List Nat → List UInt8 → Prop}
    (hC : C.Sound e.cheap R ok) (fuel f bwt : Nat) (input : List UInt8) (bs : List Block) (hbwt : bwt ≤ maxBlock)
    (hin : input.length < 2 ^ 56) (h : planFrom o e f bwt input = some bs)
    (hok : ∀ b ∈ bs, BlockOK (clampStarts o.starts) ok b) (st : C.σ) (w : List UInt8) (n : Nat) (hst : R st)
    (he : compressBlocks C o e fuel f bwt st input = some (w, n)) : n = w.length ∧ bs.length ≤ w.length ∧
      ∃ N, ∀ fuel', N ≤ fuel' → ∀ junk f', bs.length < f' → ∀ rest,
        decompressBlocks C junk fuel' f' st (bytesBits (w ++ 0 :: rest)) = some (bs.map Block.data).flatten := by
  obtain ⟨h1, h2, t, N, h3⟩ := blocks_read hC fuel f bwt input bs hbwt hin h hok st w n hst he
  refine ⟨h1, h2, N, ?_⟩
  intro fuel' hf' junk f' hf rest
  obtain ⟨k, rfl⟩ : ∃ k, f' = k + 1 + bs.length := ⟨f' - 1 - bs.length, by omega⟩
  rw [h3 fuel' hf' junk (k + 1) (0 :: rest), decompressBlocks, readEnd]
  simp

theorem container_sound {o : Options} {e : Env} {R : (coderOf o.letter).σ → Prop} {ok : List Nat → List UInt8 → Prop}
    (hC : (coderOf o.letter).Sound e.cheap R ok) {input : List UInt8} {bs : List Block} (hp : 0 < pbBlock o)
    (hin : input.length < 2 ^ 56) (h : planFrom o e (input.length + 1) (bwtBlock0 o) input = some bs)
    (hok : ∀ b ∈ bs, BlockOK (clampStarts o.starts) ok b) {fuel n : Nat} {file : List UInt8}
    (he : compress o e fuel input = some (file, n)) :
    n = file.length % 2 ^ 64 ∧ ∃ N, ∀ fuel', N ≤ fuel' → ∀ junk (rest : List UInt8),
      decompress junk fuel' (file ++ rest) = some input := by
  have hb : bwtBlock0 o ≤ maxBlock := Nat.min_le_right _ _
  rw [compress] at he
  simp only [Option.bind_eq_bind, Option.bind_eq_some_iff, Option.pure_def, Option.some.injEq, Prod.mk.injEq] at he
  obtain ⟨⟨w, m⟩, e1, rfl, rfl⟩ := he
  obtain ⟨a1, a2, N, a3⟩ := blocks_sound hC fuel _ _ _ _ hb hin h hok _ _ _ hC.init e1
  refine ⟨?_, N, ?_⟩
  · simp only [List.length_cons, List.length_append, List.length_nil, a1]
    congr 1
    omega
  · intro fuel' hf' junk rest
    rw [decompress, List.cons_append, bytesBits_cons, readByte_byteBits]
    simp only [Option.bind_eq_bind, Option.bind_some]
    rw [List.append_assoc, List.singleton_append, a3 fuel' hf' junk _ (by simp; omega) rest, plan_data hp _ _ _ _ h hb]

/-- Without its end marker a file is not read to the end. -/
theorem container_cut {o : Options} {e : Env} {R : (coderOf o.letter).σ → Prop} {ok : List Nat → List UInt8 → Prop}
    (hC : (coderOf o.letter).Sound e.cheap R ok) {input : List UInt8} {bs : List Block}
    (hin : input.length < 2 ^ 56) (h : planFrom o e (input.length + 1) (bwtBlock0 o) input = some bs)
    (hok : ∀ b ∈ bs, BlockOK (clampStarts o.starts) ok b) {fuel n : Nat} {file : List UInt8}
    (he : compress o e fuel input = some (file, n)) :
    ∃ N, ∀ fuel', N ≤ fuel' → ∀ junk, decompress junk fuel' file.dropLast = none := by
  have hb : bwtBlock0 o ≤ maxBlock := Nat.min_le_right _ _
  rw [compress] at he
  simp only [Option.bind_eq_bind, Option.bind_eq_some_iff, Option.pure_def, Option.some.injEq, Prod.mk.injEq] at he
  obtain ⟨⟨w, m⟩, e1, rfl, rfl⟩ := he
  obtain ⟨a1, a2, t, N, a3⟩ := blocks_read hC fuel _ _ _ _ hb hin h hok _ _ _ hC.init e1
  refine ⟨N, ?_⟩
  intro fuel' hf' junk
  have hd : (o.letter :: (w ++ [0])).dropLast = o.letter :: w := by
    rw [← List.cons_append, List.dropLast_concat]
  rw [hd, decompress, bytesBits_cons, readByte_byteBits]
  simp only [Option.bind_eq_bind, Option.bind_some]
  obtain ⟨k, hk⟩ : ∃ k, (o.letter :: w).length + 1 = k + 1 + bs.length := ⟨(o.letter :: w).length - bs.length, by
    rw [List.length_cons]; omega⟩
  have := a3 fuel' hf' junk (k + 1) []
  rw [List.append_nil] at this
  have h0 : readBlockHeader (bytesBits []) = none := by
    rw [readBlockHeader, readVar, readVarGo]
    rfl
  rw [hk, this, decompressBlocks, h0]
  rfl

/-! ## The coders -/

theorem huffman_sound (cheap : List UInt8 → Nat → Nat → Nat × Nat → Bool) :
    huffman.Sound cheap (fun _ => True) (fun _ => NoRun (2 ^ 29)) := by
  refine ⟨trivial, ?_⟩
  intro powers stats data h1 h2 h3 h4 h5 h6 h7 h8 fuel st t w n _ he
  obtain ⟨w', w1, w2, _, w4⟩ := Props.C22_huffman_block_partial powers stats data h1 h2 h3 h4 h5 h6 h7 h8
  simp only [huffman, w1, Option.map_some, Option.some.injEq, Prod.mk.injEq] at he
  obtain ⟨rfl, rfl, _⟩ := he
  refine ⟨rfl, trivial, w4, 0, fun fuel' _ rest => ?_⟩
  simp only [huffman, w2]
  rfl

open WaveBlock in
theorem wavelet_sound {σ : Type} {P : Model σ} {I : σ → Prop} (hP : Sane P I)
    (cheap : List UInt8 → Nat → Nat → Nat × Nat → Bool) :
    ∃ R, (wavelet P).Sound cheap R (fun _ => NoRun (2 ^ 30)) := by
  obtain ⟨K, hK⟩ : ∃ K, Safe integerModel K := ⟨_, fsm_safe (by omega) (unbiased_safe (by omega) (by omega) (by omega))⟩
  obtain ⟨J, hJ⟩ : ∃ J, Safe gapModel J := ⟨_, fsm_safe (by omega) (unbiased_safe (by omega) (by omega) (by omega))⟩
  have hK := sane_of_safe hK
  have hJ := sane_of_safe hJ
  refine ⟨Fine I K J, ⟨hP.init, hK.init, hJ.init⟩, ?_⟩
  intro powers stats data h1 h2 h3 h4 h5 h6 h7 h8 fuel st t w n hst he
  exact block_sound hP hK hJ h1 h2 h3 h4 h5 h6 h7 h8 hst he

theorem noRun_mono {n m : Nat} (h : n ≤ m) {l : List UInt8} (hl : NoRun n l) : NoRun m l := by
  intro c hc
  refine hl c (List.IsInfix.trans ?_ hc)
  have : List.replicate m c = List.replicate n c ++ List.replicate (m - n) c := by
    rw [List.replicate_append_replicate, Nat.add_sub_cancel' h]
  rw [this]
  exact (List.prefix_append _ _).isInfix

/-- Every coder the program can choose. -/
theorem coder_sound (letter : UInt8) (cheap : List UInt8 → Nat → Nat → Nat × Nat → Bool) :
    ∃ R, (coderOf letter).Sound cheap R (fun _ => NoRun (2 ^ 29)) := by
  have weaken : ∀ C : Coder, (∃ R, C.Sound cheap R (fun _ => NoRun (2 ^ 30))) → ∃ R, C.Sound cheap R (fun _ => NoRun (2 ^ 29)) := by
    rintro C ⟨R, h⟩
    exact ⟨R, h.init, fun powers stats data h1 h2 h3 h4 h5 h6 h7 h8 =>
      h.block powers stats data h1 h2 h3 h4 h5 h6 h7 (noRun_mono (by omega) h8)⟩
  obtain ⟨C, hC⟩ : ∃ C, C = coderOf letter := ⟨_, rfl⟩
  rw [← hC]
  rw [coderOf] at hC
  split at hC
  · subst hC
    exact ⟨_, huffman_sound cheap⟩
  split at hC
  · subst hC
    exact weaken _ (wavelet_sound (WaveBlock.markov_sane 8) cheap)
  split at hC
  · subst hC
    exact weaken _ (wavelet_sound (WaveBlock.markov_sane 16) cheap)
  split at hC
  · subst hC
    exact weaken _ (wavelet_sound (P := modelU) (WaveBlock.sane_of_safe (evenInterval_safe (by decide) (by decide))) cheap)
  split at hC
  · subst hC
    exact weaken _ (wavelet_sound (P := modelb) (WaveBlock.sane_of_safe (fsm_safe (by decide)
      (evenInterval_safe (by decide) (by decide)))) cheap)
  · subst hC
    obtain ⟨I, hI⟩ := Props.modelB_safe
    exact weaken _ (wavelet_sound (P := modelB) (WaveBlock.sane_of_safe hI) cheap)

end Bwtc.Container
