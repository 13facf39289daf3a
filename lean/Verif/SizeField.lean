import Verif.Sound

/-!
# A changed size field

What the decompressor does with a file whose first block has another number in the size field.
-/

set_option autoImplicit false

namespace Bwtc.Container
open Varint Grammar PairReplace ProbModels FreqTable

/-- The first slice is decoded to as many bytes as it has, whatever memory there is. -/
theorem first_slice {C : Coder} {cheap : List UInt8 → Nat → Nat → Nat × Nat → Bool} {R : C.σ → Prop}
    {ok : List Nat → List UInt8 → Prop} (hC : C.Sound cheap R ok) (starts fuel : Nat) (s : List UInt8) (sl : List (List UInt8))
    (hne : s ≠ []) (hlen : s.length < 2 ^ 31 - 1) (hok : SliceOK starts ok s) (next : UInt8) (st t : C.σ) (w : List UInt8) (n : Nat) (hst : R st)
    (he : encodeSlices C cheap fuel starts ((s :: sl).map List.length) ((s :: sl).flatten ++ [next]) 0 st = some (w, n, t)) :
    ∃ N, ∀ fuel', N ≤ fuel' → ∀ rest : List UInt8, ∃ d t' r, C.decode fuel' st (bytesBits (w ++ rest)) = some (d, t', r) ∧
      d.size = s.length ∧ d.data.length = s.length := by
  obtain ⟨s', lf, freqs, h1, h2, h3, h4, h5, h6, h7⟩ := FwdBWT.transform_spec s starts
    (List.replicate 256 0) hne (by rw [List.length_replicate])
  obtain ⟨_, p2, _⟩ := FwdBWT.prepare_length s.length starts
  have hl' : s'.length = s.length := h2.length_eq
  have hsum : freqs.sum = s'.length := by
    rw [h6.2.2, List.sum_replicate_nat, List.length_reverse]
    omega
  have hfl : freqs.length = 256 := by rw [h6.1, List.length_replicate]
  obtain ⟨n', post', hn'⟩ : ∃ n' post', sl.flatten ++ [next] = n' :: post' := by
    cases hf : sl.flatten with
    | nil => exact ⟨next, [], rfl⟩
    | cons x l => exact ⟨x, l ++ [next], rfl⟩
  have hmem : (s :: sl).flatten ++ [next] = [] ++ s ++ n' :: post' := by
    rw [← hn']; simp
  have htake : (([] ++ s' ++ n' :: post').drop 0).take s.length = s' := by
    rw [List.nil_append, List.drop_zero, ← hl', List.take_left]
  have h1' : FwdBWT.transform ([] ++ s ++ n' :: post') 0 s.length starts (List.replicate 256 0) = some ([] ++ s' ++ n' :: post', lf, freqs) :=
    h1 [] n' post'
  rw [List.map_cons, encodeSlices, hmem, h1'] at he
  simp only [Option.bind_eq_bind, Option.bind_some, htake, Option.bind_eq_some_iff] at he
  obtain ⟨⟨a, x, t1⟩, e1, ⟨b, y, t2⟩, e2, he⟩ := he
  simp only [Option.pure_def, Option.some.injEq, Prod.mk.injEq] at he
  obtain ⟨rfl, rfl, rfl⟩ := he
  obtain ⟨a1, a2, a3, N1, a4⟩ := hC.block lf freqs s' h4.1 (by omega) (fun p hp => by have := h5 p hp; omega)
    (by omega) hsum (by
      intro hc
      rw [hc] at hl'
      exact hne (List.length_eq_zero_iff.mp hl'.symm)) (by omega)
    (hok s' lf freqs (h1 [] 0 [])) fuel st t1 a x hst e1
  refine ⟨N1, fun fuel' hf' rest => ⟨_, _, _, by rw [List.append_assoc]; exact a4 fuel' hf' (b ++ rest), hl', hl'⟩⟩

/-- The first block of a file, with another size in its header. -/
theorem blocks_resized {C : Coder} {o : Options} {e : Env} {R : C.σ → Prop} {ok : List Nat → List UInt8 → Prop}
    (hC : C.Sound e.cheap R ok) (fuel f bwt : Nat) (input : List UInt8) (b : Block) (bs : List Block) (hbwt : bwt ≤ maxBlock)
    (hin : input.length < 2 ^ 56) (h : planFrom o e (f + 1) bwt input = some (b :: bs))
    (hok : ∀ x ∈ b :: bs, BlockOK (clampStarts o.starts) ok x) (s0 : List UInt8) (sl : List (List UInt8)) (hs0 : b.slices = s0 :: sl) (st : C.σ) (w : List UInt8) (n : Nat) (hst : R st)
    (he : compressBlocks C o e fuel (f + 1) bwt st input = some (w, n)) :
    ∃ field tail, w = field ++ tail ∧ packed b.data.length = some (field, field.length) ∧ bs.length ≤ tail.length ∧
      ∀ m other k, m ≠ 0 → m < 2 ^ 56 → packed m = some (other, k) → ∃ N, ∀ fuel', N ≤ fuel' →
        (b.out.length ≤ m → ∀ junk f' (rest : List UInt8), bs.length + 1 < f' →
          decompressBlocks C junk fuel' f' st (bytesBits (other ++ tail ++ 0 :: rest)) =
            some ((b :: bs).map Block.data).flatten) ∧
        ∀ rest : List UInt8, ∃ g s d t r, readBlockHeader (bytesBits (other ++ tail ++ rest)) = some (some (m, b.slices.length, g), s) ∧
          C.decode fuel' st s = some (d, t, r) ∧ d.size = s0.length ∧ d.data.length = s0.length := by
  rw [planFrom] at h
  rw [compressBlocks] at he
  by_cases h0 : (input.take (pbBlock o)).length = 0
  · rw [if_pos h0] at h
    simp at h
  rw [if_neg h0] at h he
  simp only [Option.bind_eq_bind, Option.bind_eq_some_iff] at h
  obtain ⟨⟨b1, bwt'⟩, h1, bs1, h2, h3⟩ := h
  simp only [Option.pure_def, Option.some.injEq, List.cons.injEq] at h3 h2
  obtain ⟨rfl, rfl⟩ := h3
  obtain ⟨g1, g2, _, g4, _, _, g7⟩ := frontBlock_facts hbwt h1
  have hb := hok b1 (by simp)
  have hin' : (input.take (pbBlock o)).length ≤ input.length := by rw [List.length_take]; omega
  have hmx := maxBlock_lt
  have hfits := hb.fits
  have hsl := length_le_flatten b1.slices fun s hs => (g7 s hs).1
  rw [g4] at hsl
  have hbl : b1.data.length = (input.take (pbBlock o)).length := by rw [g2]
  obtain ⟨c, c1, c3⟩ := hb.restores
  obtain ⟨a, a1, a2, a3⟩ := packed_spec (n := b1.data.length) (by omega)
  obtain ⟨q, q1, _, q3⟩ := packed_spec (n := b1.slices.length) (by omega)
  have hd1 : writeBlockHeader b1.data.length b1.slices.length b1.g = some (a ++ q ++ c, a.length + q.length + c.length) := by
    rw [writeBlockHeader, a1, q1, c1]
    rfl
  rw [h1] at he
  simp only [Option.bind_eq_bind, Option.bind_some, hd1, Option.bind_eq_some_iff] at he
  obtain ⟨⟨v, y, t⟩, e1, ⟨r, z⟩, e2, he⟩ := he
  simp only [Option.pure_def, Option.some.injEq, Prod.mk.injEq] at he
  obtain ⟨rfl, rfl⟩ := he
  have e1' : encodeSlices C e.cheap fuel (clampStarts o.starts) (b1.slices.map List.length)
      ([] ++ b1.slices.flatten ++ e.junk :: []) ([] : List UInt8).length st = some (v, y, t) := by
    rw [List.nil_append, g4]
    exact e1
  obtain ⟨w1, w2, N1, w3⟩ := slices_sound hC (clampStarts o.starts) fuel b1.slices (fun s hs =>
    ⟨(g7 s hs).1, by have := (g7 s hs).2; omega, hb.slices s hs⟩) _ _ _ _ _ _ _ hst e1'
  simp only [] at e2
  obtain ⟨_, x2, N2, x3⟩ := blocks_sound hC fuel f bwt' (input.drop (pbBlock o)) bs1 g1 (by rw [List.length_drop]; omega) h2
    (fun x hx => hok x (by simp [hx])) t r z w2 e2
  have e0 : encodeSlices C e.cheap fuel (clampStarts o.starts) ((s0 :: sl).map List.length) ((s0 :: sl).flatten ++ [e.junk]) 0 st =
      some (v, y, t) := by
    rw [← hs0, g4]
    exact e1
  obtain ⟨N3, y3⟩ := first_slice hC (clampStarts o.starts) fuel s0 sl (g7 s0 (by rw [hs0]; simp)).1
    (by have := (g7 s0 (by rw [hs0]; simp)).2; omega) (hb.slices s0 (by rw [hs0]; simp)) e.junk st t v y hst e0
  refine ⟨a, q ++ c ++ v ++ r, by simp, a1, by simp only [List.length_append]; omega, ?_⟩
  intro m other k hm0 hm hp
  obtain ⟨a', p1, p2, p3⟩ := packed_spec hm
  rw [p1, Option.some.injEq, Prod.mk.injEq] at hp
  obtain ⟨rfl, _⟩ := hp
  have hhead : ∀ rest : List UInt8, ∃ g', readBlockHeader (bytesBits (a' ++ (q ++ c ++ v ++ r) ++ rest)) =
      some (some (m, b1.slices.length, g'), bytesBits (v ++ (r ++ rest))) ∧ postprocess g' b1.out = some b1.data := by
    intro rest
    obtain ⟨g', k1, k2⟩ := c3 (v ++ (r ++ rest))
    refine ⟨g', ?_, k2⟩
    rw [show a' ++ (q ++ c ++ v ++ r) ++ rest = a' ++ (q ++ (c ++ (v ++ (r ++ rest)))) by simp, readBlockHeader, bytesBits_append, p3]
    simp only [Option.bind_eq_bind, Option.bind_some]
    rw [if_neg hm0, bytesBits_append, q3]
    simp only [Option.bind_some]
    rw [k1]
    rfl
  refine ⟨max N1 (max N2 N3), fun fuel' hf => ⟨?_, ?_⟩⟩
  · intro hfit junk f' rest hf'
    obtain ⟨f1, rfl⟩ : ∃ x, f' = x + 1 := ⟨f' - 1, by omega⟩
    obtain ⟨g', k1, k2⟩ := hhead (0 :: rest)
    rw [decompressBlocks, k1]
    simp only [Option.bind_eq_bind, Option.bind_some]
    have := w3 fuel' (by omega) junk m [] (by rw [g4, List.length_nil]; omega) (r ++ 0 :: rest)
    rw [List.nil_append, g4] at this
    rw [this]
    simp only [Option.bind_some, k2]
    rw [x3 fuel' (by omega) junk f1 (by omega) rest]
    simp
  · intro rest
    obtain ⟨g', k1, _⟩ := hhead rest
    obtain ⟨d, t', r', d1, d2, d3⟩ := y3 fuel' (by omega) (r ++ rest)
    exact ⟨g', _, d, t', r', k1, d1, d2, d3⟩

end Bwtc.Container
