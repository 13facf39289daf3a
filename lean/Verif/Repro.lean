import Verif.ContainerProof

/-!
# What a compressed file depends on

Lemmas for C54 and C55.
-/

set_option autoImplicit false

namespace Bwtc.Container
open Varint Grammar PairReplace ProbModels FreqTable

/-- The slices of a block are coded alike whatever lies before and behind them in memory. -/
theorem encodeSlices_around (C : Coder) (cheap : List UInt8 → Nat → Nat → Nat × Nat → Bool) (fuel starts : Nat) (x y : UInt8) :
    ∀ (ss : List (List UInt8)) (pre pre' : List UInt8) (st : C.σ), (∀ s ∈ ss, s ≠ []) →
      encodeSlices C cheap fuel starts (ss.map List.length) (pre ++ (ss.flatten ++ [x])) pre.length st =
        encodeSlices C cheap fuel starts (ss.map List.length) (pre' ++ (ss.flatten ++ [y])) pre'.length st := by
  intro ss
  induction ss with
  | nil => intro _ _ _ _; rfl
  | cons s ss ih =>
    intro pre pre' st hne
    obtain ⟨s', lf, fr, h1, h2, _⟩ := FwdBWT.transform_spec s starts (List.replicate 256 0) (hne s (by simp)) (by rw [List.length_replicate])
    have hl := h2.length_eq
    have key : ∀ (pre : List UInt8) (z : UInt8), encodeSlices C cheap fuel starts ((s :: ss).map List.length)
        (pre ++ ((s :: ss).flatten ++ [z])) pre.length st = (C.encode cheap fuel st lf fr s').bind fun r =>
          (encodeSlices C cheap fuel starts (ss.map List.length) ((pre ++ s') ++ (ss.flatten ++ [z])) (pre ++ s').length r.2.2).bind
            fun q => some (r.1 ++ q.1, r.2.1 + q.2.1, q.2.2) := by
      intro pre z
      obtain ⟨n, p, hz⟩ : ∃ n p, ss.flatten ++ [z] = n :: p := by
        cases h : ss.flatten ++ [z] with
        | nil => simp at h
        | cons n p => exact ⟨n, p, rfl⟩
      rw [List.flatten_cons, List.append_assoc, hz, List.map_cons, encodeSlices, ← List.append_assoc, h1]
      simp only [Option.bind_eq_bind, Option.bind_some]
      have hdt : ((pre ++ s' ++ n :: p).drop pre.length).take s.length = s' := by
        rw [List.append_assoc, List.drop_left, ← hl, List.take_left]
      rw [hdt, List.length_append, hl]
      rfl
    rw [key pre x, key pre' y]
    congr 1
    funext r
    rw [ih (pre ++ s') (pre' ++ s') r.2.2 (fun t ht => hne t (List.mem_cons_of_mem _ ht))]

/-- Without preprocessing a block is handled the same way in every environment. -/
theorem frontBlock_plain {o : Options} (h : o.rounds = 0) (e e' : Env) (bwt : Nat) (data : List UInt8) :
    frontBlock o e bwt data = frontBlock o e' bwt data := by
  rw [frontBlock, frontBlock, precompress_zero h, precompress_zero h]

theorem compressBlocks_env (C : Coder) {o : Options} (h : o.rounds = 0) {e e' : Env} (hc : C.encode e.cheap = C.encode e'.cheap) (fuel : Nat) :
    ∀ (f bwt : Nat) (st : C.σ) (input : List UInt8), bwt ≤ maxBlock →
      compressBlocks C o e fuel f bwt st input = compressBlocks C o e' fuel f bwt st input := by
  intro f
  induction f with
  | zero => intro _ _ _ _; rfl
  | succ f ih =>
    intro bwt st input hb
    rw [compressBlocks, compressBlocks]
    split
    · rfl
    · rw [frontBlock_plain h e' e]
      cases hf : frontBlock o e bwt (input.take (pbBlock o)) with
      | none => rfl
      | some r =>
        obtain ⟨b, bwt'⟩ := r
        obtain ⟨g1, _, _, g4, _, _, g7⟩ := frontBlock_facts hb hf
        simp only [Option.bind_eq_bind, Option.bind_some]
        congr 1
        funext hx
        have hs : ∀ st, encodeSlices C e.cheap fuel (clampStarts o.starts) (b.slices.map List.length) (b.out ++ [e.junk]) 0 st =
            encodeSlices C e'.cheap fuel (clampStarts o.starts) (b.slices.map List.length) (b.out ++ [e'.junk]) 0 st := by
          intro st
          have h1 := encodeSlices_around C e.cheap fuel (clampStarts o.starts) e.junk e'.junk b.slices [] [] st (fun s hs => (g7 s hs).1)
          rw [g4, List.nil_append, List.nil_append, List.length_nil] at h1
          rw [h1]
          generalize b.out ++ [e'.junk] = mem
          generalize 0 = pos
          generalize b.slices.map List.length = lens
          clear h1
          induction lens generalizing mem pos st with
          | nil => rfl
          | cons n lens ih => rw [encodeSlices, encodeSlices, hc]; simp only [ih]
        rw [hs]
        congr 1
        funext q
        rw [ih bwt' q.2.2 _ g1]

/-- The bound of the rounds does not matter. -/
theorem compressBlocks_fuel (C : Coder) (o : Options) (e : Env) (fuel : Nat) :
    ∀ (f f' bwt : Nat) (st : C.σ) (input : List UInt8), input.length < f → input.length < f' →
      compressBlocks C o e fuel f bwt st input = compressBlocks C o e fuel f' bwt st input := by
  intro f
  induction f with
  | zero => intro _ _ _ _ h; omega
  | succ f ih =>
    intro f' bwt st input h h'
    obtain ⟨f', rfl⟩ : ∃ k, f' = k + 1 := ⟨f' - 1, by omega⟩
    rw [compressBlocks, compressBlocks]
    split
    · rfl
    · next h0 =>
      have hd : (input.drop (pbBlock o)).length < f ∧ (input.drop (pbBlock o)).length < f' := by
        rw [List.length_take] at h0
        rw [List.length_drop]
        omega
      simp only [ih f' _ _ _ hd.1 hd.2]

/-- Blocks coded by a coder without memory do not influence each other. -/
theorem compressBlocks_append {o : Options} (h : o.rounds = 0) (e : Env) (fuel : Nat) (b : List UInt8) (hB : 0 < pbBlock o) :
    ∀ (k : Nat) (a : List UInt8) (f : Nat), a.length = k * pbBlock o → (a ++ b).length < f →
      compressBlocks huffman o e fuel f (bwtBlock0 o) huffman.init (a ++ b) =
        (compressBlocks huffman o e fuel f (bwtBlock0 o) huffman.init a).bind fun r =>
          (compressBlocks huffman o e fuel f (bwtBlock0 o) huffman.init b).bind fun q => some (r.1 ++ q.1, r.2 + q.2) := by
  have hpb : pbBlock o = bwtBlock0 o := by rw [pbBlock, if_pos h]
  intro k
  induction k with
  | zero =>
    intro a f ha hf
    rw [Nat.zero_mul] at ha
    obtain rfl := List.length_eq_zero_iff.mp ha
    obtain ⟨f, rfl⟩ : ∃ j, f = j + 1 := ⟨f - 1, by omega⟩
    rw [List.nil_append]
    have : compressBlocks huffman o e fuel (f + 1) (bwtBlock0 o) huffman.init [] = some ([], 0) := by
      rw [compressBlocks, if_pos (by simp)]
    rw [this]
    simp only [Option.bind_some, List.nil_append, Nat.zero_add]
    cases compressBlocks huffman o e fuel (f + 1) (bwtBlock0 o) huffman.init b <;> rfl
  | succ k ih =>
    intro a f ha hf
    obtain ⟨f, rfl⟩ : ∃ j, f = j + 1 := ⟨f - 1, by omega⟩
    rw [Nat.add_mul, Nat.one_mul] at ha
    have hd : (a.drop (pbBlock o)).length = k * pbBlock o := by rw [List.length_drop]; omega
    have hl : pbBlock o ≤ a.length := by omega
    have ht : (a ++ b).take (pbBlock o) = a.take (pbBlock o) := List.take_append_of_le_length hl
    have hdr : (a ++ b).drop (pbBlock o) = a.drop (pbBlock o) ++ b := List.drop_append_of_le_length hl
    have hne : ¬ (a.take (pbBlock o)).length = 0 := by rw [List.length_take]; omega
    have hfl : (a.drop (pbBlock o) ++ b).length < f := by
      rw [List.length_append, hd]
      rw [List.length_append] at hf
      omega
    have hbf : compressBlocks huffman o e fuel (f + 1) (bwtBlock0 o) huffman.init b = compressBlocks huffman o e fuel f (bwtBlock0 o) huffman.init b :=
      compressBlocks_fuel huffman o e fuel _ _ _ _ _ (by rw [List.length_append] at hf; omega) (by rw [List.length_append] at hfl; omega)
    rw [hbf, compressBlocks, compressBlocks, ht, hdr, if_neg hne, if_neg hne]
    cases hfb : frontBlock o e (bwtBlock0 o) (a.take (pbBlock o)) with
    | none => rfl
    | some r =>
      obtain ⟨bl, bwt'⟩ := r
      obtain ⟨_, _, _, _, _, g6, _⟩ := frontBlock_facts (Nat.min_le_right _ _) hfb
      have hbw : bwt' = bwtBlock0 o := g6 h hpb.symm
      rw [hbw]
      simp only [Option.bind_eq_bind, Option.bind_some]
      cases writeBlockHeader bl.data.length bl.slices.length bl.g with
      | none => rfl
      | some hx =>
        simp only [Option.bind_some]
        cases encodeSlices huffman e.cheap fuel (clampStarts o.starts) (bl.slices.map List.length) (bl.out ++ [e.junk]) 0 huffman.init with
        | none => rfl
        | some q =>
          simp only [Option.bind_some]
          have := ih (a.drop (pbBlock o)) f hd hfl
          rw [show q.2.2 = huffman.init from rfl, this]
          cases compressBlocks huffman o e fuel f (bwtBlock0 o) huffman.init (a.drop (pbBlock o)) with
          | none => rfl
          | some u =>
            simp only [Option.bind_some, Option.pure_def]
            cases compressBlocks huffman o e fuel f (bwtBlock0 o) huffman.init b with
            | none => rfl
            | some v =>
              simp only [Option.bind_some, List.append_assoc, Nat.add_assoc]

end Bwtc.Container
