import Verif.ContainerProof

/-!
# The sizes returned are the numbers of bytes written
-/

set_option autoImplicit false

namespace Bwtc.Container
open Varint Grammar PairReplace FreqTable ProbModels RangeCoder

/-- What is expected of a coded block: the size counted is the number of bytes, and the length field holds the number of bytes
that follow it (modulo `2^48`). -/
def Sized (w : List UInt8) (n : Nat) : Prop :=
  n = w.length ∧ 6 ≤ w.length ∧ w.take 6 = packBits (bitsOf 48 (w.length - 6))

theorem sized_of {h body : List UInt8} {k n : Nat} (hk : k = h.length) (hn : n = body.length) :
    Sized (packBits (bitsOf 48 (k + n)) ++ h ++ body) (k + n + 6) := by
  have h6 : (packBits (bitsOf 48 (k + n))).length = 6 := by
    rw [packBits_length, bitsOf_length]
  have hl : (packBits (bitsOf 48 (k + n)) ++ h ++ body).length = k + n + 6 := by
    rw [List.length_append, List.length_append, h6]
    omega
  refine ⟨hl.symm, by omega, ?_⟩
  rw [hl, List.append_assoc, List.take_left' h6, Nat.add_sub_cancel]

theorem huff_section_size {sec w : List UInt8} {n : Nat} (h : HuffBlock.encodeSection sec = some (w, n)) : n = w.length := by
  simp only [HuffBlock.encodeSection, Option.bind_eq_bind, Option.bind_eq_some_iff, Option.pure_def, Option.some.injEq,
    Prod.mk.injEq] at h
  obtain ⟨⟨nRuns, fr, runs⟩, _, lens, _, clen, _, ⟨p, bytes⟩, h1, shape, _, code, _, cs, _, a, _, b, _, rfl, rfl⟩ := h
  simp only [List.length_append, (Sections.packInteger_size h1).1]

theorem huff_sections_size : ∀ {ns : List Nat} {data w : List UInt8} {n : Nat},
    HuffBlock.encodeSections ns data = some (w, n) → n = w.length := by
  intro ns
  induction ns with
  | nil =>
    intro data w n h
    simp only [HuffBlock.encodeSections, Option.some.injEq, Prod.mk.injEq] at h
    rw [← h.1, ← h.2]
    rfl
  | cons m ns ih =>
    intro data w n h
    rw [HuffBlock.encodeSections] at h
    split at h
    · exact ih h
    · split at h
      · simp only [Option.bind_eq_bind, Option.bind_eq_some_iff, Option.pure_def, Option.some.injEq, Prod.mk.injEq] at h
        obtain ⟨⟨a, x⟩, h1, ⟨b, y⟩, h2, rfl, rfl⟩ := h
        rw [List.length_append, huff_section_size h1, ih h2]
      · cases h

theorem huff_block_size {powers stats : List Nat} {data w : List UInt8} {n : Nat}
    (h : HuffBlock.encodeBlock powers stats data = some (w, n)) : Sized w n := by
  simp only [HuffBlock.encodeBlock, Option.bind_eq_bind, Option.bind_eq_some_iff, Option.pure_def, Option.some.injEq,
    Prod.mk.injEq] at h
  obtain ⟨⟨a, k⟩, h1, ⟨b, m⟩, h2, rfl, rfl⟩ := h
  exact sized_of (Sections.writeHeader_size h1) (huff_sections_size h2)

section
variable {σ : Type} {P : Model σ}

theorem wave_section_size {cheap : Nat → Nat → Nat × Nat → Bool} {fuel n : Nat} {st t : WaveBlock.States σ} {sec w : List UInt8}
    (h : WaveBlock.encodeSection P cheap fuel st sec = some (w, n, t)) : n = w.length := by
  simp only [WaveBlock.encodeSection, Option.bind_eq_bind, Option.bind_eq_some_iff, Option.pure_def, Option.some.injEq,
    Prod.mk.injEq] at h
  obtain ⟨⟨c, hp⟩, _, root, _, ⟨p, bytes⟩, h1, shape, _, ⟨items, t1⟩, _, t2, _, coded, _, rfl, rfl, rfl⟩ := h
  simp only [List.length_append, (Sections.packInteger_size h1).1]

theorem wave_sections_size {cheap : List UInt8 → Nat → Nat → Nat × Nat → Bool} {fuel : Nat} : ∀ {ns : List Nat}
    {data w : List UInt8} {n : Nat} {st t : WaveBlock.States σ},
    WaveBlock.encodeSections P cheap fuel ns st data = some (w, n, t) → n = w.length := by
  intro ns
  induction ns with
  | nil =>
    intro data w n st t h
    simp only [WaveBlock.encodeSections, Option.some.injEq, Prod.mk.injEq] at h
    rw [← h.1, ← h.2.1]
    rfl
  | cons m ns ih =>
    intro data w n st t h
    rw [WaveBlock.encodeSections] at h
    split at h
    · exact ih h
    · split at h
      · simp only [Option.bind_eq_bind, Option.bind_eq_some_iff, Option.pure_def, Option.some.injEq, Prod.mk.injEq] at h
        obtain ⟨⟨a, x, s1⟩, h1, ⟨b, y, s2⟩, h2, rfl, rfl, rfl⟩ := h
        rw [List.length_append, wave_section_size h1, ih h2]
      · cases h

theorem wave_block_size {cheap : List UInt8 → Nat → Nat → Nat × Nat → Bool} {fuel n : Nat} {powers stats : List Nat}
    {data w : List UInt8} {st t : WaveBlock.States σ}
    (h : WaveBlock.encodeBlock P cheap fuel powers stats st data = some (w, n, t)) : Sized w n := by
  simp only [WaveBlock.encodeBlock, Option.bind_eq_bind, Option.bind_eq_some_iff, Option.pure_def, Option.some.injEq,
    Prod.mk.injEq] at h
  obtain ⟨⟨a, k⟩, h1, ⟨b, m, s⟩, h2, rfl, rfl, rfl⟩ := h
  exact sized_of (Sections.writeHeader_size h1) (wave_sections_size h2)

end

/-- A coder that counts its bytes. -/
def CountsBytes (C : Coder) : Prop :=
  ∀ (cheap : List UInt8 → Nat → Nat → Nat × Nat → Bool) (fuel : Nat) (st : C.σ) (powers stats : List Nat)
    (data w : List UInt8) (n : Nat) (t : C.σ), C.encode cheap fuel st powers stats data = some (w, n, t) → Sized w n

theorem wavelet_counts {σ : Type} (P : Model σ) : CountsBytes (wavelet P) :=
  fun _ _ _ _ _ _ _ _ _ h => wave_block_size h

theorem coder_sized (letter : UInt8) : CountsBytes (coderOf letter) := by
  unfold coderOf
  split
  · intro cheap fuel st powers stats data w n t h
    simp only [huffman, Option.map_eq_some_iff, Prod.mk.injEq] at h
    obtain ⟨⟨a, x⟩, h1, rfl, rfl, _⟩ := h
    exact huff_block_size h1
  · repeat' split
    all_goals exact wavelet_counts _

theorem encodeSlices_size {letter : UInt8} {cheap : List UInt8 → Nat → Nat → Nat × Nat → Bool} {fuel starts : Nat} :
    ∀ {lens : List Nat} {mem : List UInt8} {pos : Nat} {st t : (coderOf letter).σ} {w : List UInt8} {n : Nat},
    encodeSlices (coderOf letter) cheap fuel starts lens mem pos st = some (w, n, t) → n = w.length := by
  intro lens
  induction lens with
  | nil =>
    intro mem pos st t w n h
    simp only [encodeSlices, Option.some.injEq, Prod.mk.injEq] at h
    rw [← h.1, ← h.2.1]
    rfl
  | cons len lens ih =>
    intro mem pos st t w n h
    simp only [encodeSlices, Option.bind_eq_bind, Option.bind_eq_some_iff, Option.pure_def, Option.some.injEq,
      Prod.mk.injEq] at h
    obtain ⟨⟨m1, lf, fr⟩, _, ⟨a, x, s1⟩, h1, ⟨b, y, s2⟩, h2, rfl, rfl, rfl⟩ := h
    rw [List.length_append, (coder_sized letter cheap fuel _ _ _ _ _ _ _ h1).1, ih h2]

theorem packed_size {n k : Nat} {w : List UInt8} (h : packed n = some (w, k)) : k = w.length := by
  simp only [packed, Option.bind_eq_bind, Option.bind_eq_some_iff, Option.pure_def, Option.some.injEq, Prod.mk.injEq] at h
  obtain ⟨⟨p, m⟩, h1, rfl, rfl⟩ := h
  exact (Sections.packInteger_size h1).2.symm

theorem formed_size {g : G} (hg : Formed g) {w : List UInt8} {n : Nat} (h : writeGrammar g = some (w, n)) : n = w.length := by
  obtain ⟨ars, hok, hl⟩ := hg
  obtain ⟨w', h1, _⟩ := read_write hok hl
  rw [h, Option.some.injEq, Prod.mk.injEq] at h1
  rw [h1.1, h1.2]

theorem header_size {a b k : Nat} {g : G} (hg : Formed g) {w : List UInt8} (h : writeBlockHeader a b g = some (w, k)) :
    k = w.length := by
  simp only [writeBlockHeader, Option.bind_eq_bind, Option.bind_eq_some_iff, Option.pure_def, Option.some.injEq,
    Prod.mk.injEq] at h
  obtain ⟨⟨x, i⟩, h1, ⟨y, j⟩, h2, ⟨z, l⟩, h3, rfl, rfl⟩ := h
  rw [List.length_append, List.length_append, packed_size h1, packed_size h2, formed_size hg h3]

/-- Options and files for which the preprocessor works on blocks below 4 GB. -/
def FitsPreprocessor (o : Options) (n : Nat) : Prop :=
  o.rounds = 0 ∨ min n (pbBlock o) + 395759 ≤ 2 ^ 32

theorem precompressBlock_formed {o : Options} {e : Env} (he : ∀ F, Initial F (e.table F))
    (hk : o.rounds ≤ 1 ∨ ∃ y, e.beyond = some y ∧ 2 ^ 32 ≤ y) {data out : List UInt8} {g : G}
    (hs : o.rounds = 0 ∨ data.length + 395759 ≤ 2 ^ 32) (h : precompressBlock o e data = some (out, g)) : Formed g := by
  rcases hs with h0 | hs
  · rw [precompress_zero h0, Option.some.injEq, Prod.mk.injEq] at h
    exact h.2 ▸ Formed.empty
  · have hl : (data ++ [e.junk]).length = data.length + 1 := by rw [List.length_append, List.length_singleton]
    exact (precompress_formed he hk (by omega) (by omega) h).1

theorem compressBlocks_size {o : Options} {e : Env} (he : ∀ F, Initial F (e.table F))
    (hk : o.rounds ≤ 1 ∨ ∃ y, e.beyond = some y ∧ 2 ^ 32 ≤ y) {fuel : Nat} : ∀ {f bwt : Nat} {st : (coderOf o.letter).σ}
    {input w : List UInt8} {n : Nat}, FitsPreprocessor o input.length →
    compressBlocks (coderOf o.letter) o e fuel f bwt st input = some (w, n) → n = w.length := by
  intro f
  induction f with
  | zero => intro bwt st input w n _ h; cases h
  | succ f ih =>
    intro bwt st input w n hs h
    rw [compressBlocks] at h
    split at h
    · simp only [Option.some.injEq, Prod.mk.injEq] at h
      rw [← h.1, ← h.2]
      rfl
    · simp only [Option.bind_eq_bind, Option.bind_eq_some_iff, Option.pure_def, Option.some.injEq, Prod.mk.injEq] at h
      obtain ⟨⟨b, bw⟩, h1, ⟨a, x⟩, h2, ⟨c, y, s1⟩, h3, ⟨r, z⟩, h4, rfl, rfl⟩ := h
      have hg : Formed b.g := by
        simp only [frontBlock, Option.bind_eq_bind, Option.bind_eq_some_iff, Option.pure_def, Option.some.injEq,
          Prod.mk.injEq] at h1
        obtain ⟨⟨out, g⟩, p1, sl, _, rfl, _⟩ := h1
        refine precompressBlock_formed he hk ?_ p1
        rw [List.length_take, Nat.min_comm]
        exact hs
      have hr := ih (by
        refine hs.imp id fun hs => ?_
        have : (input.drop (pbBlock o)).length ≤ input.length := by rw [List.length_drop]; omega
        omega) h4
      rw [List.length_append, List.length_append, header_size hg h2, encodeSlices_size h3, hr]

end Bwtc.Container
