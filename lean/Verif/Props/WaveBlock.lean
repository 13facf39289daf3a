import Verif.WaveBlock

/-!
# C43: wavelet coding of a whole block
-/

set_option autoImplicit false

namespace Bwtc.Props
open WaveBlock Wave ProbModels

/-- The claim of C43: there is a property of the states of the models that holds for new coders and after every block,
such that every non-empty block (below 2^31 bytes), with any legal starting points and any character counts adding up to its
length, is encoded, and a decoder whose models are in the same states recovers the block from the encoding followed by
any data, leaves exactly the following data, and ends with its models in the same states as the encoder's. -/
def C43_claim : Prop :=
  ∀ (σ : Type) (P : Model σ) (I : σ → Prop), Safe P I → ∃ R : States σ → Prop, R (initial P) ∧
    ∀ (cheap : List UInt8 → Nat → Nat → Nat × Nat → Bool) (powers stats : List Nat) (data : List UInt8),
      1 ≤ powers.length → powers.length ≤ 256 → (∀ p ∈ powers, p < 2 ^ 31) → stats.length ≤ 256 →
      stats.sum = data.length → data ≠ [] → data.length < 2 ^ 31 →
      ∃ N, ∀ fuel fuel', N ≤ fuel → fuel < fuel' → ∀ st, R st →
        ∃ w n t, encodeBlock P cheap fuel powers stats st data = some (w, n, t) ∧ R t ∧ ∀ rest : List UInt8,
          decodeBlock P fuel' st (bytesBits (w ++ rest)) = some (⟨powers, data, data.length⟩, t, bytesBits rest)

/-- C43 (partial: no run of 2^30 equal bytes; in every section the search for the parameters of the run-length code
stays in its containers, see `C43_search` for a sufficient condition; the model of the inner bits never fails, which excludes the Markov models).  In
addition, the returned size is the number of bytes written, and the length field holds the number of
bytes following it (modulo 2^48). -/
theorem C43_wavelet_block_partial {σ : Type} {P : Model σ} {I : σ → Prop} (hP : Safe P I) :
    ∃ R : States σ → Prop, R (initial P) ∧
    ∀ (cheap : List UInt8 → Nat → Nat → Nat × Nat → Bool) (powers stats : List Nat) (data : List UInt8),
      1 ≤ powers.length → powers.length ≤ 256 → (∀ p ∈ powers, p < 2 ^ 31) → stats.length ≤ 256 →
      stats.sum = data.length → data ≠ [] → data.length < 2 ^ 31 → (∀ c, ¬ List.replicate (2 ^ 30) c <:+: data) →
      (∀ sec ∈ slices (Sections.sections stats) data, sec ≠ [] → messageCodes (cheap sec) sec ≠ none) →
      ∃ N, ∀ fuel fuel', N ≤ fuel → fuel < fuel' → ∀ st, R st →
        ∃ w t, encodeBlock P cheap fuel powers stats st data = some (w, w.length, t) ∧ R t ∧ (∀ rest : List UInt8,
          decodeBlock P fuel' st (bytesBits (w ++ rest)) = some (⟨powers, data, data.length⟩, t, bytesBits rest)) ∧
          w.take 6 = packBits (bitsOf 48 (w.length - 6)) ∧ 16 ≤ (bytesBits w).length := by
  obtain ⟨K, J, hK, hJ, hsec⟩ := sections_roundtrip hP
  refine ⟨Fine I K J, ⟨hP.init, hK.init, hJ.init⟩, ?_⟩
  intro cheap powers stats data h1 h2 h3 h4 h5 h6 h7 h8 h9
  have hpos : 0 < data.length := List.length_pos_iff.mpr h6
  obtain ⟨h, e1, e2⟩ := Sections.readHeader_write powers stats h1 h2 h3 (by omega) (by omega) h4
  obtain ⟨s1, _, _, _, _⟩ := Sections.sections_spec stats (by omega)
  obtain ⟨N, hN⟩ := hsec cheap (Sections.sections stats) data (by omega) (by omega) h8 h9
  refine ⟨N, ?_⟩
  intro fuel fuel' hf hf' st hst
  obtain ⟨b, t, d1, dt, d2⟩ := hN fuel fuel' hf hf' st hst
  have h6' : (packBits (bitsOf 48 (h.length + b.length))).length = 6 := by
    rw [packBits_length, bitsOf_length]
  refine ⟨packBits (bitsOf 48 (h.length + b.length)) ++ h ++ b, t, ?_, dt, ?_, ?_, ?_⟩
  · simp only [encodeBlock, e1, Option.bind_eq_bind, Option.bind_some, d1, Option.pure_def]
    simp only [List.length_append, h6']
    congr 3
    omega
  · intro rest
    have hb : bytesBits (packBits (bitsOf 48 (h.length + b.length))) = bitsOf 48 (h.length + b.length) := by
      obtain ⟨k, hk, hp⟩ := bytesBits_packBits (bitsOf 48 (h.length + b.length))
      have := congrArg List.length hp
      rw [bytesBits_length, h6', List.length_append, bitsOf_length, List.length_replicate] at this
      have : k = 0 := by omega
      rw [hp, this, List.replicate_zero, List.append_nil]
    have := e2 ((h.length + b.length) % 2 ^ 48) (bytesBits (b ++ rest)) (Nat.mod_lt _ (by decide))
      (by rw [bytesBits_length]; omega)
    rw [bitsOf_mod] at this
    simp only [decodeBlock, bytesBits_append, hb, List.append_assoc] at this ⊢
    rw [this]
    simp only [Option.bind_eq_bind, Option.bind_some]
    have hd := d2 rest
    rw [bytesBits_append] at hd
    rw [hd]
    simp only [Option.bind_some, Option.pure_def]
  · rw [List.append_assoc, List.take_left' h6']
    congr 2
    simp only [List.length_append, h6']
    omega
  · rw [bytesBits_length, List.length_append, List.length_append, h6']
    omega

/-- C43: a section passes the search for the parameters if its runs have at most two different lengths, or two lengths
that do not occur equally often. -/
theorem C43_search (cheap : Nat → Nat → Nat × Nat → Bool) (sec : List UInt8) (hne : sec ≠ []) (hlen : sec.length < 2 ^ 32)
    (hrun : ∀ r ∈ Runs.runsOf sec, r.2 < 2 ^ 30)
    (h : (∃ a b, ∀ r ∈ Runs.runsOf sec, r.2 = a ∨ r.2 = b) ∨
      ∃ r ∈ Runs.runsOf sec, ∃ r' ∈ Runs.runsOf sec, runsOfLength sec r.2 ≠ runsOfLength sec r'.2) :
    messageCodes cheap sec ≠ none := by
  have hmem : ∀ r ∈ Runs.runsOf sec, (runsOfLength sec r.2, r.2) ∈ runDist (runsOfLength sec) sec.length := by
    intro r hr
    refine mem_runDist.mpr ⟨rfl, ?_, ?_⟩
    · have : 0 < runsOfLength sec r.2 := by
        rw [runsOfLength, List.count_pos_iff]
        exact List.mem_map.mpr ⟨r, hr, rfl⟩
      simp only []
      omega
    · have := Runs.runsOf_bound sec r hr
      exact this
  have hrd : ∀ p ∈ runDist (runsOfLength sec) sec.length, ∃ r ∈ Runs.runsOf sec, r.2 = p.2 := by
    intro p hp
    obtain ⟨h1, h2, _⟩ := mem_runDist.mp hp
    have : 0 < runsOfLength sec p.2 := by omega
    rw [runsOfLength, List.count_pos_iff] at this
    obtain ⟨r, hr, e⟩ := List.mem_map.mp this
    exact ⟨r, hr, e⟩
  have hd : IsDistribution (runDist (runsOfLength sec) sec.length) := by
    refine ⟨runDist_nodup _ _, ?_, fun p hp => (mem_runDist.mp hp).2.1⟩
    intro p hp
    obtain ⟨r, hr, e⟩ := hrd p hp
    have := (Runs.runsOf_isRuns sec).pos r hr
    omega
  obtain ⟨w, lens, hf, _⟩ := C27_search_partial cheap _ hd (by
    rcases h with ⟨a, b, h⟩ | ⟨r, hr, r', hr', h⟩
    · left
      have : ∀ x ∈ (runDist (runsOfLength sec) sec.length).map (·.2), x ∈ [a, b] := by
        intro x hx
        obtain ⟨p, hp, rfl⟩ := List.mem_map.mp hx
        obtain ⟨r, hr, e⟩ := hrd p hp
        rw [← e]
        rcases h r hr with h | h <;> simp [h]
      have hnd := runDist_nodup (runsOfLength sec) sec.length
      revert this hnd
      generalize runDist (runsOfLength sec) sec.length = l
      match l with
      | [] | [x] | [x, y] => intros; simp
      | x :: y :: z :: l =>
        intro hall hnd
        exfalso
        have hx := hall x.2 (by simp)
        have hy := hall y.2 (by simp)
        have hz := hall z.2 (by simp)
        simp only [List.map_cons, List.nodup_cons, List.mem_cons, not_or, List.not_mem_nil, or_false] at hnd hx hy hz
        omega
    · right; left
      exact ⟨_, hmem r hr, _, hmem r' hr', h⟩)
  intro hc
  rw [messageCodes_eq cheap hne hlen] at hc
  have hp : presentSymbols (HuffBlock.freqList (runsOfByte sec)) ≠ [] := by
    cases sec with
    | nil => exact absurd rfl hne
    | cons x l => exact List.ne_nil_of_mem ((mem_present _ x).mpr (runsOfByte_pos.mpr (by simp)))
  obtain ⟨c, _, h1, _⟩ := shape_roundtrip (freqList_length _) hp hd.1 hd.2.1 (by
    intro p hp
    obtain ⟨r, hr, e⟩ := hrd p hp
    have := hrun r hr
    omega) hf
  rw [hc] at h1
  simp at h1

/-- C43 is false of the code: the block "abbccc" has no defined encoding (see `C27_fails`). -/
theorem C43_undefined {σ : Type} (P : Model σ) (cheap : List UInt8 → Nat → Nat → Nat × Nat → Bool) (fuel : Nat) (st : States σ)
    (powers : List Nat) : encodeBlock P cheap fuel powers [6] st [97, 98, 98, 99, 99, 99] = none := by
  have hc : messageCodes (cheap [97, 98, 98, 99, 99, 99]) [97, 98, 98, 99, 99, 99] = none := by
    rw [messageCodes_eq _ (by simp) (by simp), chooseCodes,
      show runDist (runsOfLength [97, 98, 98, 99, 99, 99]) ([97, 98, 98, 99, 99, 99] : List UInt8).length =
        [(1, 1), (1, 2), (1, 3)] by decide +kernel, (C27_fails _).2]
    simp
  have hsec : Sections.sections [6] = [6] := by decide +kernel
  rw [encodeBlock, hsec, encodeSections, if_neg (by omega), if_pos (by simp),
    List.take_of_length_le (by simp), encodeSection, makeTree, hc]
  simp

theorem C43_fails : ¬ C43_claim := by
  intro h
  obtain ⟨R, h0, h⟩ := h Nat modelU _ (evenInterval_safe (by decide) (by decide))
  obtain ⟨N, h⟩ := h (fun _ _ _ _ => false) [0] [6] [97, 98, 98, 99, 99, 99] (by simp) (by simp) (by simp) (by simp) (by simp)
    (by simp) (by simp)
  obtain ⟨w, n, t, h, _⟩ := h N (N + 1) (by omega) (by omega) _ h0
  rw [C43_undefined] at h
  simp at h

/-- Non-vacuity: a block with runs of lengths 2, 3 and 2, coded with the model of the option `u`. -/
example : ∃ N w t, encodeBlock modelU (fun _ _ _ _ => true) N [1, 3] [2, 0, 5] (initial modelU) [7, 7, 9, 9, 9, 8, 8] =
    some (w, w.length, t) := by
  obtain ⟨R, h0, h⟩ := C43_wavelet_block_partial (P := modelU) (evenInterval_safe (by decide) (by decide))
  have hrun : ∀ c : UInt8, ¬ List.replicate (2 ^ 30) c <:+: [7, 7, 9, 9, 9, 8, 8] := by
    intro c hc
    have := hc.length_le
    rw [List.length_replicate] at this
    simp at this
  obtain ⟨N, h⟩ := h (fun _ _ _ _ => true) [1, 3] [2, 0, 5] [7, 7, 9, 9, 9, 8, 8] (by decide) (by decide) (by decide) (by decide)
    (by decide) (by decide) (by decide) hrun (by
      intro sec hs hne
      rw [show slices (Sections.sections [2, 0, 5]) [7, 7, 9, 9, 9, 8, 8] = [[7, 7, 9, 9, 9, 8, 8]] by decide +kernel,
        List.mem_singleton] at hs
      subst hs
      refine C43_search _ _ hne (by decide) (HuffBlock.runs_infix (List.infix_refl _) hrun) (.inl ⟨2, 3, ?_⟩)
      decide +kernel)
  obtain ⟨w, t, h, _⟩ := h N (N + 1) (by omega) (by omega) _ h0
  exact ⟨N, w, t, h⟩

end Bwtc.Props
