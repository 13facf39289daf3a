import Verif.SaisMemoryProof

/-!
# C71 with the other sorter
-/

set_option autoImplicit false

namespace Bwtc.Props
open Container Memory PairReplace FreqTable

/-- The list of the arrays exists for every run of the compressor that returns. -/
theorem C71_sais_defined (o : Options) (e : Env) (fuel : Nat) (input : List UInt8) (r : List UInt8 × Nat) (h : compress o e fuel input = some r) :
    ∃ evs, SaisMemory.events o e input = some evs := by
  obtain ⟨evs, h⟩ := C71_defined o e fuel input r h
  exact SaisMemory.loopEvents_some _ _ _ _ h

/-- C71 with SA-IS, for all options: the arrays never take more than four thirds of the limit, and all of them are released in the end. -/
theorem C71_sais_partial (o : Options) (e : Env) (input : List UInt8) (evs : List Ev) (h1 : 1000000 ≤ o.memLimit) (h2 : o.memLimit < 2 ^ 64)
    (hs : ∀ n l, e.small n l = true → 1000 * l < 666 * n) (h : SaisMemory.events o e input = some evs) :
    (∀ u, InUse evs u → 3 * u ≤ 4 * o.memLimit) ∧ held evs = 0 := by
  have hpb := pbBlock_tight o
  have hml : maxBlock + 1 < 2 ^ 32 := by decide
  have key : AtMost ((4 * o.memLimit / 3 : Nat) : Int) evs ∧ held evs = 0 := by
    refine SaisMemory.loop_within (Q := fun bwt => (if o.rounds = 0 then bwt = bwtBlock0 o else pbBlock o ≠ bwt)) ?_ ?_ _ _ _ _ (first_size o h1) h
    · split at hpb <;> omega
    · intro bwt data evs bwt' hq hd hb
      obtain ⟨b, hf⟩ : ∃ b, frontBlock o e bwt data = some (b, bwt') := by
        rw [SaisMemory.blockEvents] at hb
        simp only [Option.bind_eq_bind, Option.bind_eq_some_iff, Option.pure_def, Option.some.injEq, Prod.mk.injEq] at hb
        obtain ⟨⟨b, bw⟩, k1, _, _, _, _, _, rfl⟩ := hb
        exact ⟨b, k1⟩
      have hsl := slices_small h1 h2 hq hd hf
      have hcap := capacity_le (data.length + 1)
      have hbm : bwt' ≤ maxBlock := by
        have k2 := (frontBlock_out hf).2.1
        by_cases h0 : o.rounds = 0
        · rw [if_pos h0] at hsl; rw [hsl.1]; exact bwtBlock0_max o
        · rw [if_neg h0] at hq; rw [if_pos hq] at k2; rw [k2]; exact Nat.min_le_right _ _
      have hlen : ∀ s ∈ b.slices, s.length + 1 < 2 ^ 32 ∧ s.length ≤ b.out.length := fun s hm => by
        have := run_bound bwt' (by omega) _ _ _ (frontBlock_out hf).2.2 s hm
        exact ⟨by omega, this.2.2⟩
      have fits : AtMost ((4 * o.memLimit / 3 : Nat) : Int) evs ∧ held evs = 0 := by
        by_cases h0 : o.rounds = 0
        · rw [if_pos h0] at hpb
          refine SaisMemory.block_within (T := 666 * data.length / 1000 + 1) (W := 666 * data.length / 1000 + 1) hb hd (by omega) (Nat.le_refl _) (.inl h0) (by omega) (by omega) ?_
          · intro b' hf' s hm
            rw [hf, Option.some.injEq, Prod.mk.injEq] at hf'
            obtain ⟨rfl, -⟩ := hf'
            have := hsl.2 s hm
            rw [if_pos h0] at this
            obtain ⟨c1, c2, c3⟩ := this
            obtain ⟨l1, l2⟩ := SaisMemory.log_small (hlen s hm).1
            have r1 := SaisMemory.room_plain h1 c2 c3 l1 l2
            have r2 := (room_plain h1 c2 c3).1.2
            rw [c1]
            exact ⟨r1, fun _ => by omega⟩
        · rw [if_neg h0] at hpb
          refine SaisMemory.block_within (T := 666 * data.length / 1000 + 1) (W := 666 * data.length / 1000 + 4) hb hd (by omega) (by omega) (.inr ⟨by omega, fun l hl => by have := hs _ _ hl; omega⟩)
            (by omega) (by omega) ?_
          · intro b' hf' s hm
            rw [hf, Option.some.injEq, Prod.mk.injEq] at hf'
            obtain ⟨rfl, -⟩ := hf'
            have := hsl.2 s hm
            rw [if_neg h0] at this
            obtain ⟨c1, c2⟩ := this
            obtain ⟨l1, l2⟩ := SaisMemory.log_small (hlen s hm).1
            have r1 := SaisMemory.room_pre h1 (hlen s hm).2 c2 l1 l2
            have r2 := (room_pre h1 c1 c2).1.2
            exact ⟨r1, fun _ => by omega⟩
      exact ⟨fits.1, fits.2, hsl.1⟩
  refine ⟨fun u hu => ?_, key.2⟩
  have := key.1.use hu
  omega

/-- Without preprocessing, the first block of an input that fills it: with the arrays of the sorter there are five bytes for each byte and two kilobytes, with the runs of the Huffman coder six. -/
theorem C71_sais_first_block (o : Options) (e : Env) (input : List UInt8) (h0 : o.rounds = 0) (hB : 0 < bwtBlock0 o) (hi : bwtBlock0 o ≤ input.length) :
    ∃ evs, SaisMemory.events o e input = some evs ∧ (∃ u, InUse evs u ∧ 5 * bwtBlock0 o + 2053 ≤ u) ∧ (o.letter = 72 → InUse evs (6 * bwtBlock0 o + 1)) := by
  have hp : pbBlock o = bwtBlock0 o := by rw [pbBlock, if_pos h0]
  have hlen : (input.take (bwtBlock0 o)).length = bwtBlock0 o := by rw [List.length_take, Nat.min_eq_left hi]
  obtain ⟨sort, r, k1, k2⟩ := SaisMemory.loopEvents_plain h0 e (by rw [hp]; exact hB) _ input (Nat.lt_succ_self _) (List.length_pos_iff.mp (Nat.lt_of_lt_of_le hB hi))
  obtain ⟨sort', k3, k4, -⟩ := SaisMemory.saisEvents_within (input.take (pbBlock o))
  obtain rfl : sort' = sort := Option.some.inj (k3.symm.trans k1)
  rw [hp, hlen] at k2
  obtain ⟨p, q, hp2, hq⟩ := SaisMemory.saisEvents_starts k1
  rw [hp, hlen] at hq
  refine ⟨_, k2, ⟨_, ⟨readEvents (bwtBlock0 o) (bwtBlock0 o) ++ [.take ((bwtBlock0 o + 1) * 4), .take (p * 4)], q ++ coderEvents o.letter (bwtBlock0 o) ++ r, ?_, rfl⟩, ?_⟩, fun hl =>
    ⟨readEvents (bwtBlock0 o) (bwtBlock0 o) ++ sort' ++ [.take (bwtBlock0 o), .take (bwtBlock0 o * 4)], [.give (bwtBlock0 o), .give (bwtBlock0 o * 4)] ++ r, ?_, ?_⟩⟩
  · rw [hq]; simp only [List.append_assoc, List.cons_append, List.nil_append]
  · rw [held_append]; simp only [readEvents, held]; omega
  · rw [coderEvents, if_pos hl]; simp only [List.append_assoc, List.cons_append, List.nil_append]
  · rw [held_append, held_append, k4]; simp only [readEvents, held]; omega

/-- C71 is false with SA-IS too: every input that fills a block takes at least 1.1 times the limit with the Huffman coder. -/
theorem C71_sais_exceeds (o : Options) (e : Env) (input : List UInt8) (h0 : o.rounds = 0) (hl : o.letter = 72) (h1 : 1000000 ≤ o.memLimit)
    (h2 : o.memLimit ≤ 2902000000) (hi : bwtBlock0 o ≤ input.length) :
    ∃ evs, SaisMemory.events o e input = some evs ∧ ∃ u, InUse evs u ∧ 11 * o.memLimit ≤ 10 * u := by
  have hb : bwtBlock0 o = times0185 o.memLimit :=
    Nat.min_eq_left (Nat.le_trans (Nat.le_of_lt (times0185_small h2)) (by decide))
  have ht := (times_tight o.memLimit).2 (by omega)
  rw [← hb] at ht
  obtain ⟨evs, k1, -, k3⟩ := C71_sais_first_block o e input h0 (by omega) hi
  exact ⟨evs, k1, _, k3 hl, by omega⟩

/-- The hypotheses can be met, without preprocessing and with it. -/
example : ∃ evs, SaisMemory.events ⟨109, 8, 0, 4000000⟩ sampleEnv [98, 97] = some evs := by
  obtain ⟨evs, h⟩ := events_two 4000000 (by decide)
  exact SaisMemory.loopEvents_some _ _ _ _ h

example : ∃ evs, SaisMemory.events ⟨72, 1, 3, 100000000⟩ sampleEnv [97, 98, 97, 98, 97] = some evs := by
  obtain ⟨evs, h⟩ := events_five 100000000 (by decide) (by decide)
  exact SaisMemory.loopEvents_some _ _ _ _ h

/-- An input that fills a block. -/
example : ∃ evs, SaisMemory.events ⟨72, 8, 0, 100000000⟩ sampleEnv (List.replicate (bwtBlock0 ⟨72, 8, 0, 100000000⟩) 97) = some evs ∧
    ∃ u, InUse evs u ∧ 1100000000 ≤ 10 * u :=
  C71_sais_exceeds _ _ _ rfl rfl (by decide) (by decide) (by rw [List.length_replicate]; exact Nat.le_refl _)

/-- The sorter on three bytes: the suffix array of four entries and two arrays of 256. -/
example : SaisMemory.saisEvents [97, 98, 97] = some [.take 16, .take 2048, .give 2048, .give 16] := by decide +kernel

end Bwtc.Props
