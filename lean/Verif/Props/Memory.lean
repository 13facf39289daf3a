import Verif.MemoryProof
import Verif.Props.Container

/-!
# C71: the memory limit
-/

set_option autoImplicit false

namespace Bwtc.Props
open Container Memory PairReplace FreqTable

/-- The full claim C71: what the compressor holds in its arrays is never more than the limit (a megabyte at least, compress.cpp:179). -/
def C71_claim : Prop := ∀ (o : Options) (e : Env) (input : List UInt8) (evs : List Ev), 1000000 ≤ o.memLimit → o.memLimit < 2 ^ 64 →
  (∀ n l, e.small n l = true → 1000 * l < 666 * n) → events o e input = some evs → ∀ u, InUse evs u → u ≤ o.memLimit

/-- The list of events exists whenever the compressor ends. -/
theorem C71_defined (o : Options) (e : Env) (fuel : Nat) (input : List UInt8) (r : List UInt8 × Nat) (h : compress o e fuel input = some r) :
    ∃ evs, events o e input = some evs := by
  rw [compress] at h
  simp only [Option.bind_eq_bind, Option.bind_eq_some_iff] at h
  obtain ⟨w, h, _⟩ := h
  exact loopEvents_some _ _ _ _ _ h

/-- The sizes of a block and its slices, for both kinds of blocks. -/
theorem slices_small {o : Options} {e : Env} {bwt bwt' : Nat} {data : List UInt8} {b : Block} (h1 : 1000000 ≤ o.memLimit) (h2 : o.memLimit < 2 ^ 64)
    (hq : if o.rounds = 0 then bwt = bwtBlock0 o else pbBlock o ≠ bwt) (hd : data.length ≤ pbBlock o)
    (h : frontBlock o e bwt data = some (b, bwt')) :
    (if o.rounds = 0 then bwt' = bwtBlock0 o else pbBlock o ≠ bwt') ∧
    ∀ s ∈ b.slices, if o.rounds = 0 then b.out = data ∧ s.length ≤ data.length ∧ 1000 * data.length ≤ 186 * o.memLimit
      else 1000 * b.out.length ≤ 741 * o.memLimit + 1000 ∧ 9 * s.length + 2 * b.out.length ≤ 2 * o.memLimit := by
  obtain ⟨k1, k2, k3⟩ := frontBlock_out h
  have hml : maxBlock < 2 ^ 32 := by decide
  by_cases h0 : o.rounds = 0
  · rw [if_pos h0] at hq ⊢
    have hp : pbBlock o = bwtBlock0 o := by rw [pbBlock, if_pos h0]
    rw [precompress_zero h0, Option.some.injEq, Prod.mk.injEq] at k1
    rw [if_neg (fun hc => hc (hp.trans hq.symm))] at k2
    have hb : bwt' ≤ maxBlock := by rw [k2, hq]; exact bwtBlock0_max o
    refine ⟨k2.trans hq, fun s hs => ?_⟩
    rw [if_pos h0]
    have := (run_bound bwt' (Nat.lt_of_le_of_lt hb hml) _ _ _ k3 s hs).2.2
    refine ⟨k1.1.symm, by rw [k1.1]; exact this, ?_⟩
    have h5 := bwtBlock0_le o.letter o.starts o.rounds o.memLimit
    exact Nat.le_trans (Nat.mul_le_mul_left _ (hp ▸ hd)) h5
  · rw [if_neg h0] at hq ⊢
    have hp : pbBlock o = times074 o.memLimit := by rw [pbBlock, if_neg h0]
    have hg := times074_ge (m := o.memLimit) (by omega)
    obtain ⟨hg', -⟩ := times_tight o.memLimit
    have k4 := precompressBlock_length k1
    rw [if_pos hq] at k2
    have k5 : bwt' ≤ maxBlock := by rw [k2]; exact Nat.min_le_right _ _
    rw [hp] at hd ⊢
    generalize times074 o.memLimit = x at *
    have k6 : bwt' ≤ (o.memLimit - b.out.length) * 2 / 9 := by
      have e2 : (o.memLimit + (2 ^ 64 - b.out.length % 2 ^ 64)) % 2 ^ 64 = o.memLimit - b.out.length := by
        rw [Nat.mod_eq_of_lt (show b.out.length < 2 ^ 64 by omega), show o.memLimit + (2 ^ 64 - b.out.length) = (o.memLimit - b.out.length) + 2 ^ 64 by omega, Nat.add_mod_right,
          Nat.mod_eq_of_lt (by omega)]
      rw [k2, bwtBlockAfter, e2]
      exact Nat.min_le_left _ _
    refine ⟨by omega, fun s hs => ?_⟩
    rw [if_neg h0]
    have := (run_bound bwt' (Nat.lt_of_le_of_lt k5 hml) _ _ _ k3 s hs).2.1
    exact ⟨by omega, by omega⟩

theorem first_size (o : Options) (h : 1000000 ≤ o.memLimit) : if o.rounds = 0 then bwtBlock0 o = bwtBlock0 o else pbBlock o ≠ bwtBlock0 o := by
  by_cases h0 : o.rounds = 0
  · rw [if_pos h0]
  · rw [if_neg h0, pbBlock, if_neg h0]
    have hg := times074_ge (m := o.memLimit) (by omega)
    have h5 := bwtBlock0_le o.letter o.starts o.rounds o.memLimit
    have h6 : bwtBlock0 o = bwtBlock0 ⟨o.letter, o.starts, o.rounds, o.memLimit⟩ := rfl
    rw [h6]
    generalize times074 o.memLimit = x at *
    generalize bwtBlock0 _ = y at *
    omega

theorem pbBlock_tight (o : Options) : if o.rounds = 0 then 1000 * pbBlock o ≤ 186 * o.memLimit else 1000 * pbBlock o ≤ 741 * o.memLimit := by
  by_cases h0 : o.rounds = 0
  · rw [if_pos h0, pbBlock, if_pos h0]
    exact bwtBlock0_le o.letter o.starts o.rounds o.memLimit
  · rw [if_neg h0, pbBlock, if_neg h0]
    exact (times_tight o.memLimit).1

theorem room_plain {n s M : Nat} (h1 : 1000000 ≤ M) (c2 : s ≤ n) (c3 : 1000 * n ≤ 186 * M) :
    (n + 1 + (4 * (s + 2) + 263168) ≤ 5 * M / 4 ∧ n + 1 + 5 * s ≤ 5 * M / 4) ∧ (4000000 ≤ M → n + 1 + (4 * (s + 2) + 263168) ≤ M) := by
  omega

theorem room_pre {n s M : Nat} (h1 : 1000000 ≤ M) (c1 : 1000 * n ≤ 741 * M + 1000) (c2 : 9 * s + 2 * n ≤ 2 * M) :
    (n + 1 + (4 * (s + 2) + 263168) ≤ 5 * M / 4 ∧ n + 1 + 5 * s ≤ 5 * M / 4) ∧ (10000000 ≤ M → n + 1 + (4 * (s + 2) + 263168) ≤ M) := by
  omega

theorem capacity_le (n : Nat) : 1000000 * capacity n ≤ 333334 * n + 3000000 := by
  rw [capacity]
  have := Nat.div_mul_le_self (n * 333334) 1000000
  omega

/-- C71, what holds for all options: the arrays never take more than five quarters of the limit, and all of them are released in the end. -/
theorem C71_bound_partial (o : Options) (e : Env) (input : List UInt8) (evs : List Ev) (h1 : 1000000 ≤ o.memLimit) (h2 : o.memLimit < 2 ^ 64)
    (hs : ∀ n l, e.small n l = true → 1000 * l < 666 * n) (h : events o e input = some evs) :
    (∀ u, InUse evs u → 4 * u ≤ 5 * o.memLimit) ∧ held evs = 0 := by
  have hpb := pbBlock_tight o
  have key : AtMost ((5 * o.memLimit / 4 : Nat) : Int) evs ∧ held evs = 0 := by
    refine loop_within (Q := fun bwt => if o.rounds = 0 then bwt = bwtBlock0 o else pbBlock o ≠ bwt) ?_ ?_ _ _ _ _ (first_size o h1) h
    · split at hpb <;> omega
    · intro bwt data evs bwt' hq hd hb
      obtain ⟨b, _, hf, _, _⟩ := blockEvents_inv hb
      have hsl := slices_small h1 h2 hq hd hf
      have hcap := capacity_le (data.length + 1)
      have fits : AtMost ((5 * o.memLimit / 4 : Nat) : Int) evs ∧ held evs = 0 := by
        by_cases h0 : o.rounds = 0
        · rw [if_pos h0] at hpb
          refine block_within (T := 666 * data.length / 1000 + 1) (W := 666 * data.length / 1000 + 1) hb hd (by omega) (Nat.le_refl _) (.inl h0) (by omega) (by omega) ?_
          · intro b' hf' s hm
            rw [hf, Option.some.injEq, Prod.mk.injEq] at hf'
            obtain ⟨rfl, -⟩ := hf'
            have := hsl.2 s hm
            rw [if_pos h0] at this
            obtain ⟨c1, c2, c3⟩ := this
            rw [c1]
            have := (room_plain h1 c2 c3).1
            exact ⟨this.1, fun _ => this.2⟩
        · rw [if_neg h0] at hpb
          refine block_within (T := 666 * data.length / 1000 + 1) (W := 666 * data.length / 1000 + 4) hb hd (by omega) (by omega) (.inr ⟨by omega, fun l hl => by have := hs _ _ hl; omega⟩) (by omega)
            (by omega) ?_
          · intro b' hf' s hm
            rw [hf, Option.some.injEq, Prod.mk.injEq] at hf'
            obtain ⟨rfl, -⟩ := hf'
            have := hsl.2 s hm
            rw [if_neg h0] at this
            obtain ⟨c1, c2⟩ := this
            have := (room_pre h1 c1 c2).1
            exact ⟨this.1, fun _ => this.2⟩
      exact ⟨fits.1, fits.2, hsl.1⟩
  refine ⟨fun u hu => ?_, key.2⟩
  have := key.1.use hu
  omega

/-- C71, where the limit is kept: without the Huffman coder, from four megabytes on without preprocessing, and from ten megabytes on with it, as long as it
does not switch to the temporary array. -/
theorem C71_fits_partial (o : Options) (e : Env) (input : List UInt8) (evs : List Ev) (h1 : (if o.rounds = 0 then 4000000 else 10000000) ≤ o.memLimit)
    (h2 : o.memLimit < 2 ^ 64) (hl : o.letter ≠ 72) (hs : o.rounds ≠ 0 → ∀ n l, e.small n l = false) (h : events o e input = some evs) :
    ∀ u, InUse evs u → u ≤ o.memLimit := by
  have hpb := pbBlock_tight o
  have h1' : 1000000 ≤ o.memLimit := by split at h1 <;> omega
  have key : AtMost (o.memLimit : Int) evs ∧ held evs = 0 := by
    refine loop_within (Q := fun bwt => if o.rounds = 0 then bwt = bwtBlock0 o else pbBlock o ≠ bwt) ?_ ?_ _ _ _ _ (first_size o h1') h
    · split at hpb <;> omega
    · intro bwt data evs bwt' hq hd hb
      obtain ⟨b, _, hf, _, _⟩ := blockEvents_inv hb
      have hsl := slices_small h1' h2 hq hd hf
      have hcap := capacity_le (data.length + 1)
      have fits : AtMost (o.memLimit : Int) evs ∧ held evs = 0 := by
        by_cases h0 : o.rounds = 0
        · rw [if_pos h0] at hpb
          refine block_within (T := 0) (W := 0) hb hd (by omega) (Nat.le_refl _) (.inl h0) (by omega) (by omega) ?_
          · intro b' hf' s hm
            rw [hf, Option.some.injEq, Prod.mk.injEq] at hf'
            obtain ⟨rfl, -⟩ := hf'
            have := hsl.2 s hm
            rw [if_pos h0] at this
            obtain ⟨c1, c2, c3⟩ := this
            rw [c1]
            exact ⟨(room_plain h1' c2 c3).2 (by rw [if_pos h0] at h1; exact h1), fun h => absurd h hl⟩
        · rw [if_neg h0] at hpb
          refine block_within (T := 0) (W := capacity (data.length + 1)) hb hd (by omega) (Nat.zero_le _)
            (.inr ⟨Nat.le_refl _, fun l h => by rw [hs h0] at h; cases h⟩) (by omega) (by omega) ?_
          · intro b' hf' s hm
            rw [hf, Option.some.injEq, Prod.mk.injEq] at hf'
            obtain ⟨rfl, -⟩ := hf'
            have := hsl.2 s hm
            rw [if_neg h0] at this
            obtain ⟨c1, c2⟩ := this
            exact ⟨(room_pre h1' c1 c2).2 (by rw [if_neg h0] at h1; exact h1), fun h => absurd h hl⟩
      exact ⟨fits.1, fits.2, hsl.1⟩
  exact fun u hu => key.1.use hu

/-- The events of a block of `n` bytes, for any number of bytes in the buckets. -/
theorem held_sorter (n p q : Nat) : held (readEvents n n ++ [.take ((n + 1 + 1) * 4), .take p, .take q]) = 5 * n + (p + q + 9 : Nat) := by
  simp only [held_append, readEvents, held]; omega

theorem held_coder (n p q : Nat) : held (readEvents n n ++ [.take ((n + 1 + 1) * 4), .take p, .take q, .give q, .give p, .give ((n + 1 + 1) * 4)] ++ [.take n, .take (n * 4)]) = 6 * n + 1 := by
  simp only [held_append, readEvents, held]; omega

theorem inUse_sorter (n p q : Nat) (r s : List Ev) :
    InUse (readEvents n n ++ ([.take ((n + 1 + 1) * 4), .take p, .take q, .give q, .give p, .give ((n + 1 + 1) * 4)] ++ r) ++ s) (5 * n + (p + q + 9 : Nat)) :=
  ⟨readEvents n n ++ [.take ((n + 1 + 1) * 4), .take p, .take q], [.give q, .give p, .give ((n + 1 + 1) * 4)] ++ r ++ s,
    by simp only [List.append_assoc, List.cons_append, List.nil_append], (held_sorter n p q).symm⟩

theorem inUse_coder (n p q : Nat) (s : List Ev) :
    InUse (readEvents n n ++ ([.take ((n + 1 + 1) * 4), .take p, .take q, .give q, .give p, .give ((n + 1 + 1) * 4)] ++ [.take n, .take (n * 4), .give n, .give (n * 4)]) ++ s)
      (6 * n + 1) :=
  ⟨readEvents n n ++ [.take ((n + 1 + 1) * 4), .take p, .take q, .give q, .give p, .give ((n + 1 + 1) * 4)] ++ [.take n, .take (n * 4)], [.give n, .give (n * 4)] ++ s,
    by simp only [List.append_assoc, List.cons_append, List.nil_append], (held_coder n p q).symm⟩

/-- Without preprocessing the first block of an input that fills it, with the arrays of the sorter, and with those of the Huffman coder. -/
theorem C71_first_block (o : Options) (e : Env) (input : List UInt8) (h0 : o.rounds = 0) (hB : 0 < bwtBlock0 o) (hi : bwtBlock0 o ≤ input.length) :
    ∃ evs, events o e input = some evs ∧ InUse evs (5 * bwtBlock0 o + 263177) ∧ (o.letter = 72 → InUse evs (6 * bwtBlock0 o + 1)) := by
  have hp : pbBlock o = bwtBlock0 o := by rw [pbBlock, if_pos h0]
  obtain ⟨evs, h1, h2⟩ := loopEvents_plain h0 e (by rw [hp]; exact hB) _ input (Nat.lt_succ_self _)
  obtain ⟨r, rfl⟩ := h2 (List.length_pos_iff.mp (Nat.lt_of_lt_of_le hB hi))
  have hlen : (input.take (pbBlock o)).length = bwtBlock0 o := by rw [hp, List.length_take, Nat.min_eq_left hi]
  refine ⟨_, h1, InUse.append_left ?_, fun hl => InUse.append_left ?_⟩
  · rw [plainEvents, hlen, hp]
    generalize bwtBlock0 o = n at hB
    rw [sortEvents, if_neg (by omega)]
    exact inUse_sorter n _ _ _ _
  · rw [plainEvents, hlen, hp, coderEvents, if_pos hl]
    generalize bwtBlock0 o = n at hB
    rw [sortEvents, if_neg (by omega)]
    exact inUse_coder n _ _ _

/-- With the Huffman coder every input that fills a block takes a tenth more than the limit, whatever the limit is. -/
theorem C71_huffman_exceeds (o : Options) (e : Env) (input : List UInt8) (h0 : o.rounds = 0) (hl : o.letter = 72) (h1 : 1000000 ≤ o.memLimit)
    (h2 : o.memLimit ≤ 2902000000) (hi : bwtBlock0 o ≤ input.length) :
    ∃ evs, events o e input = some evs ∧ ∃ u, InUse evs u ∧ 11 * o.memLimit ≤ 10 * u := by
  have hb : bwtBlock0 o = times0185 o.memLimit :=
    Nat.min_eq_left (Nat.le_trans (Nat.le_of_lt (times0185_small h2)) (by decide))
  have ht := (times_tight o.memLimit).2 (by omega)
  rw [← hb] at ht
  obtain ⟨evs, k1, -, k3⟩ := C71_first_block o e input h0 (by omega) hi
  exact ⟨evs, k1, _, k3 hl, by omega⟩

/-- With every coder every input that fills a block takes more than the limit if that is three megabytes or less: the buckets of the sorter are not
accounted for. -/
theorem C71_small_exceeds (o : Options) (e : Env) (input : List UInt8) (h0 : o.rounds = 0) (h1 : 1000000 ≤ o.memLimit)
    (h2 : o.memLimit ≤ 3000000) (hi : bwtBlock0 o ≤ input.length) :
    ∃ evs, events o e input = some evs ∧ ∃ u, InUse evs u ∧ o.memLimit < u := by
  have hb : bwtBlock0 o = times0185 o.memLimit :=
    Nat.min_eq_left (Nat.le_trans (Nat.le_of_lt (times0185_small (by omega))) (by decide))
  have ht := (times_tight o.memLimit).2 (by omega)
  rw [← hb] at ht
  obtain ⟨evs, k1, k2, -⟩ := C71_first_block o e input h0 (by omega) hi
  exact ⟨evs, k1, _, k2, by omega⟩

/-- C71 is false of the code: the Huffman coder with the default of 100 megabytes. -/
theorem C71_fails : ¬ C71_claim := by
  intro h
  obtain ⟨m, hm1, hm2⟩ : ∃ m, 1000000 ≤ m ∧ m ≤ 2902000000 := ⟨100000000, by decide, by decide⟩
  let o : Options := ⟨72, 8, 0, m⟩
  let e : Env := { sampleEnv with small := fun _ _ => false }
  obtain ⟨evs, k1, u, k2, k3⟩ := C71_huffman_exceeds o e (List.replicate (bwtBlock0 o) 97) rfl rfl hm1 hm2 (by rw [List.length_replicate]; exact Nat.le_refl _)
  have := h o e _ evs hm1 (Nat.lt_of_le_of_lt hm2 (by decide)) (fun n l h => by cases h) k1 u k2
  have hm : o.memLimit = m := rfl
  omega

/-- The hypotheses of the bounds can be met: two bytes in any limit from a megabyte on. -/
theorem events_two (m : Nat) (hm : 1000000 ≤ m) : ∃ evs, events ⟨109, 8, 0, m⟩ sampleEnv [98, 97] = some evs := by
  have h3 : 0 < times0185 m := by
    have := (times_tight m).2 (by omega)
    generalize times0185 m = x at *
    omega
  have hB : 0 < pbBlock ⟨109, 8, 0, m⟩ := by
    rw [pbBlock, if_pos rfl, bwtBlock0]
    exact Nat.lt_min.mpr ⟨h3, by decide⟩
  obtain ⟨evs, h, _⟩ := loopEvents_plain (o := ⟨109, 8, 0, m⟩) rfl sampleEnv hB _ [98, 97] (Nat.lt_succ_self _)
  exact ⟨evs, h⟩

example : ∃ evs, events ⟨109, 8, 0, 4000000⟩ sampleEnv [98, 97] = some evs := events_two 4000000 (by decide)

/-- The same with preprocessing: five bytes with three pairs of rounds. -/
theorem events_five (m : Nat) (h1 : 1000000 ≤ m) (h2 : m ≤ 2415000000) : ∃ evs, events ⟨72, 1, 3, m⟩ sampleEnv [97, 98, 97, 98, 97] = some evs := by
  have hf : 5 ≤ times074 m := by
    have := times074_ge (m := m) (by omega)
    generalize times074 m = x at *
    omega
  obtain ⟨N, h⟩ := C38_preprocessed_short 1 3 m sampleEnv [97, 98, 97, 98, 97] makeTable_initial (.inr ⟨_, rfl, by decide⟩)
    (by decide) (by omega) h2 (by decide) (by decide) hf (by decide)
  obtain ⟨file, h, _⟩ := h N (N + 1) (Nat.le_refl _) (Nat.lt_succ_self _)
  exact C71_defined _ _ _ _ _ h

example : ∃ evs, events ⟨72, 1, 3, 100000000⟩ sampleEnv [97, 98, 97, 98, 97] = some evs := events_five 100000000 (by decide) (by decide)

end Bwtc.Props
