import Verif.Props.Container

/-!
# C38, C43: files the wavelet coders are sure to restore
-/

set_option autoImplicit false

namespace Bwtc.Props
open Container Wave

theorem sum_ge_three {l : List Nat} {a b c : Nat} (ha : a ∈ l) (hb : b ∈ l) (hc : c ∈ l) (hab : a ≠ b) (hac : a ≠ c) (hbc : b ≠ c) :
    a + b + c ≤ l.sum := by
  have h1 := (List.perm_cons_erase ha).sum_nat
  have hb' : b ∈ l.erase a := (List.mem_erase_of_ne (Ne.symm hab)).mpr hb
  have hc' : c ∈ l.erase a := (List.mem_erase_of_ne (Ne.symm hac)).mpr hc
  have h2 := (List.perm_cons_erase hb').sum_nat
  have hc'' : c ∈ (l.erase a).erase b := (List.mem_erase_of_ne (Ne.symm hbc)).mpr hc'
  have h3 := (List.perm_cons_erase hc'').sum_nat
  simp only [List.sum_cons] at h1 h2 h3
  omega

theorem count_three (l : List Nat) {a b c : Nat} (hab : a ≠ b) (hac : a ≠ c) (hbc : b ≠ c) :
    l.count a + l.count b + l.count c ≤ l.length := by
  induction l with
  | nil => simp
  | cons x l ih =>
    simp only [List.count_cons, List.length_cons, beq_iff_eq]
    split <;> split <;> split <;> omega

/-- Runs of length 1 and 2 are short, all others have at least three bytes. -/
theorem sum_ge_runs {l : List Nat} (h : ∀ x ∈ l, 1 ≤ x) : 3 * l.length ≤ l.sum + 2 * l.count 1 + l.count 2 := by
  induction l with
  | nil => simp
  | cons x l ih =>
    have := ih (fun y hy => h y (by simp [hy]))
    have := h x (by simp)
    simp only [List.count_cons, List.length_cons, List.sum_cons, beq_iff_eq]
    split <;> split <;> omega

theorem expand_sum (rs : List (UInt8 × Nat)) : (Runs.expand rs).length = (rs.map (·.2)).sum := by
  induction rs with
  | nil => rfl
  | cons r rs ih =>
    rw [List.map_cons, List.sum_cons, ← ih]
    simp [Runs.expand]

/-- Two lengths suffice, or three different ones occur. -/
theorem two_or_three (l : List Nat) : (∃ a b, ∀ x ∈ l, x = a ∨ x = b) ∨
    ∃ a b c, a ∈ l ∧ b ∈ l ∧ c ∈ l ∧ a ≠ b ∧ a ≠ c ∧ b ≠ c := by
  match l with
  | [] => exact .inl ⟨0, 0, by simp⟩
  | a :: l =>
    by_cases h1 : ∀ x ∈ l, x = a
    · exact .inl ⟨a, a, by
        intro x hx
        rcases List.mem_cons.mp hx with hx | hx
        · exact .inl hx
        · exact .inl (h1 x hx)⟩
    · simp only [Classical.not_forall] at h1
      obtain ⟨b, hb, hba⟩ := h1
      by_cases h2 : ∀ x ∈ l, x = a ∨ x = b
      · exact .inl ⟨a, b, by
          intro x hx
          rcases List.mem_cons.mp hx with hx | hx
          · exact .inl hx
          · exact h2 x hx⟩
      · simp only [Classical.not_forall, not_or] at h2
        obtain ⟨c, hc, hca, hcb⟩ := h2
        exact .inr ⟨a, b, c, by simp, by simp [hb], by simp [hc], Ne.symm hba, Ne.symm hca, Ne.symm hcb⟩

/-- C43: a section passes the search for the parameters if its runs have less than two bytes on average. -/
theorem C43_short_runs (cheap : Nat → Nat → Nat × Nat → Bool) (sec : List UInt8) (hne : sec ≠ []) (hlen : sec.length < 2 ^ 32)
    (hrun : ∀ r ∈ Runs.runsOf sec, r.2 < 2 ^ 30) (h : sec.length < 2 * (Runs.runsOf sec).length) :
    messageCodes cheap sec ≠ none := by
  have hR := Runs.runsOf_isRuns sec
  have hs := expand_sum (Runs.runsOf sec)
  rw [hR.expands] at hs
  apply C43_search cheap sec hne hlen hrun
  rcases two_or_three ((Runs.runsOf sec).map (·.2)) with ⟨a, b, hab⟩ | ⟨a, b, c, ha, hb, hc, hab, hac, hbc⟩
  · exact .inl ⟨a, b, fun r hr => hab r.2 (List.mem_map_of_mem hr)⟩
  · right
    obtain ⟨ra, hra, rfl⟩ := List.mem_map.mp ha
    obtain ⟨rb, hrb, rfl⟩ := List.mem_map.mp hb
    obtain ⟨rc, hrc, rfl⟩ := List.mem_map.mp hc
    apply Decidable.byContradiction
    intro hcon
    have heq : ∀ r ∈ Runs.runsOf sec, ∀ r' ∈ Runs.runsOf sec, runsOfLength sec r.2 = runsOfLength sec r'.2 := by
      intro r hr r' hr'
      apply Decidable.byContradiction
      intro hc
      exact hcon ⟨r, hr, r', hr', hc⟩
    have h3 := count_three ((Runs.runsOf sec).map (·.2)) hab hac hbc
    have e1 := heq ra hra rb hrb
    have e2 := heq ra hra rc hrc
    have hbound : ∀ k, ((Runs.runsOf sec).map (·.2)).count k ≤ runsOfLength sec ra.2 := by
      intro k
      by_cases hk : k ∈ (Runs.runsOf sec).map (·.2)
      · obtain ⟨r, hr, rfl⟩ := List.mem_map.mp hk
        have := heq ra hra r hr
        rw [runsOfLength, runsOfLength] at this
        rw [runsOfLength]
        omega
      · rw [List.count_eq_zero.mpr hk]
        omega
    have h1 := hbound 1
    have h2 := hbound 2
    have hg := sum_ge_runs (l := (Runs.runsOf sec).map (·.2)) (by
      intro x hx
      obtain ⟨r, hr, rfl⟩ := List.mem_map.mp hx
      exact hR.pos r hr)
    simp only [runsOfLength] at *
    rw [List.length_map] at h3 hg
    omega

/-- C43: a section of at most five bytes passes the search. -/
theorem C43_five_bytes (cheap : Nat → Nat → Nat × Nat → Bool) (sec : List UInt8) (hne : sec ≠ []) (hlen : sec.length ≤ 5) :
    messageCodes cheap sec ≠ none := by
  have hR := Runs.runsOf_isRuns sec
  have hs := expand_sum (Runs.runsOf sec)
  rw [hR.expands] at hs
  refine C43_search cheap sec hne (by omega) (fun r hr => ?_) (.inl ?_)
  · have := Runs.runsOf_bound sec r hr
    omega
  rcases two_or_three ((Runs.runsOf sec).map (·.2)) with ⟨a, b, hab⟩ | ⟨a, b, c, ha, hb, hc, hab, hac, hbc⟩
  · exact ⟨a, b, fun r hr => hab r.2 (List.mem_map_of_mem hr)⟩
  · exfalso
    have := sum_ge_three ha hb hc hab hac hbc
    have hpos : ∀ x ∈ (Runs.runsOf sec).map (·.2), 1 ≤ x := by
      intro x hx
      obtain ⟨r, hr, rfl⟩ := List.mem_map.mp hx
      exact hR.pos r hr
    have := hpos a ha
    have := hpos b hb
    have := hpos c hc
    omega

theorem slices_infix : ∀ (ns : List Nat) (data sec : List UInt8), sec ∈ WaveBlock.slices ns data → sec <:+: data := by
  intro ns
  induction ns with
  | nil => intro data sec h; simp [WaveBlock.slices] at h
  | cons n ns ih =>
    intro data sec h
    rw [WaveBlock.slices] at h
    rcases List.mem_cons.mp h with rfl | h
    · exact (List.take_prefix n data).isInfix
    · exact (ih _ _ h).trans (List.drop_suffix n data).isInfix

/-- A piece of the input that is short, or in which no byte occurs more than twice, is restored. -/
theorem sliceOK_small {starts : Nat} {cheap : List UInt8 → Nat → Nat → Nat × Nat → Bool} {slice : List UInt8} (hne : slice ≠ [])
    (h31 : slice.length < 2 ^ 30) (h : slice.length ≤ 5 ∨ ∀ x, slice.count x ≤ 2) : SliceOK starts (WaveletOK cheap) slice := by
  intro s' lf freqs ht
  obtain ⟨s2, lf2, fr2, h1, h2, _⟩ := FwdBWT.transform_spec slice starts (List.replicate 256 0) hne
    (by rw [List.length_replicate])
  have hx := h1 [] 0 []
  simp only [List.nil_append, List.length_nil] at hx
  rw [ht] at hx
  simp only [Option.some.injEq, Prod.mk.injEq] at hx
  have hs : s' = s2 := List.append_cancel_right hx.1
  rw [← hs] at h2
  have hl := h2.length_eq
  refine ⟨?_, ?_⟩
  · intro c hc
    have := hc.length_le
    rw [List.length_replicate] at this
    omega
  · intro sec hsec hse
    have hin := slices_infix _ _ _ hsec
    have hsl := hin.length_le
    rcases h with h | h
    · exact C43_five_bytes _ sec hse (by omega)
    · have hrl : ∀ r ∈ Runs.runsOf sec, r.2 < 3 := by
        apply HuffBlock.runs_infix hin
        intro c hc
        have h3 := hc.sublist.count_le c
        rw [h2.count_eq, List.count_replicate_self] at h3
        have := h c
        omega
      refine C43_search _ sec hse (by omega) (fun r hr => by have := hrl r hr; omega) (.inl ⟨1, 2, fun r hr => ?_⟩)
      have h4 := hrl r hr
      have h5 := (Runs.runsOf_isRuns sec).pos r hr
      omega

/-- C38 for the wavelet coders `u`, `b` and `B` (the default), with a condition on the input alone (partial: every piece handled
at once has at most five bytes, or no byte of it occurs more than twice). -/
theorem C38_wavelet_sparse_partial (letter : UInt8) (hl : letter = 117 ∨ letter = 98 ∨ letter = 66) (starts memLimit : Nat) (e : Env)
    (input : List UInt8) (cs : List (List UInt8)) (h6 : 6 ≤ memLimit) (hin : input.length < 2 ^ 56)
    (hcs : InChunks (min (times0185 memLimit) maxBlock) input cs)
    (hc : ∀ c ∈ cs, c.length ≤ 5 ∨ ∀ x, c.count x ≤ 2) :
    ∃ N, ∀ fuel fuel', N ≤ fuel → fuel < fuel' → ∃ file,
      compress ⟨letter, starts, 0, memLimit⟩ e fuel input = some (file, file.length % 2 ^ 64) ∧
        ∀ junk (rest : List UInt8), decompress junk fuel' (file ++ rest) = some input := by
  obtain ⟨_, _, t3, _⟩ := times_bounds memLimit
  have t3 := t3 h6
  have hmx := maxBlock_pos
  refine C38_wavelet_partial letter hl starts memLimit e input cs h6 hin hcs fun c hm => ?_
  obtain ⟨g1, _, _⟩ := (hcs.facts (by omega)).2.2 c hm
  refine sliceOK_small g1 ?_ (hc c hm)
  rcases hc c hm with h | h
  · omega
  · have := HuffBlock.freqList_sum c
    rw [← this, HuffBlock.freqList]
    have gen : ∀ r : List Nat, (r.map fun i => c.count (UInt8.ofNat i)).sum ≤ 2 * r.length := by
      intro r
      induction r with
      | nil => simp
      | cons a r ih =>
        have := h (UInt8.ofNat a)
        simp only [List.map_cons, List.sum_cons, List.length_cons]
        omega
    have := gen (List.range 256)
    rw [List.length_range] at this
    omega

/-- C38: the wavelet coders `u`, `b` and `B` restore every file of at most five bytes, for every memory limit of at least 6 bytes.  Six bytes are too many: `C38_undefined`. -/
theorem C38_wavelet_five_bytes (letter : UInt8) (hl : letter = 117 ∨ letter = 98 ∨ letter = 66) (starts memLimit : Nat) (e : Env)
    (input : List UInt8) (h6 : 6 ≤ memLimit) (h5 : input.length ≤ 5) :
    ∃ N, ∀ fuel fuel', N ≤ fuel → fuel < fuel' → ∃ file,
      compress ⟨letter, starts, 0, memLimit⟩ e fuel input = some (file, file.length % 2 ^ 64) ∧
        ∀ junk (rest : List UInt8), decompress junk fuel' (file ++ rest) = some input := by
  obtain ⟨_, _, t3, _⟩ := times_bounds memLimit
  have t3 := t3 h6
  have hmx := maxBlock_pos
  obtain ⟨cs, hcs⟩ := InChunks.exists (n := min (times0185 memLimit) maxBlock) (by omega) _ input (Nat.le_refl _)
  refine C38_wavelet_sparse_partial letter hl starts memLimit e input cs h6 (by omega) hcs fun c hc => .inl ?_
  obtain ⟨_, _, g⟩ := (hcs.facts (by omega)).2.2 c hc
  omega

example : ∃ N file, compress ⟨66, 8, 0, 100000000⟩ sampleEnv N [97, 97, 97, 97, 98] = some (file, file.length % 2 ^ 64) := by
  obtain ⟨N, h⟩ := C38_wavelet_five_bytes 66 (by decide) 8 100000000 sampleEnv [97, 97, 97, 97, 98] (by decide) (by decide)
  obtain ⟨file, h, _⟩ := h N (N + 1) (by omega) (by omega)
  exact ⟨N, file, h⟩

/-- The hypotheses of `C43_short_runs`: the runs of "abbccca" have three lengths. -/
example : ([97, 98, 98, 99, 99, 99, 97] : List UInt8).length < 2 * (Runs.runsOf [97, 98, 98, 99, 99, 99, 97]).length := by
  decide +kernel

/-- The hypotheses of `C38_wavelet_sparse_partial`: ten bytes in two pieces. -/
example : ∃ cs, InChunks (min (times0185 40) maxBlock) [97, 98, 97, 98, 99, 100, 99, 120, 121, 122] cs ∧
    ∀ c ∈ cs, c.length ≤ 5 ∨ ∀ x, c.count x ≤ 2 := by
  have h7 : min (times0185 40) maxBlock = 7 := by decide +kernel
  rw [h7]
  refine ⟨[[97, 98, 97, 98, 99, 100, 99], [120, 121, 122]], ?_, ?_⟩
  · exact .cons (by decide) (.cons (by decide) .nil)
  · intro c hc
    simp only [List.mem_cons, List.not_mem_nil, or_false] at hc
    rcases hc with rfl | rfl
    · right
      intro x
      simp only [List.count_cons, List.count_nil, beq_iff_eq]
      by_cases h1 : (97 : UInt8) = x
      · subst h1; decide
      by_cases h2 : (98 : UInt8) = x
      · subst h2; decide
      by_cases h3 : (99 : UInt8) = x
      · subst h3; decide
      simp only [h1, h2, h3, if_false]
      split <;> omega
    · left; decide

end Bwtc.Props
