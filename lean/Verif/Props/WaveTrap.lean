import Verif.WaveTrap
import Verif.Props.WaveSmall

/-!
# C27, C43: exactly where the search for the parameters is undefined
-/

set_option autoImplicit false

namespace Bwtc.Props
open WaveBlock Wave ProbModels

/-- C27: among the distributions whose run lengths occur fewer than ten times each, the search is undefined for exactly those with at
least three run lengths all of which occur equally often - whatever the floating-point comparisons yield. -/
theorem C27_exact (cheap : Nat → Nat → Nat × Nat → Bool) (dist : List (Nat × Nat)) (hd : IsDistribution dist)
    (h10 : ∀ p ∈ dist, p.1 < 10) (h32 : ∀ p ∈ dist, p.2 < 2 ^ 32) (hn : dist.length < 2 ^ 30) :
    findParameters cheap dist = none ↔ 3 ≤ dist.length ∧ ∀ p ∈ dist, ∀ q ∈ dist, p.1 = q.1 := by
  constructor
  · intro h
    obtain ⟨_, _, t1, _, t3⟩ := (findParameters_spec cheap hd.1 hd.2.1).2 h
    exact ⟨t1, t3⟩
  · rintro ⟨h3, heq⟩
    cases hl : dist with
    | nil => rw [hl] at h3; simp at h3
    | cons p l =>
      have hp : p ∈ dist := by rw [hl]; simp
      rw [← hl]
      exact findParameters_rare_none cheap (f := p.1) (Nat.pos_of_ne_zero (hd.2.2 p hp)) (h10 p hp)
        (fun q hq => heq q hq p hp) h3 hn hd.1 hd.2.1 h32

/-- The hypotheses of `C27_exact` with both outcomes. -/
example : IsDistribution [(7, 1), (7, 2), (7, 9), (7, 100)] ∧ ∀ p ∈ [(7, 1), (7, 2), (7, 9), (7, 100)], p.1 < 10 :=
  ⟨⟨by decide, by decide, by decide⟩, by decide⟩

example : IsDistribution [(7, 1), (7, 2), (7, 9), (6, 100)] ∧ ∀ p ∈ [(7, 1), (7, 2), (7, 9), (6, 100)], p.1 < 10 :=
  ⟨⟨by decide, by decide, by decide⟩, by decide⟩

/-- A section whose runs have at least three different lengths, all of them equally frequent. -/
def Balanced (sec : List UInt8) : Prop :=
  (∃ a ∈ Runs.runsOf sec, ∃ b ∈ Runs.runsOf sec, ∃ c ∈ Runs.runsOf sec, a.2 ≠ b.2 ∧ a.2 ≠ c.2 ∧ b.2 ≠ c.2) ∧
    ∀ r ∈ Runs.runsOf sec, ∀ r' ∈ Runs.runsOf sec, runsOfLength sec r.2 = runsOfLength sec r'.2

theorem three_of_mem {l : List (Nat × Nat)} {a b c : Nat × Nat} (ha : a ∈ l) (hb : b ∈ l) (hc : c ∈ l)
    (hab : a.2 ≠ b.2) (hac : a.2 ≠ c.2) (hbc : b.2 ≠ c.2) : 3 ≤ l.length := by
  have : [a, b, c].Subperm l := List.subperm_of_subset (by
    simp only [List.nodup_cons, List.mem_cons, List.not_mem_nil, or_false, not_or, not_false_eq_true, List.nodup_nil, and_true]
    exact ⟨⟨fun h => hab (by rw [h]), fun h => hac (by rw [h])⟩, fun h => hbc (by rw [h])⟩) (by
    intro x hx
    simp only [List.mem_cons, List.not_mem_nil, or_false] at hx
    rcases hx with rfl | rfl | rfl <;> assumption)
  simpa using this.length_le

/-- C43: a section of less than 2^30 bytes in which every run length occurs fewer than ten times has no codes if and only if it is
balanced. -/
theorem C43_search_exact (cheap : Nat → Nat → Nat × Nat → Bool) (sec : List UInt8) (hne : sec ≠ []) (hlen : sec.length < 2 ^ 30)
    (h10 : ∀ r ∈ Runs.runsOf sec, runsOfLength sec r.2 < 10) : messageCodes cheap sec = none ↔ Balanced sec := by
  constructor
  · intro h
    have hb : ∀ r ∈ Runs.runsOf sec, r.2 < 2 ^ 30 := fun r hr => by have := Runs.runsOf_bound sec r hr; omega
    have hs := fun x => C43_search cheap sec hne (by omega) hb x h
    refine ⟨?_, ?_⟩
    · rcases two_or_three ((Runs.runsOf sec).map (·.2)) with ⟨a, b, hab⟩ | ⟨a, b, c, ha, hb, hc, hab, hac, hbc⟩
      · exact absurd (.inl ⟨a, b, fun r hr => hab r.2 (List.mem_map_of_mem hr)⟩) hs
      · obtain ⟨ra, hra, rfl⟩ := List.mem_map.mp ha
        obtain ⟨rb, hrb, rfl⟩ := List.mem_map.mp hb
        obtain ⟨rc, hrc, rfl⟩ := List.mem_map.mp hc
        exact ⟨ra, hra, rb, hrb, rc, hrc, hab, hac, hbc⟩
    · intro r hr r' hr'
      exact Decidable.byContradiction fun hne => hs (.inr ⟨r, hr, r', hr', hne⟩)
  · rintro ⟨⟨a, ha, b, hb, c, hc, hab, hac, hbc⟩, heq⟩
    have hrd : ∀ p ∈ runDist (runsOfLength sec) sec.length, ∃ r ∈ Runs.runsOf sec, r.2 = p.2 ∧ p.1 = runsOfLength sec r.2 := by
      intro p hp
      obtain ⟨h1, h2, _⟩ := mem_runDist.mp hp
      have : 0 < runsOfLength sec p.2 := by omega
      rw [runsOfLength, List.count_pos_iff] at this
      obtain ⟨r, hr, e⟩ := List.mem_map.mp this
      exact ⟨r, hr, e, by rw [e]; exact h1⟩
    have hmem : ∀ r ∈ Runs.runsOf sec, (runsOfLength sec r.2, r.2) ∈ runDist (runsOfLength sec) sec.length := by
      intro r hr
      refine mem_runDist.mpr ⟨rfl, ?_, Runs.runsOf_bound sec r hr⟩
      have : 0 < runsOfLength sec r.2 := by
        rw [runsOfLength, List.count_pos_iff]
        exact List.mem_map.mpr ⟨r, hr, rfl⟩
      simp only []
      omega
    have hd : IsDistribution (runDist (runsOfLength sec) sec.length) := by
      refine ⟨runDist_nodup _ _, ?_, fun p hp => (mem_runDist.mp hp).2.1⟩
      intro p hp
      obtain ⟨r, hr, e, _⟩ := hrd p hp
      have := (Runs.runsOf_isRuns sec).pos r hr
      omega
    have hle : (runDist (runsOfLength sec) sec.length).length < 2 ^ 30 := by
      have h0 : ((runDist (runsOfLength sec) sec.length).map (·.2)).Subperm ((List.range sec.length).map (· + 1)) :=
        List.subperm_of_subset (runDist_nodup _ _) (by
          intro x hx
          obtain ⟨p, hp, rfl⟩ := List.mem_map.mp hx
          obtain ⟨_, _, h3⟩ := mem_runDist.mp hp
          have := hd.2.1 p hp
          exact List.mem_map.mpr ⟨p.2 - 1, List.mem_range.mpr (by omega), by omega⟩)
      have := h0.length_le
      simp only [List.length_map, List.length_range] at this
      omega
    have hnone : findParameters cheap (runDist (runsOfLength sec) sec.length) = none := by
      refine (C27_exact cheap _ hd ?_ ?_ hle).mpr ⟨three_of_mem (hmem a ha) (hmem b hb) (hmem c hc) hab hac hbc, ?_⟩
      · intro p hp
        obtain ⟨r, hr, _, e⟩ := hrd p hp
        rw [e]; exact h10 r hr
      · intro p hp
        have := (mem_runDist.mp hp).2.2
        omega
      · intro p hp q hq
        obtain ⟨r, hr, _, e⟩ := hrd p hp
        obtain ⟨r', hr', _, e'⟩ := hrd q hq
        rw [e, e']; exact heq r hr r' hr'
    rw [messageCodes_eq cheap hne (by omega), chooseCodes, hnone]
    cases Huff.calculateHuffmanLengths (HuffBlock.freqList (runsOfByte sec)) with
    | none => rfl
    | some cl =>
      simp only [Option.bind_eq_bind, Option.bind_some]
      cases buildTree (Huff.sortPairs cl) <;> rfl

theorem sections_none {σ : Type} (P : Model σ) (cheap : List UInt8 → Nat → Nat → Nat × Nat → Bool) (fuel : Nat) (ns : List Nat) :
    ∀ (st : States σ) (data : List UInt8), (∃ sec ∈ WaveBlock.slices ns data, sec ≠ [] ∧ messageCodes (cheap sec) sec = none) →
      WaveBlock.encodeSections P cheap fuel ns st data = none := by
  induction ns with
  | nil => rintro st data ⟨sec, h, _⟩; simp [WaveBlock.slices] at h
  | cons n ns ih =>
    rintro st data ⟨sec, h, hne, hc⟩
    rw [WaveBlock.slices] at h
    rw [WaveBlock.encodeSections]
    by_cases h0 : n = 0
    · rw [if_pos h0]
      subst h0
      refine ih st data ⟨sec, ?_, hne, hc⟩
      rcases List.mem_cons.mp h with rfl | h
      · simp at hne
      · simpa using h
    · rw [if_neg h0]
      split
      · rcases List.mem_cons.mp h with rfl | h
        · rw [WaveBlock.encodeSection, makeTree, hc]
          rfl
        · cases WaveBlock.encodeSection P (cheap (data.take n)) fuel st (data.take n) with
          | none => rfl
          | some r =>
            simp only [Option.bind_eq_bind, Option.bind_some]
            rw [ih r.2.2 (data.drop n) ⟨sec, h, hne, hc⟩]
            rfl
      · rfl

/-- C43: for the inner models `u`, `b`, `B` and blocks of less than 2^30 bytes in whose sections every run length occurs fewer than ten
times: the block is coded if and only if no section is balanced, whatever the floating-point comparisons yield. -/
theorem C43_block_exact {σ : Type} {P : Model σ} {I : σ → Prop} (hP : Safe P I)
    (cheap : List UInt8 → Nat → Nat → Nat × Nat → Bool) (powers stats : List Nat) (data : List UInt8)
    (h1 : 1 ≤ powers.length) (h2 : powers.length ≤ 256) (h3 : ∀ p ∈ powers, p < 2 ^ 31) (h4 : stats.length ≤ 256)
    (h5 : stats.sum = data.length) (h6 : data ≠ []) (h7 : data.length < 2 ^ 30)
    (h10 : ∀ sec ∈ WaveBlock.slices (Sections.sections stats) data, ∀ r ∈ Runs.runsOf sec, runsOfLength sec r.2 < 10) :
    (∃ fuel, WaveBlock.encodeBlock P cheap fuel powers stats (WaveBlock.initial P) data ≠ none) ↔
      ∀ sec ∈ WaveBlock.slices (Sections.sections stats) data, ¬ Balanced sec := by
  have hsl : ∀ sec ∈ WaveBlock.slices (Sections.sections stats) data, sec.length < 2 ^ 30 := fun sec hs => by
    have := (slices_infix _ _ _ hs).length_le
    omega
  constructor
  · rintro ⟨fuel, hf⟩ sec hs hb
    have hne : sec ≠ [] := by
      rintro rfl
      obtain ⟨⟨a, ha, _⟩, _⟩ := hb
      simp [Runs.runsOf] at ha
    apply hf
    rw [WaveBlock.encodeBlock, sections_none P cheap fuel _ _ data
      ⟨sec, hs, hne, (C43_search_exact (cheap sec) sec hne (hsl sec hs) (h10 sec hs)).mpr hb⟩]
    cases Sections.writeHeader powers stats <;> rfl
  · intro h
    obtain ⟨R, h0, hw⟩ := C43_wavelet_block_partial hP
    obtain ⟨N, hN⟩ := hw cheap powers stats data h1 h2 h3 h4 h5 h6 (by omega) (by
      intro c hc
      have := hc.length_le
      rw [List.length_replicate] at this
      omega) (fun sec hs hne hc => h sec hs ((C43_search_exact (cheap sec) sec hne (hsl sec hs) (h10 sec hs)).mp hc))
    obtain ⟨w, t, e, _⟩ := hN N (N + 1) (Nat.le_refl _) (by omega) _ h0
    exact ⟨N, by rw [e]; simp⟩

/-- A balanced section (in which every run length occurs twice), and one that is not. -/
example : Balanced [97, 98, 98, 99, 99, 99, 97, 98, 98, 99, 99, 99] := by
  have e : Runs.runsOf [97, 98, 98, 99, 99, 99, 97, 98, 98, 99, 99, 99] = [(97, 1), (98, 2), (99, 3), (97, 1), (98, 2), (99, 3)] := by
    decide +kernel
  rw [Balanced, e]
  exact ⟨by decide +kernel, by decide +kernel⟩

example : ¬ Balanced [97, 98, 98, 99, 99, 99, 97] ∧
    ∀ r ∈ Runs.runsOf [97, 98, 98, 99, 99, 99, 97], runsOfLength [97, 98, 98, 99, 99, 99, 97] r.2 < 10 := by
  have e : Runs.runsOf [97, 98, 98, 99, 99, 99, 97] = [(97, 1), (98, 2), (99, 3), (97, 1)] := by decide +kernel
  rw [Balanced, e]
  exact ⟨by decide +kernel, by decide +kernel⟩

end Bwtc.Props
