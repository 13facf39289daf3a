import Verif.HuTuckerAll

/-!
# C67: the lengths of Hu-Tucker codes
-/

set_option autoImplicit false

namespace Bwtc.Props

open HuTucker

/-- The lengths are those of a prefix code with one word for each name. -/
def CodeFor (names : List Nat) (r : List (Nat × Nat)) : Prop :=
  (r.map Prod.snd).Perm names ∧ ∃ m, (∀ p ∈ r, p.1 ≤ m) ∧ (r.map (fun p => 2 ^ (m - p.1))).sum ≤ 2 ^ m

theorem collect_code (t : Tree) (hd : t.leaves.Nodup) : CodeFor t.leaves (collect t 0 []) := by
  have p := collect_perm t 0 [] (by simpa using hd)
  rw [List.append_nil] at p
  refine ⟨by rw [← codes_leaves t 0]; exact p.map _, t.depth, fun q hq => ?_, ?_⟩
  · have := codes_depth t 0 q (p.mem_iff.mp hq)
    omega
  · rw [(p.map _).sum_nat, codes_kraft t 0 t.depth (by omega)]
    exact Nat.le_refl _

/-- C67 as one would want it: for all distinct names and all frequencies the function returns the lengths of a prefix code with one
word for each name. -/
def C67_claim : Prop :=
  ∀ freqs names : List Nat, names ≠ [] → names.Nodup → freqs.length = names.length → (∀ f ∈ freqs, f < 2 ^ 64) →
    ∃ r, lengths freqs names = some r ∧ CodeFor names r

/-- C67, a symbol is lost.  For three symbols, whenever the first is not more frequent than the third, the third gets no code. -/
theorem C67_symbol_lost (f g h a b c : Nat) (hf : f ≤ h) (hac : a ≠ c) (hbc : b ≠ c) :
    ∃ r, lengths [f, g, h] [a, b, c] = some r ∧ c ∉ r.map Prod.snd := by
  have e : lengths [f, g, h] [a, b, c] = some (insertLen b 1 (insertLen a 1 [])) := by
    simp [lengths, at_, join, firstPass, secondPass, nextTerminal, skipInner, Tree.isLeaf, Tree.weight, pairs, collect, hf]
  refine ⟨_, e, ?_⟩
  simp only [insertLen]
  split
  · simp [hac.symm, hbc.symm]
  · split <;> simp [hac.symm, hbc.symm]

/-- C67, undefined behaviour.  For four symbols, whenever the first is not more frequent than the third, a null pointer is
dereferenced. -/
theorem C67_null_pointer (f g h i a b c d : Nat) (hf : f ≤ h) : lengths [f, g, h, i] [a, b, c, d] = none := by
  simp [lengths, at_, join, firstPass, Tree.weight, hf]

theorem C67_fails : ¬ C67_claim := by
  intro h
  obtain ⟨r, h1, _⟩ := h [1, 1, 1, 1] [0, 1, 2, 3] (by decide) (by decide) rfl (by decide)
  rw [C67_null_pointer 1 1 1 1 0 1 2 3 (by decide)] at h1
  cases h1

/-- C67, what holds.  For one and two symbols, and for three if the first is more frequent than the third, the lengths are those of
a prefix code with one word for each name. -/
theorem C67_code_partial (freqs names : List Nat) (hn : names ≠ []) (hd : names.Nodup) (hl : freqs.length = names.length)
    (h3 : names.length ≤ 2 ∨ ∃ f g h, freqs = [f, g, h] ∧ h < f) :
    ∃ r, lengths freqs names = some r ∧ CodeFor names r := by
  have hle3 : names.length ≤ 3 := by
    rcases h3 with h3 | ⟨f, g, h, e, _⟩
    · omega
    · rw [← hl, e]; exact Nat.le_refl _
  match names, freqs, hn, hl, h3, hle3 with
  | [a], [f], _, _, _, _ => exact ⟨[(1, a)], rfl, List.Perm.refl _, 1, by simp, by simp⟩
  | [a, b], [f, g], _, _, _, _ => exact ⟨[(1, a), (1, b)], rfl, List.Perm.refl _, 1, by simp, by simp⟩
  | [a, b, c], [f, g, h], _, _, h3, _ =>
    have hf : h < f := by
      rcases h3 with h3 | ⟨f', g', h', e, h3⟩
      · simp at h3
      · simp only [List.cons.injEq, and_true] at e
        obtain ⟨rfl, rfl, rfl⟩ := e
        exact h3
    have hle : ¬ f ≤ h := by omega
    have hc : add (add g h) f = add f (add g h) := by unfold add; rw [Nat.add_comm]
    have e : lengths [f, g, h] [a, b, c] = some (insertLen c 2 (insertLen b 2 (insertLen a 1 []))) := by
      simp [lengths, at_, join, firstPass, secondPass, nextTerminal, skipInner, Tree.isLeaf, Tree.weight, pairs, collect, findMinSum,
        nextValid, skipNull, minLoop, hle, hf, hc]
    refine ⟨_, e, ?_⟩
    simp only [List.nodup_cons, List.mem_cons, List.not_mem_nil, or_false, not_or] at hd
    have p1 : (insertLen b 2 [(1, a)]).Perm [(2, b), (1, a)] := insertLen_perm (by simpa using Ne.symm hd.1.1)
    have p2 : (insertLen c 2 (insertLen b 2 [(1, a)])).Perm [(2, c), (2, b), (1, a)] :=
      (insertLen_perm (by
        rw [(p1.map Prod.snd).mem_iff]
        simp [Ne.symm hd.1.2, Ne.symm hd.2.1])).trans (p1.cons _)
    have p3 : (insertLen c 2 (insertLen b 2 (insertLen a 1 []))).Perm [(2, c), (2, b), (1, a)] := p2
    refine ⟨(p3.map Prod.snd).trans (List.reverse_perm [a, b, c]), 2, ?_, ?_⟩
    · intro p hp
      have := p3.mem_iff.mp hp
      simp only [List.mem_cons, List.not_mem_nil, or_false] at this
      rcases this with rfl | rfl | rfl <;> simp
    · rw [(p3.map _).sum_nat]
      simp

/-- C67, what is returned.  For any number of symbols and all frequencies: if the function returns, it returns the lengths of a prefix code with one word
for each of some of the names; the others are lost. -/
theorem C67_some_names (freqs names : List Nat) (hd : names.Nodup) (r : List (Nat × Nat)) (h : lengths freqs names = some r) :
    ∃ kept lost, kept ≠ [] ∧ (lost ++ kept).Perm names ∧ CodeFor kept r := by
  match names, h with
  | [a], h =>
    simp only [lengths, Option.some.injEq] at h
    subst h
    exact ⟨[a], [], by simp, List.Perm.refl _, List.Perm.refl _, 1, by simp, by simp⟩
  | [a, b], h =>
    simp only [lengths, Option.some.injEq] at h
    subst h
    exact ⟨[a, b], [], by simp, List.Perm.refl _, List.Perm.refl _, 1, by simp, by simp⟩
  | a :: b :: c :: names, h =>
    obtain ⟨t, lost, rfl, hp⟩ := lengths_tree freqs _ (by simp) r h
    exact ⟨t.leaves, lost, leaves_ne t, hp, collect_code t ((List.nodup_append.mp (hp.nodup_iff.mpr hd)).2.1)⟩

/-- C67 for any number of symbols, each more frequent than all after it together: the lengths are those of a prefix code with one word for each name. -/
theorem C67_steep_partial (freqs names : List Nat) (hn : names ≠ []) (hd : names.Nodup) (hl : freqs.length = names.length)
    (hs : ∀ i, (h : i < freqs.length) → (freqs.drop (i + 1)).sum < freqs[i]) (hw : freqs.sum < 2 ^ 64) :
    ∃ r, lengths freqs names = some r ∧ CodeFor names r := by
  by_cases h2 : names.length ≤ 2
  · exact C67_code_partial freqs names hn hd hl (Or.inl h2)
  · obtain ⟨t, h1, hp⟩ := lengths_steep freqs names (by omega) hl (steep_of freqs hs) hw
    obtain ⟨c1, c2⟩ := collect_code t (hp.nodup_iff.mpr hd)
    exact ⟨_, h1, c1.trans hp, c2⟩

/-- The hypotheses of `C67_some_names` are met: a run that loses a symbol. -/
example : ∃ kept lost, kept ≠ [] ∧ (lost ++ kept).Perm [97, 98, 99] ∧ CodeFor kept [(1, 97), (1, 98)] :=
  C67_some_names [1, 1, 1] [97, 98, 99] (by decide) _ (by decide)

/-- The hypotheses of `C67_steep_partial` are met by five symbols. -/
example : ∃ r, lengths [32, 15, 8, 3, 1] [100, 101, 97, 98, 99] = some r ∧ CodeFor [100, 101, 97, 98, 99] r :=
  C67_steep_partial _ _ (by decide) (by decide) rfl (by decide) (by decide)

/-- The hypotheses are met, and three words of different lengths are possible. -/
example : ∃ r, lengths [5, 1, 2] [97, 98, 122] = some r ∧ CodeFor [97, 98, 122] r :=
  C67_code_partial _ _ (by decide) (by decide) rfl (Or.inr ⟨5, 1, 2, rfl, by decide⟩)

/-- The loss in a concrete case: three symbols of equal frequency. -/
example : lengths [1, 1, 1] [97, 98, 99] = some [(1, 97), (1, 98)] := by decide

end Bwtc.Props
