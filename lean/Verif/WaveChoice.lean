import Verif.WaveShape

/-!
# What the chosen codes of a wavelet tree satisfy
-/

set_option autoImplicit false

namespace Bwtc.Wave
open Huff Varint BitCodes Props

/-- The code tree of the bytes: full, or the tree of a single symbol. -/
def RootOk (t : Sh) : Prop := (∃ l r, t = .node none l r ∧ Full t) ∨ ∃ s, t = .node none (.leaf s) .nil

/-- A tree together with the codes found in it. -/
structure TreeCodes (t : Sh) (cs : List (Nat × List Bool)) : Prop where
  nodup : (cs.map (·.1)).Nodup
  mem : ∀ s c, (s, c) ∈ cs ↔ t.get c = .leaf s

/-- Everything later proofs need to know of the codes of a tree. -/
structure GoodCodes (c : Codes) : Prop where
  root : RootOk c.root
  codes : TreeCodes c.root c.codes
  lt256 : ∀ p ∈ c.codes, p.1 < 256
  itree : (c.itree = .leaf 0 ∧ c.icodes = [(0, [])]) ∨
    ((∃ l r, c.itree = .node none l r ∧ Full c.itree) ∧ TreeCodes c.itree c.icodes ∧
      0 ∈ c.icodes.map (·.1) ∧ 2 ≤ c.icodes.length)
  w : c.w < 16

theorem full_codes {lens : List (Nat × Nat)} (hs : lens.Pairwise (fun a b => pairLe a b))
    (hnd : (lens.map (·.2)).Nodup) (hpos : ∀ p ∈ lens, 0 < p.1)
    (hk : ∀ m, (∀ p ∈ lens, p.1 ≤ m) → kraft m (lens.map (·.1)) = 2 ^ m) :
    ∃ l r cs, CodesOf lens (.node none l r) cs ∧ Full (.node none l r) ∧ TreeCodes (.node none l r) cs := by
  have hs' : (lens.map (·.1)).Pairwise (· ≤ ·) := by
    rw [List.pairwise_map]
    refine hs.imp ?_
    intro a b h
    simp only [pairLe, decide_eq_true_eq] at h
    omega
  obtain ⟨l, r, e1, e2, e3⟩ := buildTree_spec hs' hpos hk
  obtain ⟨cs, c1, c2, c3, c4⟩ := collect_full e2 []
  rw [List.length_nil, e3] at c2
  have hco : CodesOf lens (.node none l r) cs := ⟨e1, c1, c2⟩
  refine ⟨l, r, cs, hco, e2, by rw [hco.fst]; exact hnd, ?_⟩
  intro s c
  constructor
  · intro h
    obtain ⟨q, q1, q2⟩ := c3 _ h
    simp only [List.nil_append] at q1
    rw [q1]
    exact q2
  · intro h
    exact c4 c s h

theorem single_codes (s : Nat) : CodesOf [(1, s)] (.node none (.leaf s) .nil) [(s, [false])] ∧
    TreeCodes (.node none (.leaf s) .nil) [(s, [false])] := by
  refine ⟨⟨rfl, rfl, rfl⟩, by simp, ?_⟩
  intro s' c
  simp only [List.mem_singleton, Prod.mk.injEq]
  constructor
  · rintro ⟨rfl, rfl⟩; rfl
  · intro h
    match c with
    | [] => simp [Sh.leaf] at h
    | [false] =>
      have h' : Sh.leaf s = Sh.leaf s' := by simpa [Sh.get] using h
      simp [Sh.leaf] at h'
      exact ⟨h'.symm, rfl⟩
    | false :: b :: c =>
      have h' : (Sh.leaf s).get (b :: c) = Sh.leaf s' := h
      rw [Sh.leaf_get] at h'
      simp [Sh.leaf] at h'
    | true :: c =>
      have h' : Sh.nil.get c = Sh.leaf s' := h
      rw [Sh.nil_get] at h'
      simp [Sh.leaf] at h'

/-- The codes of the bytes. -/
theorem char_codes (freqs : List Nat) (h256 : freqs.length = 256) (hne : presentSymbols freqs ≠ []) :
    ∃ cl root cs, calculateHuffmanLengths freqs = some cl ∧ CodesOf (sortPairs cl) root cs ∧ RootOk root ∧
      TreeCodes root cs ∧ (cs.map (·.1)).Perm (presentSymbols freqs) ∧
      ((sortPairs cl).map (·.2)).Nodup ∧ (∀ p ∈ sortPairs cl, p.2 < 256) ∧
      (∀ p ∈ sortPairs cl, 0 < p.1) ∧ (∀ p ∈ sortPairs cl, p.1 < 2 ^ 56) := by
  have hpnd : (presentSymbols freqs).Nodup := by
    unfold presentSymbols
    exact List.Pairwise.filter _ List.nodup_range
  have hplt : ∀ s ∈ presentSymbols freqs, s < 256 := by
    intro s hs
    unfold presentSymbols at hs
    rw [List.mem_filter, List.mem_range] at hs
    omega
  have hplen : (presentSymbols freqs).length ≤ 256 := by
    unfold presentSymbols
    have := List.length_filter_le (fun i => decide (∃ f, freqs[i]? = some f ∧ 0 < f)) (List.range freqs.length)
    rw [List.length_range] at this
    omega
  by_cases h2 : 2 ≤ (presentSymbols freqs).length
  · obtain ⟨cl, e1, e2, e3, e4⟩ := C17_huffman_lengths freqs h2
    have hp := sortPairs_perm cl
    have hnd : ((sortPairs cl).map (·.2)).Nodup := by
      rw [(hp.map _).nodup_iff, e2.nodup_iff]; exact hpnd
    have hpos : ∀ p ∈ sortPairs cl, 0 < p.1 := fun p h => (e3 p (hp.mem_iff.mp h)).1
    obtain ⟨l, r, cs, c1, c2, c3⟩ := full_codes (sortPairs_sorted cl) hnd hpos (by
      intro m hm
      rw [kraft_perm m (hp.map _)]
      exact e4 m (by
        intro x hx
        obtain ⟨p, h, rfl⟩ := List.mem_map.mp hx
        exact hm p (hp.mem_iff.mpr h)))
    refine ⟨cl, _, cs, e1, c1, Or.inl ⟨l, r, rfl, c2⟩, c3, ?_, hnd, ?_, hpos, ?_⟩
    · rw [c1.fst]
      exact (hp.map _).trans e2
    · intro p h
      exact hplt _ (e2.mem_iff.mp (List.mem_map.mpr ⟨p, hp.mem_iff.mp h, rfl⟩))
    · intro p h
      have := (e3 p (hp.mem_iff.mp h)).2
      omega
  · match hps : presentSymbols freqs, h2, hne with
    | [], _, hne => exact absurd rfl hne
    | _ :: _ :: _, h2, _ => simp at h2
    | [s], _, _ =>
      have e1 := C17_single_symbol freqs s hps
      obtain ⟨c1, c2⟩ := single_codes s
      refine ⟨[(1, s)], _, _, e1, c1, Or.inr ⟨s, rfl⟩, c2, List.Perm.refl _, by simp [sortPairs, insertPair], ?_, ?_, ?_⟩
      · intro p hp
        simp only [sortPairs, insertPair, List.mem_singleton] at hp
        subst hp
        exact hplt s (by rw [hps]; simp)
      · intro p hp
        simp only [sortPairs, insertPair, List.mem_singleton] at hp
        subst hp
        exact Nat.one_pos
      · intro p hp
        simp only [sortPairs, insertPair, List.mem_singleton] at hp
        subst hp
        show 1 < 2 ^ 56
        omega

/-- The run-length codes for a usable table. -/
theorem table_codes {lens : List (Nat × Nat)} (ht : Table lens) :
    ∃ l r cs, CodesOf lens (.node none l r) cs ∧ integerCodes lens = some (.node none l r, toMap cs) ∧
      Full (.node none l r) ∧ TreeCodes (.node none l r) (toMap cs) ∧ 0 ∈ (toMap cs).map (·.1) ∧
      2 ≤ (toMap cs).length ∧ ∀ x ∈ (toMap cs).map (·.1), x ∈ lens.map (·.2) := by
  obtain ⟨l, r, cs, c1, c2, c3⟩ := full_codes ht.sorted ht.nodup ht.pos ht.kraft
  have hne : lens ≠ [] := by
    intro h
    have := ht.two
    rw [h] at this
    simp at this
  have hp := toMap_perm c3.nodup
  refine ⟨l, r, cs, c1, ?_, c2, ⟨?_, ?_⟩, ?_, ?_, ?_⟩
  · rw [integerCodes, if_neg hne, c1.tree]
    simp only [Option.bind_eq_bind, Option.bind_some, c1.collected]
    rfl
  · rw [(hp.map _).nodup_iff]; exact c3.nodup
  · intro s c
    rw [hp.mem_iff]
    exact c3.mem s c
  · rw [(hp.map _).mem_iff, c1.fst]
    exact ht.zero
  · rw [hp.length_eq, ← List.length_map (as := cs) (·.1), c1.fst, List.length_map]
    exact ht.two
  · intro x hx
    rw [(hp.map _).mem_iff, c1.fst] at hx
    exact hx

/-- The shape of chosen codes is read back, and the codes are usable. -/
theorem shape_roundtrip {cheap : Nat → Nat → Nat × Nat → Bool} {freqs : List Nat} {dist : List (Nat × Nat)}
    (h256 : freqs.length = 256) (hne : presentSymbols freqs ≠ []) (hnd : (dist.map (·.2)).Nodup)
    (hpos : ∀ p ∈ dist, p.2 ≠ 0) (h30 : ∀ p ∈ dist, p.2 < 2 ^ 30) {w : Nat} {lens : List (Nat × Nat)}
    (hf : findParameters cheap dist = some (w, lens)) :
    ∃ c bits, chooseCodes cheap freqs dist = some c ∧ c.w = w ∧ treeShape c = some bits ∧
      (∀ rest, readShape (bits ++ rest) = some (c, rest)) ∧ GoodCodes c ∧
      (c.codes.map (·.1)).Perm (presentSymbols freqs) ∧
      ∀ x ∈ c.icodes.map (·.1), x = 0 ∨ x ∈ dist.map (·.2) := by
  obtain ⟨cl, root, cs, e1, e2, e3, e4, e5, e6, e7, e8, e9⟩ := char_codes freqs h256 hne
  obtain ⟨hw, hlens⟩ := (findParameters_spec cheap hnd hpos).1 w lens hf
  have hclne : sortPairs cl ≠ [] := by
    intro h
    have := congrArg List.length e2.fst
    rw [h, e5.length_eq] at this
    exact hne (List.length_eq_zero_iff.mp (by simpa using this))
  obtain ⟨cbits, b1, b2⟩ := charShape_read e2 hclne e6 e7 e8 e9
  -- the run-length half
  obtain ⟨itree, icodes, ibits, i1, i2, i3, i4, i5⟩ : ∃ itree icodes ibits,
      integerCodes lens = some (itree, icodes) ∧ integerShape icodes w = some ibits ∧
      (∀ rest, readIntegerLens (ibits ++ rest) = some (lens, bitsOf 4 w ++ rest)) ∧
      ((itree = .leaf 0 ∧ icodes = [(0, [])]) ∨
        ((∃ l r, itree = .node none l r ∧ Full itree) ∧ TreeCodes itree icodes ∧
          0 ∈ icodes.map (·.1) ∧ 2 ≤ icodes.length)) ∧
      ∀ x ∈ icodes.map (·.1), x = 0 ∨ x ∈ dist.map (·.2) := by
    rcases hlens with rfl | ⟨ht, hsub⟩
    · obtain ⟨ibits, p1, p2⟩ := integerShape_read_plain w
      exact ⟨.leaf 0, [(0, [])], ibits, rfl, p1, p2, Or.inl ⟨rfl, rfl⟩, by simp⟩
    · obtain ⟨l, r, ics, t1, t2, t3, t4, t5, t6, t7⟩ := table_codes ht
      obtain ⟨ibits, p1, p2⟩ := integerShape_read t1 ht (by
        intro p hp
        rcases hsub p.2 (List.mem_map.mpr ⟨p, hp, rfl⟩) with h | h
        · omega
        · obtain ⟨q, hq, e⟩ := List.mem_map.mp h
          rw [← e]
          exact h30 q hq) (w := w)
      exact ⟨_, _, ibits, t2, p1, p2, Or.inr ⟨⟨l, r, rfl, t3⟩, t4, t5, t6⟩, fun x hx => hsub x (t7 x hx)⟩
  refine ⟨⟨root, cs, itree, icodes, w⟩, cbits ++ ibits, ?_, rfl, ?_, ?_, ⟨e3, e4, ?_, i4, hw⟩, e5, i5⟩
  · rw [chooseCodes, e1]
    simp only [Option.bind_eq_bind, Option.bind_some, e2.tree, hf, i1, e2.collected]
    rfl
  · rw [treeShape]
    simp only [Option.bind_eq_bind, b1, Option.bind_some, i2]
    rfl
  · intro rest
    obtain ⟨maxSym, count, s1, s2, s3, s4, ml, k, n, alphabet, cl', r1, r2, r3, r4, r5, r6⟩ := b2 (ibits ++ rest)
    rw [readShape, List.append_assoc, r1]
    simp only [Option.bind_eq_bind, Option.bind_some, r2, r3, r4, r5]
    have hsort : sortPairs cl' = sortPairs cl := sortPairs_eq_of_perm (r6.trans (sortPairs_perm cl))
    rw [hsort, e2.tree]
    simp only [Option.bind_some, e2.collected, i3, i1]
    rw [readBits_append' (by simp)]
    simp only [Option.bind_some, natOf_bitsOf_of_lt (show w < 2 ^ 4 by omega)]
    rfl
  · intro p hp
    exact e7 (p.2.length, p.1) (by rw [← e2.lens_eq]; exact List.mem_map.mpr ⟨p, hp, rfl⟩)

/-- The codes chosen by the encoder. -/
theorem chooseCodes_good {cheap : Nat → Nat → Nat × Nat → Bool} {freqs : List Nat} {dist : List (Nat × Nat)}
    (h256 : freqs.length = 256) (hne : presentSymbols freqs ≠ []) (hnd : (dist.map (·.2)).Nodup)
    (hpos : ∀ p ∈ dist, p.2 ≠ 0) {c : Codes} (hc : chooseCodes cheap freqs dist = some c) : GoodCodes c := by
  obtain ⟨cl, root, cs, e1, e2, e3, e4, e5, e6, e7, e8, e9⟩ := char_codes freqs h256 hne
  rw [chooseCodes, e1] at hc
  simp only [Option.bind_eq_bind, Option.bind_some, e2.tree, e2.collected] at hc
  cases hf : findParameters cheap dist with
  | none => rw [hf] at hc; simp at hc
  | some r =>
    obtain ⟨w, lens⟩ := r
    obtain ⟨hw, hlens⟩ := (findParameters_spec cheap hnd hpos).1 w lens hf
    rw [hf] at hc
    simp only [Option.bind_some] at hc
    have h256 : ∀ p ∈ cs, p.1 < 256 := by
      intro p hp
      exact e7 (p.2.length, p.1) (by rw [← e2.lens_eq]; exact List.mem_map.mpr ⟨p, hp, rfl⟩)
    rcases hlens with rfl | ⟨ht, hsub⟩
    · have : integerCodes [] = some (.leaf 0, [(0, [])]) := rfl
      rw [this] at hc
      simp only [Option.bind_some] at hc
      have hc : (⟨root, cs, .leaf 0, [(0, [])], w⟩ : Codes) = c := by simpa using hc
      subst hc
      exact ⟨e3, e4, h256, Or.inl ⟨rfl, rfl⟩, hw⟩
    · obtain ⟨l, r, ics, t1, t2, t3, t4, t5, t6, t7⟩ := table_codes ht
      rw [t2] at hc
      simp only [Option.bind_some] at hc
      have hc : some (⟨root, cs, .node none l r, toMap ics, w⟩ : Codes) = some c := hc
      rw [Option.some.injEq] at hc
      subst hc
      exact ⟨e3, e4, h256, Or.inr ⟨⟨l, r, rfl, t3⟩, t4, t5, t6⟩, hw⟩

end Bwtc.Wave
