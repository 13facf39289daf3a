import Verif.WaveInts

/-!
# Encoder and decoder in lockstep: the root and the whole tree
-/

set_option autoImplicit false

namespace Bwtc.Wave
open ProbModels RangeCoder

theorem flags_root : ∀ {rs : List (UInt8 × Nat)} {x : UInt8 × Nat}, Runs.AdjDiff (x :: rs) →
    FlagsOk (some x.1) (rs.map (·.1)) (List.replicate rs.length false)
  | [], _, _ => trivial
  | y :: rs, x, h => ⟨Or.inr ⟨x.1, rfl, h.1⟩, flags_root h.2⟩

theorem RootOk.leaf {t : Sh} (h : RootOk t) {p : Path} {y : Nat} {l r : Sh} (hg : t.get p = .node (some y) l r) :
    t.get p = .leaf y := by
  rcases h with ⟨l', r', _, hF⟩ | ⟨s', rfl⟩
  · rcases (hF.get (p := p) (by rw [hg]; simp)).cases' with ⟨s, h⟩ | ⟨l', r', h, _⟩
    · rw [h, Sh.leaf, Sh.node.injEq, Option.some.injEq] at hg
      rw [h, hg.1]
    · rw [h] at hg; simp at hg
  · cases p with
    | nil => simp at hg
    | cons b p =>
      rw [Sh.get_child] at hg ⊢
      cases b with
      | true => simp [Sh.child] at hg
      | false =>
        simp only [Sh.child] at hg ⊢
        cases p with
        | nil => simp [Sh.leaf] at hg ⊢; exact hg.1
        | cons b p => simp [Sh.leaf_get] at hg

theorem through_nil {c : Codes} {xs : List UInt8} : through c xs [] = xs := by
  rw [through, List.filter_eq_self]
  intro x _
  simp

section
variable {c : Codes} (hg : GoodCodes c) {rs : List (UInt8 × Nat)} (hcov : ∀ x ∈ rs, Covered c x)
  (hall : ∀ s ∈ c.codes.map (·.1), ∃ x ∈ rs.map (·.1), x.toNat = s)
include hg hcov

theorem root_bits {l r : Sh} (h : c.root = .node none l r) :
    bitsAt (words c rs) [] = (rs.map (·.1)).map (bitOf c []) := by
  rw [bitsAt_through hg (l := l) (r := r) (by rw [Sh.get_nil_path, h]) (fun x hx => (hcov x hx).1), through_nil]

theorem root_count {l r : Sh} (h : c.root = .node none l r) (b : Bool) :
    (through c (rs.map (·.1)) [b]).length = (bitsAt (words c rs) []).count b := by
  have h1 := thru_child (ws := words c rs) (q := []) (b := b)
  rw [List.nil_append] at h1
  rw [← h1]
  cases e : c.root.get [b] with
  | nil =>
    have h2 : ∀ x ∈ rs, ¬ [b] <+: ccode c x.1 := by
      rintro x hx ⟨z, hz⟩
      have := ccode_get hg (hcov x hx).1
      rw [← hz, Sh.get_append, e, Sh.nil_get] at this
      simp [Sh.leaf] at this
    have h3 : through c (rs.map (·.1)) [b] = [] := by
      rw [through, List.filter_eq_nil_iff]
      intro y hy
      obtain ⟨x, hx, rfl⟩ := List.mem_map.mp hy
      simpa using h2 x hx
    rw [h3, thru, eq_comm, List.length_nil, List.countP_eq_zero]
    intro w hw
    obtain ⟨x, hx, rfl⟩ := List.mem_map.mp hw
    rw [decide_eq_true_eq]
    have hgo : c.root.get [] = .node none l r := by rw [Sh.get_nil_path, h]
    obtain ⟨b', rest, hc⟩ := code_goes_on hg hgo (hcov x hx).1 (List.nil_prefix)
    rintro ⟨z, hz⟩
    rw [word, hc] at hz
    simp only [List.nil_append, List.cons_append, List.cons.injEq] at hz
    exact h2 x hx ⟨rest, by rw [hc, hz.1]; rfl⟩
  | node s l' r' => exact (thru_through hg (by rw [e]; simp) (fun x hx => (hcov x hx).1)).symm

/-- What encoder and decoder make of the bits of the root. -/
structure RootStep (c : Codes) (rs : List (UInt8 × Nat)) (b0 : Bool) (bs : List Bool) (L : Bool → List Bool)
    (q : List (Path × List Bool)) (ints : List Path) : Prop where
  queue : QInv c (rs.map (·.1)) q ints
  heap : DInv c rs ((Heap.ofShape c.root).set [] ⟨none, b0 :: bs⟩) q
  encQ : (rootChild (treeOf c rs) [false] (L false)).1 ++ (rootChild (treeOf c rs) [true] (L true)).1 = q
  encI : (rootChild (treeOf c rs) [false] (L false)).2 ++ (rootChild (treeOf c rs) [true] (L true)).2 = ints
  dec : ∃ ql qr, rootNode c.itree ((Heap.ofShape c.root).set [] ⟨none, b0 :: bs⟩) [false] (L false) = some ql ∧
    (if 0 < (L true).length then rootNode c.itree ((Heap.ofShape c.root).set [] ⟨none, b0 :: bs⟩) [true] (L true)
      else some ([], [])) = some qr ∧ ql.1 ++ qr.1 = q ∧ ql.2 ++ qr.2 = ints.map (mkI c (rs.map (·.1)))
  work : work c q < c.root.inners

omit hg hcov in
theorem rootChild_eq {b : Bool} {s : Option Nat} {l r : Sh} (h : c.root.get [b] = .node s l r) (F : List Bool) :
    rootChild (treeOf c rs) [b] F = if s.isSome then ([], [[b]]) else ([([b], F)], []) := by
  rw [rootChild, treeOf_root h]

omit hg hcov in
theorem rootNode_eq {b : Bool} {s : Option Nat} {l r : Sh} (h : c.root.get [b] = .node s l r) (n : Node) (F : List Bool)
    (hF : F.length = (through c (rs.map (·.1)) [b]).length) :
    rootNode c.itree ((Heap.ofShape c.root).set [] n) [b] F =
      some (if s.isSome then ([], [mkI c (rs.map (·.1)) [b]]) else ([([b], F)], [])) := by
  rw [rootNode, Heap.set, if_neg (by simp), ofShape_node h]
  simp only [hF, mkI]
  split <;> rfl

include hall in
theorem root_step (hadj : Runs.AdjDiff rs) {b0 : Bool} {bs : List Bool} (hb : bitsAt (words c rs) [] = b0 :: bs) :
    ∃ q ints, RootStep c rs b0 bs
      (fun b => childGaps b (!b0) (b0 :: bs) (List.replicate (b0 :: bs).length false)) q ints := by
  have hlen : ∀ b, (childGaps b (!b0) (b0 :: bs) (List.replicate (b0 :: bs).length false)).length = (b0 :: bs).count b := by
    intro b
    rw [childGaps_length b _ _ _ (by simp)]
  have hgaps : ∀ b, childGaps b (!b0) (b0 :: bs) (List.replicate (b0 :: bs).length false) =
      childGaps b true (b0 :: bs) (true :: List.replicate bs.length false) := by
    intro b
    rw [List.length_cons, List.replicate_succ, childGaps_root]
  rcases hg.root with ⟨l, r, hroot, hfull⟩ | ⟨s, hroot⟩
  · have hlr : Full l ∧ Full r ∧ ∀ s, r = .leaf s → ∃ s', l = .leaf s' := by
      rw [hroot] at hfull
      rcases hfull.cases' with ⟨s, h⟩ | ⟨l', r', h, h1⟩
      · simp [Sh.leaf] at h
      · simp only [Sh.node.injEq, true_and] at h
        rw [h.1, h.2]
        exact h1
    have hnil : c.root.get [] = .node none l r := by rw [Sh.get_nil_path, hroot]
    have hxs := root_bits hg hcov hroot
    rw [hb] at hxs
    have hq0 : QInv c (rs.map (·.1)) [([], true :: List.replicate bs.length false)] [] := by
      refine ⟨?_, ?_, by simp, ?_, by simp, by simp⟩
      · intro e he
        rw [List.mem_singleton] at he
        subst he
        exact ⟨l, r, hnil, hlr⟩
      · intro e he
        rw [List.mem_singleton] at he
        subst he
        show FlagsOk none (through c (rs.map (·.1)) []) (true :: List.replicate bs.length false)
        rw [through_nil]
        cases rs with
        | nil => simp at hxs
        | cons x rs =>
          have : bs.length = rs.length := by
            have := congrArg List.length hxs
            simpa using this
          rw [this]
          exact ⟨Or.inl rfl, flags_root hadj⟩
      · intro x s _
        constructor
        · intro h; simp at h
        · intro h; exact absurd List.nil_prefix (h [] (by simp))
    have hd0 : DInv c rs (Heap.ofShape c.root) [([], true :: List.replicate bs.length false)] := by
      intro x
      rw [Heap.ofShape]
      cases c.root.get x with
      | nil => rfl
      | node s l r =>
        simp only []
        rw [if_neg]
        rintro ⟨_, h⟩
        exact h [] (by simp) List.nil_prefix
    have hq1 := hq0.step hg (keys_fst fun x hx => (hcov x hx).1)
    have hd1 := DInv.step (bits := b0 :: bs) hq0 hd0
    have hw := work_step (bits := b0 :: bs) hq0
    rw [through_nil, ← hxs] at hq1
    rw [hb] at hd1
    have hget : ∀ b, ∃ s l' r', c.root.get [b] = .node s l' r' := by
      intro b
      have : c.root.get [b] = if b then r else l := by
        rw [hroot]; cases b <;> rw [Sh.get_child] <;> simp [Sh.child]
      rw [this]
      have hf : Full (if b then r else l) := by cases b <;> simp [hlr]
      rcases hf.cases' with ⟨s, h⟩ | ⟨l', r', h, _⟩
      · exact ⟨some s, .nil, .nil, h⟩
      · exact ⟨none, l', r', h⟩
    obtain ⟨sl, ll, lr, hl⟩ := hget false
    obtain ⟨sr, rl, rr, hr⟩ := hget true
    have hQ : ∀ b s l' r', c.root.get [b] = .node s l' r' →
        childQ c.root [] (true :: List.replicate bs.length false) (b0 :: bs) b =
        if s.isSome then [] else [([b], childGaps b true (b0 :: bs) (true :: List.replicate bs.length false))] := by
      intro b s l' r' h
      rw [childQ, List.nil_append, h, Sh.sym]
    have hI : ∀ b s l' r', c.root.get [b] = .node s l' r' → childI c.root [] b = if s.isSome then [[b]] else [] := by
      intro b s l' r' h
      rw [childI, List.nil_append, h, Sh.sym]
    have hlen' : ∀ b, (childGaps b true (b0 :: bs) (true :: List.replicate bs.length false)).length =
        (through c (rs.map (·.1)) [b]).length := by
      intro b
      rw [← hgaps, hlen, root_count hg hcov hroot, hb]
    have hpos : 0 < (childGaps true true (b0 :: bs) (true :: List.replicate bs.length false)).length := by
      rw [hlen']
      rw [List.length_pos_iff]
      refine through_ne hg hall ?_
      have : c.root.get [true] = r := by rw [hroot, Sh.get_child]; simp [Sh.child]
      rw [this]; exact hlr.2.1
    rw [List.nil_append] at hq1 hd1 hw
    rw [List.nil_append] at hq1
    refine ⟨_, _, hq1, hd1, ?_, ?_, ?_, ?_⟩
    · rw [hgaps, hgaps, rootChild_eq hl, rootChild_eq hr, hQ _ _ _ _ hl, hQ _ _ _ _ hr]
      cases sl <;> cases sr <;> rfl
    · rw [rootChild_eq hl, rootChild_eq hr, hI _ _ _ _ hl, hI _ _ _ _ hr]
      cases sl <;> cases sr <;> rfl
    · rw [hgaps, hgaps, if_pos hpos, rootNode_eq hl _ _ (hlen' false), rootNode_eq hr _ _ (hlen' true)]
      refine ⟨_, _, rfl, rfl, ?_, ?_⟩
      · rw [hQ _ _ _ _ hl, hQ _ _ _ _ hr]
        cases sl <;> cases sr <;> rfl
      · rw [hI _ _ _ _ hl, hI _ _ _ _ hr]
        cases sl <;> cases sr <;> rfl
    · have : work c [([], true :: List.replicate bs.length false)] = c.root.inners := by simp [work]
      omega
  · have hg0 : c.root.get [false] = .leaf s := by rw [hroot, Sh.get_child]; simp [Sh.child]
    have hg1 : c.root.get [true] = .nil := by rw [hroot, Sh.get_child]; simp [Sh.child]
    have hroot' : c.root = .node none (.leaf s) .nil := hroot
    have hcases : ∀ x, x = [] ∨ x = [false] ∨ c.root.get x = .nil := by
      intro x
      cases x with
      | nil => exact Or.inl rfl
      | cons b x =>
        cases b with
        | true => right; right; rw [show true :: x = [true] ++ x from rfl, Sh.get_append, hg1, Sh.nil_get]
        | false =>
          cases x with
          | nil => exact Or.inr (Or.inl rfl)
          | cons b x => right; right; rw [show false :: b :: x = [false] ++ b :: x from rfl, Sh.get_append, hg0, Sh.leaf_get]
    have hc1 : (b0 :: bs).count true = 0 := by
      rw [← hb, ← root_count hg hcov hroot', List.length_eq_zero_iff, through, List.filter_eq_nil_iff]
      intro y hy hpre
      rw [decide_eq_true_eq] at hpre
      obtain ⟨z, hz⟩ := hpre
      obtain ⟨x, hx, rfl⟩ := List.mem_map.mp hy
      have := ccode_get hg (hcov x hx).1
      rw [← hz, Sh.get_append, hg1, Sh.nil_get] at this
      simp [Sh.leaf] at this
    have hlen0 : (childGaps false (!b0) (b0 :: bs) (List.replicate (b0 :: bs).length false)).length =
        (through c (rs.map (·.1)) [false]).length := by
      rw [hlen, root_count hg hcov hroot', hb]
    have hg0' : c.root.get [false] = .node (some s) .nil .nil := hg0
    have hno : treeOf c rs [true] = none := by
      have h1 : ∀ x ∈ rs, ¬ [true] <+: word c x := by
        intro x hx hpre
        have : 0 < (bitsAt (words c rs) []).count true := count_pos_of_run hx hpre
        rw [hb] at this
        omega
      have hb1 : bitsAt (words c rs) [true] = [] := by
        rw [bitsAt_eq_nil]
        intro w hw
        obtain ⟨x, hx, rfl⟩ := List.mem_map.mp hw
        cases e : nextBit [true] (word c x) with
        | none => rfl
        | some b => exact absurd (prefix_of_snoc (nextBit_iff_prefix.mp e)) (h1 x hx)
      have hf1 : rs.find? (fun r => word c r = [true]) = none := by
        rw [List.find?_eq_none]
        intro x hx e
        rw [decide_eq_true_eq] at e
        exact h1 x hx (by rw [e]; exact List.prefix_refl _)
      rw [treeOf, ofShape_none.mpr hg1, hf1, hb1]
      rfl
    refine ⟨[], [[false]], ⟨by simp, by simp, by simp, ?_, ?_, by simp⟩, ?_, ?_, ?_, ?_, ?_⟩
    · intro x s' hx
      constructor
      · intro _; simp
      · intro _
        rcases hcases x with rfl | rfl | h
        · rw [Sh.get_nil_path, hroot] at hx; simp [Sh.leaf] at hx
        · simp
        · rw [hx] at h; simp [Sh.leaf] at h
    · intro x hx
      rw [List.mem_singleton] at hx
      subst hx
      exact ⟨s, hg0⟩
    · intro x
      rcases hcases x with rfl | rfl | h
      · rw [Heap.set, if_pos rfl, Sh.get_nil_path, hroot]
        simp only []
        rw [if_pos ⟨trivial, by intro p hp; simp at hp⟩, hb]
      · rw [Heap.set, if_neg (by simp), ofShape_node hg0', hg0']
        simp
      · rw [Heap.set, if_neg, ofShape_none.mpr h, h]
        rintro rfl
        rw [Sh.get_nil_path, hroot] at h; simp at h
    · rw [rootChild_eq hg0', rootChild, hno]
      rfl
    · rw [rootChild_eq hg0', rootChild, hno]
      rfl
    · refine ⟨([], [mkI c (rs.map (·.1)) [false]]), ([], []), ?_, ?_, rfl, rfl⟩
      · rw [rootNode_eq hg0' _ _ hlen0]; rfl
      · rw [if_neg (by rw [hlen, hc1]; omega)]
    · rw [hroot, work]; simp [Sh.inners]

/-! ## The integer phase begins where the queue ends -/

include hall in
theorem ints_start {d : Heap} {ints : List Path} (hq : QInv c (rs.map (·.1)) [] ints) (hd : DInv c rs d []) :
    (∀ e ∈ ints.map (mkI c (rs.map (·.1))), EOk c rs 0 e) ∧
    HInv c rs d ((ints.map (mkI c (rs.map (·.1)))).map (·.path)) ∧
    Apart ((ints.map (mkI c (rs.map (·.1)))).map (·.path)) ∧
    ((ints.map (mkI c (rs.map (·.1)))).filter active).map (·.path) = ints := by
  have hmap : (ints.map (mkI c (rs.map (·.1)))).map (·.path) = ints := by
    rw [List.map_map]
    exact List.map_id' ints
  have hmem : ∀ x s, c.root.get x = .leaf s → x ∈ ints := by
    intro x s h
    exact (hq.leaves x s h).mpr (by simp)
  have hfilter : (ints.map (mkI c (rs.map (·.1)))).filter active = ints.map (mkI c (rs.map (·.1))) := by
    rw [List.filter_eq_self]
    intro e he
    obtain ⟨x, _, rfl⟩ := List.mem_map.mp he
    rw [active, decide_eq_true_eq]
    show c.itree.sym = none ∨ c.itree.sym = some 0
    rcases hg.itree with ⟨h, _⟩ | ⟨⟨l, r, h, _⟩, _⟩
    · rw [h]; exact Or.inr rfl
    · rw [h]; exact Or.inl rfl
  refine ⟨?_, ?_, ?_, by rw [hfilter, hmap]⟩
  · intro e he
    obtain ⟨x, hx, rfl⟩ := List.mem_map.mp he
    obtain ⟨s, hs⟩ := hq.leaf x hx
    refine ⟨x, [], s, ⟨hs, ?_⟩, by simp [mkI], rfl, ?_, istate_nil_goesOn c, rfl⟩
    · have hm := (hg.codes.mem _ _).mpr hs
      obtain ⟨y, hy, e⟩ := hall s (List.mem_map.mpr ⟨_, hm, rfl⟩)
      obtain ⟨z, hz, rfl⟩ := List.mem_map.mp hy
      refine ⟨z, hz, icode c z.2, ?_⟩
      rw [List.append_nil, word, ccode, e, codeOf_mem hg.codes.nodup hm]
    · exact (thru_through hg (by rw [hs]; simp [Sh.leaf])
        (fun x hx => (hcov x hx).1)).symm
  · rw [hmap]
    refine ⟨?_, ?_, ?_, ?_⟩
    · intro x l r hx
      rw [hd x, hx]
      simp only []
      rw [if_pos ⟨trivial, by intro p hp; simp at hp⟩]
    · intro p q s ho _ hcl
      exact absurd ⟨q, rfl⟩ (hcl p (hmem p s ho.leaf))
    · intro p q s ho _ hm
      obtain ⟨s', hs'⟩ := hq.leaf _ hm
      have hqn : q = [] := by
        refine Decidable.byContradiction fun hne => ?_
        rw [root_below ho.leaf hne] at hs'
        simp [Sh.leaf] at hs'
      subst hqn
      rw [List.append_nil, hd p, ho.leaf]
      simp [Sh.leaf, sym0]
    · intro p q s ho _ _ hm
      have hqn : q ≠ [] := by
        rintro rfl
        rw [List.append_nil] at hm
        exact hm (hmem p s ho.leaf)
      rw [hd, root_below ho.leaf hqn]
  · rw [hmap, Apart, List.pairwise_iff_forall_sublist]
    intro a b hsub
    have hab : a ≠ b := by
      have := hq.nodup.sublist hsub
      simpa using this
    have ha : a ∈ ints := hsub.subset (by simp)
    have hb : b ∈ ints := hsub.subset (by simp)
    obtain ⟨s, hs⟩ := hq.leaf a ha
    obtain ⟨s', hs'⟩ := hq.leaf b hb
    have key : ∀ {a b : Path} {u v : Nat}, c.root.get a = .leaf u → c.root.get b = .leaf v → a <+: b → a = b := by
      rintro a b u v ha hb ⟨z, rfl⟩
      cases z with
      | nil => simp
      | cons x z => rw [root_below ha (by simp)] at hb; simp [Sh.leaf] at hb
    exact ⟨fun h => hab (key hs hs' h), fun h => hab (key hs' hs h).symm⟩

/-! ## What has been rebuilt -/

include hall in
theorem HInv.labelled {g : Heap} (h : HInv c rs g []) : Labelled c rs g := by
  have hclr : ∀ x : Path, Clear [] x := by intro x p hp; simp at hp
  refine ⟨?_, ?_, ?_⟩
  · intro q hq
    obtain ⟨b, hb⟩ := List.exists_mem_of_ne_nil _ hq
    obtain ⟨w, hw, hn⟩ := mem_bitsAt.mp hb
    obtain ⟨x, hx, rfl⟩ := List.mem_map.mp hw
    obtain ⟨y, hy⟩ := nextBit_eq_some.mp hn
    have hleaf := ccode_get hg (hcov x hx).1
    have hbelow : ∀ z, q = ccode c x.1 ++ z → ∃ nd, g q = some nd ∧ nd.bits = bitsAt (words c rs) q := by
      intro z h1
      rw [h1]
      refine ⟨_, h.done _ z _ ⟨hleaf, x, hx, ?_⟩ ?_ (hclr _), rfl⟩
      · exact ⟨b :: y, by rw [← h1]; exact hy.symm⟩
      · exact (inside_inner hg hcov hleaf hx (b := b) (y := y) (by rw [← h1]; exact hy)).1
    rcases append_comparable (a := ccode c x.1) (b := icode c x.2) hy with ⟨z, h1, h2⟩ | ⟨z, h1, h2⟩
    · exact hbelow z h1
    · cases z with
      | nil => exact hbelow [] (by rw [h1]; simp)
      | cons b' z =>
        rw [h1] at hleaf
        cases e : c.root.get q with
        | nil => rw [Sh.get_append, e, Sh.nil_get] at hleaf; simp [Sh.leaf] at hleaf
        | node s l r =>
          cases s with
          | none => exact ⟨_, h.inner q l r e, rfl⟩
          | some s => exact (hg.root.no_below (by rw [hleaf]; simp [Sh.leaf]) e).elim
  · intro q s l r nd hq hn
    cases s with
    | none =>
      rw [h.inner q l r hq, Option.some.injEq] at hn
      rw [← hn]
    | some s =>
      have hleaf : c.root.get q = .leaf s := hg.root.leaf hq
      have hm := (hg.codes.mem _ _).mpr hleaf
      obtain ⟨y, hy, e⟩ := hall s (List.mem_map.mpr ⟨_, hm, rfl⟩)
      obtain ⟨z, hz, rfl⟩ := List.mem_map.mp hy
      have := h.done q [] s ⟨hleaf, z, hz, icode c z.2, by
        rw [List.append_nil, word, ccode, e, codeOf_mem hg.codes.nodup hm]⟩ (istate_nil_goesOn c) (hclr _)
      rw [List.append_nil, hn, Option.some.injEq] at this
      rw [this, symF, if_pos rfl]
  · intro p q s s' l r x hp hq hi hx hpre
    have hgo : (istate c q).goesOn = true := by
      rw [istate, irun_tree _ _ _ _ _ (by rw [hi]; simp)]
      rfl
    refine ⟨_, h.done p q s ⟨hp, x, hx, hpre⟩ hgo (hclr _), ?_⟩
    show symF c s q = s'
    rw [symF, if_neg hq, hi, Sh.sym]

/-! ## The whole tree -/

section
variable {σ₁ σ₂ σ₃ : Type} (P : Model σ₁) (G : Model σ₂) (A : Model σ₃)

include hall in
/-- Whatever the encoder hands to the range coder, the decoder asking for the same bits rebuilds the
tree. -/
theorem tree_lockstep (hadj : Runs.AdjDiff rs) (hreset : ∀ s, ∃ s', G.reset s = some s') {fuel fuel' : Nat} (hf : fuel < fuel')
    {s1 u1 : σ₁} {s2 u2 : σ₂} {s3 u3 : σ₃} {items : List (Bool × Nat)}
    (h : encodeTree P G A fuel (treeOf c rs) s1 s2 s3 = some (items, u1, u2, u3)) :
    ∃ g v2, HInv c rs g [] ∧ (v2 = u2 ∨ G.reset u2 = some v2) ∧
      ∀ rest, (decodeTree P G A fuel' c (bitsAt (words c rs) []).length s1 s2 s3).feed (items ++ rest) =
        some ((g, u1, v2, u3), rest) := by
  have hrs : ∀ x ∈ rs, x.1.toNat ∈ c.codes.map (·.1) := fun x hx => (hcov x hx).1
  rw [encodeTree] at h
  obtain ⟨root, h1, h⟩ := bind_some h
  rw [treeOf_bits h1] at h
  obtain ⟨b0, h2, h⟩ := bind_some h
  obtain ⟨⟨it, t1⟩, h3, h⟩ := bind_some h
  obtain ⟨⟨it', ints, t1', t3⟩, h4, h⟩ := bind_some h
  obtain ⟨⟨it'', t2⟩, h5, h⟩ := bind_some h
  simp only [Option.pure_def, Option.some.injEq, Prod.mk.injEq] at h h4 h5
  obtain ⟨rfl, rfl, rfl, rfl⟩ := h
  obtain ⟨bs, hb⟩ : ∃ bs, bitsAt (words c rs) [] = b0 :: bs := by
    cases e : bitsAt (words c rs) [] with
    | nil => rw [e] at h2; simp at h2
    | cons b bs => rw [e] at h2; simp at h2; exact ⟨bs, by rw [h2]⟩
  have hrn : ∃ l r, c.root = .node none l r := by
    rcases hg.root with ⟨l, r, h, _⟩ | ⟨s, h⟩
    · exact ⟨l, r, h⟩
    · exact ⟨_, _, h⟩
  obtain ⟨l, r, hroot⟩ := hrn
  obtain ⟨q, ints0, hst⟩ := root_step hg hcov hall hadj hb
  obtain ⟨ql, qr, hql, hqr, hq1, hq2⟩ := hst.dec
  rw [hb] at h3 h4
  have h4' : encQueue P A (treeOf c rs) fuel q ints0 t1 s3 = some (it', ints, t1', t3) := by
    rw [← hst.encQ, ← hst.encI]
    exact h4
  obtain ⟨d1, hqi, hdi, hfeed⟩ := queue_lockstep P A hg hrs hall fuel fuel' q ints0 _ _ _ _ _ _ _ (by omega) hst.queue
    hst.heap h4'
  obtain ⟨i1, i2, i3, i4⟩ := ints_start hg hcov hall hqi hdi
  rw [← i4] at h5
  obtain ⟨g, v2, hgI, hv, hfeed2⟩ := ints_lockstep hg hcov G hreset fuel fuel' 0 _ d1 _ _ _ hf i1 i2 i3 h5
  refine ⟨g, v2, hgI, hv, ?_⟩
  intro rest
  have hn : c.root.get [] = .node none l r := by rw [Sh.get_nil_path, hroot]
  rw [decodeTree, ofShape_node hn, hb]
  simp only []
  rw [if_neg (by simp), Prog.feed_bind, List.append_assoc, List.append_assoc, feed_decBits P _ _ _ _ h3]
  simp only [Option.bind_some, List.nil_append, List.head?_cons]
  have hlast : ((decQueue P A c.itree fuel' ((Heap.ofShape c.root).set [] ⟨none, b0 :: bs⟩) (ql.1 ++ qr.1) (ql.2 ++ qr.2) t1
      s3).bind fun x => (decInts G c.w (decide (1 < c.icodes.length)) fuel' x.2.1 x.1 s2).bind fun y =>
        Prog.ret (y.1, x.2.2.1, y.2, x.2.2.2)).feed (it' ++ (it'' ++ rest)) = some ((g, t1', v2, t3), rest) := by
    rw [hq1, hq2, Prog.feed_bind, hfeed]
    simp only [Option.bind_some]
    rw [Prog.feed_bind, hfeed2]
    rfl
  cases b0
  · refine (Prog.feed_lift_bind hql _ _).trans ?_
    exact (Prog.feed_lift_bind hqr _ _).trans hlast
  · refine (Prog.feed_lift_bind hql _ _).trans ?_
    exact (Prog.feed_lift_bind hqr _ _).trans hlast

include hall in
/-- The encoder gets through the tree if the models never fail. -/
theorem tree_total {I : σ₁ → Prop} {K : σ₂ → Prop} {J : σ₃ → Prop} (hP : Total P I) (hG : Total G K) (hA : Total A J)
    (hne : rs ≠ []) (hadj : Runs.AdjDiff rs) {fuel : Nat} (hf1 : c.root.inners ≤ fuel)
    (hf2 : ∀ x ∈ rs, (icode c x.2).length < fuel)
    {s1 : σ₁} {s2 : σ₂} {s3 : σ₃} (i1 : I s1) (i2 : K s2) (i3 : J s3) :
    ∃ items u1 u2 u3, encodeTree P G A fuel (treeOf c rs) s1 s2 s3 = some (items, u1, u2, u3) ∧ I u1 ∧ K u2 ∧ J u3 ∧
      ∀ x ∈ items, x.2 ≤ 4096 := by
  have hrs : ∀ x ∈ rs, x.1.toNat ∈ c.codes.map (·.1) := fun x hx => (hcov x hx).1
  have hrn : ∃ l r, c.root = .node none l r := by
    rcases hg.root with ⟨l, r, h, _⟩ | ⟨s, h⟩
    · exact ⟨l, r, h⟩
    · exact ⟨_, _, h⟩
  obtain ⟨l, r, hroot⟩ := hrn
  have hn : c.root.get [] = .node none l r := by rw [Sh.get_nil_path, hroot]
  obtain ⟨b0, bs, hb⟩ : ∃ b0 bs, bitsAt (words c rs) [] = b0 :: bs := by
    rw [root_bits hg hcov hroot]
    cases rs with
    | nil => exact absurd rfl hne
    | cons x rs => exact ⟨_, _, rfl⟩
  obtain ⟨q, ints0, hst⟩ := root_step hg hcov hall hadj hb
  obtain ⟨it, t1, h1, j1, k1⟩ := encBits_total hP (b0 :: bs) s1 i1
  obtain ⟨it', ints, u1, u3, h2, j2, j3, k2⟩ := queue_total P A hg hrs hall hP hA fuel q ints0 t1 s3
    (by have := hst.work; omega) hst.queue j1 i3
  obtain ⟨d1, hqi, hdi, _⟩ := queue_lockstep P A hg hrs hall fuel fuel q ints0 _ _ _ _ _ _ _ (Nat.le_refl _) hst.queue
    hst.heap h2
  obtain ⟨e1, e2, e3, e4⟩ := ints_start hg hcov hall hqi hdi
  have hpos : 0 < fuel := by
    obtain ⟨x, hx⟩ := List.exists_mem_of_ne_nil _ hne
    have := hf2 x hx
    omega
  obtain ⟨it'', u2, h3, j4, k3⟩ := ints_total hg hcov hG (M := fuel - 1) (fun x hx => by have := hf2 x hx; omega) fuel 0 _ s2
    (by omega) hpos e1 i2
  rw [e4] at h3
  refine ⟨it ++ it' ++ it'', u1, u2, u3, ?_, j2, j4, j3, ?_⟩
  · rw [encodeTree, treeOf_root hn, hb]
    simp only [Option.bind_eq_bind, Option.bind_some, List.head?_cons, h1]
    rw [hst.encQ, hst.encI, h2]
    simp only [Option.bind_some, h3]
    rfl
  · intro x hx
    rcases List.mem_append.mp hx with hx | hx
    · rcases List.mem_append.mp hx with hx | hx
      · exact k1 x hx
      · exact k2 x hx
    · exact k3 x hx

end

end

end Bwtc.Wave
