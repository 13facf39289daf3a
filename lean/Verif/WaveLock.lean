import Verif.WaveQueue

/-!
# Encoder and decoder in lockstep: the queue of inner nodes
-/

set_option autoImplicit false

namespace Bwtc.Wave
open ProbModels RangeCoder

theorem treeOf_root {c : Codes} {rs : List (UInt8 × Nat)} {p : Path} {s : Option Nat} {l r : Sh}
    (h : c.root.get p = .node s l r) : treeOf c rs p = some ⟨s, bitsAt (words c rs) p⟩ := by
  rw [treeOf, ofShape_node h]

/-- The decoder's entry for a symbol node. -/
def mkI (c : Codes) (xs : List UInt8) (x : Path) : INode := ⟨x, ⟨c.itree, 0, 0⟩, (through c xs x).length⟩

section
variable {σ₁ σ₃ : Type} (P : Model σ₁) (A : Model σ₃)

/-- What the encoder does with the bits of one queued node, by the symbols of the children. -/
def encNode (ls rs : Option Nat) (bits F : List Bool) (s1 : σ₁) (s3 : σ₃) : Option (List (Bool × Nat) × σ₁ × σ₃) :=
  match ls, rs with
  | some _, some _ => (encBoth A bits F s3).bind fun r => some (r.1, s1, r.2)
  | some _, none => encMixed P A true true bits F s1 s3
  | none, some _ => none
  | none, none => encMixed P A false true bits F s1 s3

theorem encMixed_first (leftSym p p' b : Bool) (bs gs : List Bool) (s1 : σ₁) (s3 : σ₃) :
    encMixed P A leftSym p (b :: bs) (true :: gs) s1 s3 = encMixed P A leftSym p' (b :: bs) (true :: gs) s1 s3 := by
  rw [encMixed, encMixed]

variable {c : Codes} (hg : GoodCodes c) {rs : List (UInt8 × Nat)} (hrs : ∀ x ∈ rs, x.1.toNat ∈ c.codes.map (·.1))
  (hall : ∀ s ∈ c.codes.map (·.1), ∃ x ∈ rs.map (·.1), x.toNat = s)

include hrs in
theorem keys_fst : ∀ x ∈ rs.map (·.1), x.toNat ∈ c.codes.map (·.1) := by
  intro x hx
  obtain ⟨r, hr, rfl⟩ := List.mem_map.mp hx
  exact hrs r hr

include hg hrs hall

theorem enc_step {p : Path} {F : List Bool} {q : List (Path × List Bool)} {ints : List Path}
    (h : QInv c (rs.map (·.1)) ((p, F) :: q) ints) (fuel : Nat) (s1 : σ₁) (s3 : σ₃) :
    encQueue P A (treeOf c rs) (fuel + 1) ((p, F) :: q) ints s1 s3 =
      (P.reset s1).bind fun s1 => (A.reset s3).bind fun s3 =>
        (encNode P A (c.root.get (p ++ [false])).sym (c.root.get (p ++ [true])).sym
          ((through c (rs.map (·.1)) p).map (bitOf c p)) F s1 s3).bind fun r =>
          (encQueue P A (treeOf c rs) fuel (q ++ (childQ c.root p F ((through c (rs.map (·.1)) p).map (bitOf c p)) false ++
              childQ c.root p F ((through c (rs.map (·.1)) p).map (bitOf c p)) true))
            (ints ++ (childI c.root p false ++ childI c.root p true)) r.2.1 r.2.2).bind fun x => some (r.1 ++ x.1, x.2) := by
  obtain ⟨l, r, hp, hl, hr, hc⟩ := h.inner (p, F) (by simp)
  have hp : c.root.get p = .node none l r := hp
  have hfl := h.flags (p, F) (by simp)
  have hbits := bitsAt_through hg hp hrs
  have hgl : c.root.get (p ++ [false]) = l := by rw [get_snoc hp]; rfl
  have hgr : c.root.get (p ++ [true]) = r := by rw [get_snoc hp]; rfl
  rcases hfl.first with ⟨hnil, _⟩ | ⟨x, xs', fs', hx, hF, _⟩
  · exact absurd hnil (through_ne hg hall (by rw [hp]; exact Full.node l r hl hr hc))
  have hF : F = true :: fs' := hF
  have hx : through c (rs.map (·.1)) p = x :: xs' := hx
  have hL : ∀ s l' r', l = .node s l' r' → treeOf c rs (p ++ [false]) = some ⟨s, bitsAt (words c rs) (p ++ [false])⟩ :=
    fun s l' r' e => treeOf_root (by rw [hgl, e])
  have hR : ∀ s l' r', r = .node s l' r' → treeOf c rs (p ++ [true]) = some ⟨s, bitsAt (words c rs) (p ++ [true])⟩ :=
    fun s l' r' e => treeOf_root (by rw [hgr, e])
  rw [encQueue, treeOf_root hp, hbits, hx, List.map_cons, hF]
  simp only [Option.bind_eq_bind, Option.bind_some, List.head?_cons]
  rcases hl.cases' with ⟨sl, hsl⟩ | ⟨ll, lr, hsl, _⟩ <;> rcases hr.cases' with ⟨sr, hsr⟩ | ⟨rl, rr, hsr, _⟩
  · rw [hL _ _ _ hsl, hR _ _ _ hsr]
    simp only [Option.bind_some, encNode, childQ, childI, hgl, hgr, hsl, hsr, Sh.leaf_sym, Option.isSome_some, if_true]
    cases P.reset s1 with
    | none => rfl
    | some t1 =>
      cases A.reset s3 with
      | none => rfl
      | some t3 =>
        simp only [Option.bind_some]
        cases encBoth A (bitOf c p x :: List.map (bitOf c p) xs') (true :: fs') t3 with
        | none => rfl
        | some y => simp
  · rw [hL _ _ _ hsl, hR _ _ _ hsr]
    simp only [Option.bind_some, encNode, childQ, childI, hgl, hgr, hsl, hsr, Sh.leaf_sym, Sh.node_sym_none,
      Option.isSome_some, Option.isSome_none, if_true]
    cases P.reset s1 with
    | none => rfl
    | some t1 =>
      cases A.reset s3 with
      | none => rfl
      | some t3 =>
        simp only [Option.bind_some]
        rw [encMixed_first P A true _ true, childGaps_first _ _ true]
        cases encMixed P A true true (bitOf c p x :: List.map (bitOf c p) xs') (true :: fs') t1 t3 with
        | none => rfl
        | some y => simp
  · obtain ⟨s', hs'⟩ := hc sr hsr
    rw [hsl] at hs'
    simp [Sh.leaf] at hs'
  · rw [hL _ _ _ hsl, hR _ _ _ hsr]
    simp only [Option.bind_some, encNode, childQ, childI, hgl, hgr, hsl, hsr, Sh.node_sym_none, Option.isSome_none]
    cases P.reset s1 with
    | none => rfl
    | some t1 =>
      cases A.reset s3 with
      | none => rfl
      | some t3 =>
        simp only [Option.bind_some]
        rw [encMixed_first P A false _ true, childGaps_first false _ true, childGaps_first true _ true]
        cases encMixed P A false true (bitOf c p x :: List.map (bitOf c p) xs') (true :: fs') t1 t3 with
        | none => rfl
        | some y => simp

theorem dec_step {p : Path} {F : List Bool} {q : List (Path × List Bool)} {ints : List Path}
    (h : QInv c (rs.map (·.1)) ((p, F) :: q) ints) {d : Heap} (hd : DInv c rs d ((p, F) :: q)) (fuel : Nat)
    {s1 t1 u1 : σ₁} {s3 t3 u3 : σ₃} (h1 : P.reset s1 = some t1) (h3 : A.reset s3 = some t3) {it : List (Bool × Nat)}
    (hn : encNode P A (c.root.get (p ++ [false])).sym (c.root.get (p ++ [true])).sym
      ((through c (rs.map (·.1)) p).map (bitOf c p)) F t1 t3 = some (it, u1, u3)) (rest : List (Bool × Nat)) :
    (decQueue P A c.itree (fuel + 1) d ((p, F) :: q) (ints.map (mkI c (rs.map (·.1)))) s1 s3).feed (it ++ rest) =
      (decQueue P A c.itree fuel (d.set p ⟨none, bitsAt (words c rs) p⟩)
        (q ++ (childQ c.root p F ((through c (rs.map (·.1)) p).map (bitOf c p)) false ++
              childQ c.root p F ((through c (rs.map (·.1)) p).map (bitOf c p)) true))
        ((ints ++ (childI c.root p false ++ childI c.root p true)).map (mkI c (rs.map (·.1)))) u1 u3).feed rest := by
  have hxs := keys_fst hrs
  obtain ⟨l, r, hp, hl, hr, hc⟩ := h.inner (p, F) (by simp)
  have hp : c.root.get p = .node none l r := hp
  have hfl := h.flags (p, F) (by simp)
  have hfl : FlagsOk none (through c (rs.map (·.1)) p) F := hfl
  have hbits := bitsAt_through hg hp hrs
  have hgl : c.root.get (p ++ [false]) = l := by rw [get_snoc hp]; rfl
  have hgr : c.root.get (p ++ [true]) = r := by rw [get_snoc hp]; rfl
  have hlen := hfl.length
  have hcnt : ∀ b, (through c (rs.map (·.1)) (p ++ [b])).length =
      ((through c (rs.map (·.1)) p).map (bitOf c p)).count b := by
    intro b
    rw [through_child hg hp hxs b, ← List.countP_eq_length_filter, List.count, List.countP_map]
    apply List.countP_congr
    intro x _
    simp
  have hsum := count_both ((through c (rs.map (·.1)) p).map (bitOf c p))
  rw [List.length_map] at hsum
  have hcl : F.length - ((through c (rs.map (·.1)) p).map (bitOf c p)).count true =
      (through c (rs.map (·.1)) (p ++ [false])).length := by
    rw [hcnt]; omega
  have hdp : d p = some ⟨none, []⟩ := by
    rw [hd p, hp]
    simp only []
    rw [if_neg]
    rintro ⟨_, hcl⟩
    exact hcl p (by simp) (List.prefix_refl p)
  have hdL : ∀ s l' r', l = .node s l' r' → ∃ bs, d (p ++ [false]) = some ⟨s, bs⟩ := by
    intro s l' r' e
    rw [hd, hgl, e]
    exact ⟨_, rfl⟩
  have hdR : ∀ s l' r', r = .node s l' r' → ∃ bs, d (p ++ [true]) = some ⟨s, bs⟩ := by
    intro s l' r' e
    rw [hd, hgr, e]
    exact ⟨_, rfl⟩
  have hin : ∀ x ∈ through c (rs.map (·.1)) p, x ∈ through c (rs.map (·.1)) p := fun x hx => hx
  have hside : ∀ b s, (if b then r else l) = .leaf s → ∀ x ∈ through c (rs.map (·.1)) p, bitOf c p x = b → x.toNat = s := by
    intro b s hb x hx e
    obtain ⟨hx1, hx2⟩ := mem_through.mp hx
    have hpre := (prefix_child hg hp (hxs x hx1) b).mpr ⟨hx2, e⟩
    exact (through_leaf hg (by rw [get_snoc hp, hb]) (hxs x hx1) hpre).1
  rw [decQueue, Prog.feed_lift_bind h1, Prog.feed_lift_bind h3, hdp, hbits]
  rcases hl.cases' with ⟨sl, hsl⟩ | ⟨ll, lr, hsl, _⟩ <;> rcases hr.cases' with ⟨sr, hsr⟩ | ⟨rl, rr, hsr, _⟩
  · obtain ⟨bl, hbl⟩ := hdL _ _ _ hsl
    obtain ⟨br, hbr⟩ := hdR _ _ _ hsr
    rw [hbl, hbr]
    simp only [encNode, hgl, hgr, hsl, hsr, Sh.leaf_sym] at hn
    simp only [childQ, childI, hgl, hgr, hsl, hsr, Sh.leaf_sym, Option.isSome_some, if_true]
    obtain ⟨⟨it', v3⟩, hb, hn⟩ := Option.bind_eq_some_iff.mp hn
    simp only [Option.some.injEq, Prod.mk.injEq] at hn
    obtain ⟨rfl, rfl, rfl⟩ := hn
    rw [Prog.feed_bind, feed_decBoth A _ _ true _ _ _ (FlagsOk.both ?_ hin (by simp) hfl) hb]
    · simp only [Option.bind_some, List.nil_append, List.append_nil]
      rw [hcl, List.map_append]
      simp only [List.singleton_append, List.map_cons, List.map_nil, mkI, hcnt true]
    · intro x hx y hy e
      apply UInt8.toNat_inj.mp
      cases hb : bitOf c p x with
      | false => rw [hside false sl hsl x hx hb, hside false sl hsl y hy (by rw [← e, hb])]
      | true => rw [hside true sr hsr x hx hb, hside true sr hsr y hy (by rw [← e, hb])]
  · obtain ⟨bl, hbl⟩ := hdL _ _ _ hsl
    obtain ⟨br, hbr⟩ := hdR _ _ _ hsr
    rw [hbl, hbr]
    simp only [encNode, hgl, hgr, hsl, hsr, Sh.leaf_sym, Sh.node_sym_none] at hn
    simp only [childQ, childI, hgl, hgr, hsl, hsr, Sh.leaf_sym, Sh.node_sym_none, Option.isSome_some, Option.isSome_none,
      if_true]
    rw [Prog.feed_bind, feed_decMixed P A true _ _ true _ _ _ _ (FlagsOk.mixed ?_ hin (by simp) hfl) hn]
    · simp only [Option.bind_some, List.nil_append, List.append_nil]
      rw [childGaps_length true true _ _ (by rw [List.length_map, hlen]), hcl, List.map_append]
      simp [mkI]
    · intro _ x hx y hy e e'
      apply UInt8.toNat_inj.mp
      rw [hside false sl hsl x hx e, hside false sl hsl y hy e']
  · obtain ⟨s', hs'⟩ := hc sr hsr
    rw [hsl] at hs'
    simp [Sh.leaf] at hs'
  · obtain ⟨bl, hbl⟩ := hdL _ _ _ hsl
    obtain ⟨br, hbr⟩ := hdR _ _ _ hsr
    rw [hbl, hbr]
    simp only [encNode, hgl, hgr, hsl, hsr, Sh.node_sym_none] at hn
    simp only [childQ, childI, hgl, hgr, hsl, hsr, Sh.node_sym_none, Option.isSome_none]
    rw [Prog.feed_bind, feed_decMixed P A false _ _ true _ _ _ _ (FlagsOk.mixed (by simp) hin (by simp) hfl) hn]
    simp

/-- The queue: the decoder reads what the encoder writes. -/
theorem queue_lockstep : ∀ (fuel fuel' : Nat) (q : List (Path × List Bool)) (ints : List Path) (d : Heap) (s1 : σ₁) (s3 : σ₃)
    (items : List (Bool × Nat)) (ints' : List Path) (u1 : σ₁) (u3 : σ₃), fuel ≤ fuel' →
    QInv c (rs.map (·.1)) q ints → DInv c rs d q →
    encQueue P A (treeOf c rs) fuel q ints s1 s3 = some (items, ints', u1, u3) →
    ∃ d', QInv c (rs.map (·.1)) [] ints' ∧ DInv c rs d' [] ∧ ∀ rest,
      (decQueue P A c.itree fuel' d q (ints.map (mkI c (rs.map (·.1)))) s1 s3).feed (items ++ rest) =
        some ((d', ints'.map (mkI c (rs.map (·.1))), u1, u3), rest)
  | 0, _, _, _, _, _, _, _, _, _, _, _, _, _, h => by simp [encQueue] at h
  | _ + 1, 0, _, _, _, _, _, _, _, _, _, hf, _, _, _ => by omega
  | fuel + 1, fuel' + 1, [], ints, d, s1, s3, items, ints', u1, u3, _, hq, hd, h => by
    simp only [encQueue, Option.some.injEq, Prod.mk.injEq] at h
    obtain ⟨rfl, rfl, rfl, rfl⟩ := h
    exact ⟨d, hq, hd, fun rest => by rw [decQueue]; rfl⟩
  | fuel + 1, fuel' + 1, (p, F) :: q, ints, d, s1, s3, items, ints', u1, u3, hf, hq, hd, h => by
    rw [enc_step P A hg hrs hall hq] at h
    obtain ⟨t1, h1, h⟩ := Option.bind_eq_some_iff.mp h
    obtain ⟨t3, h3, h⟩ := Option.bind_eq_some_iff.mp h
    obtain ⟨⟨it, v1, v3⟩, h4, h⟩ := Option.bind_eq_some_iff.mp h
    obtain ⟨⟨it', ints2, w1, w3⟩, h5, h⟩ := Option.bind_eq_some_iff.mp h
    simp only [Option.some.injEq, Prod.mk.injEq] at h
    obtain ⟨rfl, rfl, rfl, rfl⟩ := h
    obtain ⟨d', h6, h7, h8⟩ := queue_lockstep fuel fuel' _ _ (d.set p ⟨none, bitsAt (words c rs) p⟩) v1 v3 it' ints2 w1 w3
      (by omega) (QInv.step hg (keys_fst hrs) hq) (DInv.step hq hd) h5
    refine ⟨d', h6, h7, ?_⟩
    intro rest
    rw [List.append_assoc, dec_step P A hg hrs hall hq hd fuel' h1 h3 h4]
    exact h8 rest

/-- The queue is processed if the models never fail. -/
theorem queue_total {I : σ₁ → Prop} {J : σ₃ → Prop} (hP : Total P I) (hA : Total A J) :
    ∀ (fuel : Nat) (q : List (Path × List Bool)) (ints : List Path) (s1 : σ₁) (s3 : σ₃), work c q < fuel →
    QInv c (rs.map (·.1)) q ints → I s1 → J s3 →
    ∃ items ints' u1 u3, encQueue P A (treeOf c rs) fuel q ints s1 s3 = some (items, ints', u1, u3) ∧ I u1 ∧ J u3 ∧
      ∀ x ∈ items, x.2 ≤ 4096
  | 0, _, _, _, _, h, _, _, _ => by omega
  | fuel + 1, [], ints, s1, s3, _, _, i1, i3 => ⟨[], ints, s1, s3, rfl, i1, i3, by simp⟩
  | fuel + 1, (p, F) :: q, ints, s1, s3, hf, hq, i1, i3 => by
    obtain ⟨t1, h1, j1⟩ := hP.reset s1 i1
    obtain ⟨t3, h3, j3⟩ := hA.reset s3 i3
    obtain ⟨l, r, hp, hl, hr, hc⟩ := hq.inner (p, F) (by simp)
    have hp : c.root.get p = .node none l r := hp
    have hgl : c.root.get (p ++ [false]) = l := by rw [get_snoc hp]; rfl
    have hgr : c.root.get (p ++ [true]) = r := by rw [get_snoc hp]; rfl
    have hlen : F.length = ((through c (rs.map (·.1)) p).map (bitOf c p)).length := by
      rw [List.length_map]; exact (hq.flags (p, F) (by simp)).length
    have hnode : ∃ it v1 v3, encNode P A (c.root.get (p ++ [false])).sym (c.root.get (p ++ [true])).sym
        ((through c (rs.map (·.1)) p).map (bitOf c p)) F t1 t3 = some (it, v1, v3) ∧ I v1 ∧ J v3 ∧ ∀ x ∈ it, x.2 ≤ 4096 := by
      rw [hgl, hgr]
      rcases hl.cases' with ⟨sl, hsl⟩ | ⟨ll, lr, hsl, _⟩ <;> rcases hr.cases' with ⟨sr, hsr⟩ | ⟨rl, rr, hsr, _⟩
      · obtain ⟨it, v3, e1, e2, e3⟩ := encBoth_total hA ((through c (rs.map (·.1)) p).map (bitOf c p)) F t3 hlen j3
        refine ⟨it, t1, v3, ?_, j1, e2, e3⟩
        simp only [encNode, hsl, hsr, Sh.leaf_sym, e1, Option.bind_some]
      · obtain ⟨it, v1, v3, e1, e2, e3⟩ :=
          encMixed_total hP hA true ((through c (rs.map (·.1)) p).map (bitOf c p)) F true t1 t3 hlen j1 j3
        refine ⟨it, v1, v3, ?_, e2, e3⟩
        simp only [encNode, hsl, hsr, Sh.leaf_sym, Sh.node_sym_none, e1]
      · obtain ⟨s', hs'⟩ := hc sr hsr
        rw [hsl] at hs'
        simp [Sh.leaf] at hs'
      · obtain ⟨it, v1, v3, e1, e2, e3⟩ :=
          encMixed_total hP hA false ((through c (rs.map (·.1)) p).map (bitOf c p)) F true t1 t3 hlen j1 j3
        refine ⟨it, v1, v3, ?_, e2, e3⟩
        simp only [encNode, hsl, hsr, Sh.node_sym_none, e1]
    obtain ⟨it, v1, v3, h4, k1, k3, hle⟩ := hnode
    have hw := work_step (bits := (through c (rs.map (·.1)) p).map (bitOf c p)) hq
    obtain ⟨it', ints', u1, u3, h5, m1, m3, hle'⟩ := queue_total hP hA fuel _ _ v1 v3 (by omega)
      (QInv.step hg (keys_fst hrs) hq) k1 k3
    refine ⟨it ++ it', ints', u1, u3, ?_, m1, m3, ?_⟩
    · rw [enc_step P A hg hrs hall hq, h1, Option.bind_some, h3, Option.bind_some, h4, Option.bind_some, h5, Option.bind_some]
    · intro x hx
      rcases List.mem_append.mp hx with hx | hx
      · exact hle x hx
      · exact hle' x hx

end

end Bwtc.Wave
