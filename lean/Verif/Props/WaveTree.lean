import Verif.WaveMake

/-!
# C24: the wavelet tree determines the message
-/

set_option autoImplicit false

namespace Bwtc.Props
open Wave Huff

/-- A tree `g` that a decoder has rebuilt from the codes `c` and the bit vectors of the tree `h`: the
bit vectors are those of `h`; the nodes have the symbols of the code tree of the bytes, and below its
leaves those of the code tree of the run lengths, wherever `h` has a node. -/
structure Rebuilt (c : Codes) (h g : Heap) : Prop where
  bits : ∀ q n, h q = some n → n.bits ≠ [] → ∃ m, g q = some m ∧ m.bits = n.bits
  byte : ∀ q s l r m, c.root.get q = .node s l r → g q = some m → m.sym = s
  run : ∀ p q s s' l r n, c.root.get p = .leaf s → q ≠ [] → c.itree.get q = .node s' l r →
    h (p ++ q) = some n → ∃ m, g (p ++ q) = some m ∧ m.sym = s'

theorem Rebuilt.labelled {c : Codes} {rs : List (UInt8 × Nat)} {g : Heap} (h : Rebuilt c (treeOf c rs) g) :
    Labelled c rs g := by
  refine ⟨?_, h.byte, ?_⟩
  · intro q hq
    obtain ⟨n, hn⟩ := treeOf_of_bits hq
    have hb := treeOf_bits hn
    obtain ⟨m, h1, h2⟩ := h.bits q n hn (by rw [hb]; exact hq)
    exact ⟨m, h1, by rw [h2, hb]⟩
  · intro p q s s' l r x hp hq hi hx hpre
    obtain ⟨n, hn⟩ := treeOf_isSome hx hpre
    exact h.run p q s s' l r n hp hq hi hn

theorem rebuilt_relabel {c : Codes} (hg : GoodCodes c) (h : Heap) : Rebuilt c h (relabel c h) := by
  refine ⟨?_, ?_, ?_⟩
  · intro q n hn _
    exact ⟨⟨label c.itree c.root q, n.bits⟩, by rw [relabel, hn]; rfl, rfl⟩
  · intro q s l r m hq hm
    rw [relabel, Option.map_eq_some_iff] at hm
    obtain ⟨n, _, rfl⟩ := hm
    refine label_byte c.itree q c.root s l r ?_ hq
    intro p b x y l' r' e hp
    exact hg.root.no_below (by rw [← e, hq]; simp) hp
  · intro p q s s' l r n hp hq hi hn
    refine ⟨⟨label c.itree c.root (p ++ q), n.bits⟩, by rw [relabel, hn]; rfl, ?_⟩
    show label c.itree c.root (p ++ q) = s'
    rw [label_int c.itree p q c.root s hq ?_ hp, hi, Sh.sym]
    intro a b x y l' r' e ha
    exact hg.root.no_below (by rw [← e, hp]; simp [Sh.leaf]) ha

/-- C24.  For all prefix-free codes given by code trees that have the bytes of a message (the tree of the
run lengths may be any full tree with an escape symbol, or empty): the message is pushed without running off the tree,
and every tree with the same codes and the same bit vectors gives exactly the message back. -/
theorem C24_tree_determines_message (c : Codes) (hg : GoodCodes c) (data : List UInt8) (hne : data ≠ [])
    (hlen : data.length < 2 ^ 32) (hk : ∀ x ∈ data, x.toNat ∈ c.codes.map (·.1)) :
    ∃ h, pushMessage c data = some h ∧
      ∃ N, ∀ fuel, N ≤ fuel → ∀ g, Rebuilt c h g → message fuel c g = some data := by
  refine ⟨_, pushMessage_eq hg hne hlen hk, ((words c (Runs.runsOf data)).map List.length).sum + 1, ?_⟩
  intro fuel hf g hgr
  rw [message_ok hg (runsOf_ne_nil hne) (runs_covered hlen hk) hgr.labelled, (Runs.runsOf_isRuns data).expands]
  intro x hx
  have : (word c x).length ∈ (words c (Runs.runsOf data)).map List.length :=
    List.mem_map.mpr ⟨_, List.mem_map.mpr ⟨x, hx, rfl⟩, rfl⟩
  have := Sections.le_sum this
  omega

/-- C24, for the tree the encoder builds: whenever its constructor gets through for a message (the search for
the parameters of the run-length code may leave its containers, see C27), every tree with its codes
and bit vectors gives the message back. -/
theorem C24_message_roundtrip (cheap : Nat → Nat → Nat × Nat → Bool) (data : List UInt8) (hne : data ≠ [])
    (hlen : data.length < 2 ^ 32) (c : Codes) (h : Heap) (hm : makeTree cheap data = some (c, h)) :
    ∃ N, ∀ fuel, N ≤ fuel → ∀ g, Rebuilt c h g → message fuel c g = some data := by
  rw [makeTree] at hm
  cases hc : messageCodes cheap data with
  | none => rw [hc] at hm; simp at hm
  | some c' =>
    obtain ⟨hg, hk⟩ := messageCodes_good hne hlen hc
    obtain ⟨h', h1, h2⟩ := C24_tree_determines_message c' hg data hne hlen (fun x hx => (hk x).mpr hx)
    rw [hc] at hm
    simp only [Option.bind_eq_bind, Option.bind_some, h1] at hm
    have hm : some (c', h') = some (c, h) := hm
    rw [Option.some.injEq, Prod.mk.injEq] at hm
    rw [← hm.1, ← hm.2]
    exact h2

/-- C24: the constructor gets through for every message for which the search for the parameters
does, so the previous theorem applies. -/
theorem C24_tree_exists (cheap : Nat → Nat → Nat × Nat → Bool) (data : List UInt8) (hne : data ≠ [])
    (hlen : data.length < 2 ^ 32) (c : Codes) (hc : messageCodes cheap data = some c) :
    ∃ h, makeTree cheap data = some (c, h) ∧ ∃ g, Rebuilt c h g := by
  obtain ⟨hg, hk⟩ := messageCodes_good hne hlen hc
  obtain ⟨h, h1, _⟩ := C24_tree_determines_message c hg data hne hlen (fun x hx => (hk x).mpr hx)
  refine ⟨h, ?_, relabel c h, rebuilt_relabel hg h⟩
  rw [makeTree, hc]
  simp only [Option.bind_eq_bind, Option.bind_some, h1]
  rfl

/-- C24: different messages have different trees, under the same codes. -/
theorem C24_injective (c : Codes) (hg : GoodCodes c) (data data' : List UInt8) (hne : data ≠ []) (hne' : data' ≠ [])
    (hlen : data.length < 2 ^ 32) (hlen' : data'.length < 2 ^ 32) (hk : ∀ x ∈ data, x.toNat ∈ c.codes.map (·.1))
    (hk' : ∀ x ∈ data', x.toNat ∈ c.codes.map (·.1)) (h : pushMessage c data = pushMessage c data') : data = data' := by
  obtain ⟨t, h1, N, h2⟩ := C24_tree_determines_message c hg data hne hlen hk
  obtain ⟨t', h1', N', h2'⟩ := C24_tree_determines_message c hg data' hne' hlen' hk'
  rw [h1, h1', Option.some.injEq] at h
  subst h
  have e := h2 (max N N') (Nat.le_max_left _ _) _ (rebuilt_relabel hg t)
  have e' := h2' (max N N') (Nat.le_max_right _ _) _ (rebuilt_relabel hg t)
  rw [e, Option.some.injEq] at e'
  exact e'

/-- "aaabaabbb" with the codes the encoder chooses for it: the constructor gets through, the root has
four bits, and the tree with the decoder's symbols gives the message back. -/
example : ((makeTree (fun _ _ _ => false) [97, 97, 97, 98, 97, 97, 98, 98, 98]).bind fun r =>
    (r.2 []).map (·.bits)) = some [false, true, false, true] := by decide +kernel

example : ((makeTree (fun _ _ _ => false) [97, 97, 97, 98, 97, 97, 98, 98, 98]).bind fun r =>
    message 20 r.1 (relabel r.1 r.2)) = some [97, 97, 97, 98, 97, 97, 98, 98, 98] := by decide +kernel

/-- The codes the encoder chooses for that message meet the hypotheses on codes, for it and for another message of the same bytes. -/
example : ∃ c, messageCodes (fun _ _ _ => false) [97, 97, 97, 98, 97, 97, 98, 98, 98] = some c ∧ GoodCodes c ∧
    (∀ x ∈ ([97, 97, 97, 98, 97, 97, 98, 98, 98] : List UInt8), x.toNat ∈ c.codes.map (·.1)) ∧
    ∀ x ∈ ([98, 97] : List UInt8), x.toNat ∈ c.codes.map (·.1) := by
  have h : (messageCodes (fun _ _ _ => false) [97, 97, 97, 98, 97, 97, 98, 98, 98]).isSome = true := by decide +kernel
  obtain ⟨c, hc⟩ := Option.isSome_iff_exists.mp h
  obtain ⟨hg, hk⟩ := messageCodes_good (by decide) (by decide) hc
  exact ⟨c, hc, hg, fun x hx => (hk x).mpr hx, fun x hx => (hk x).mpr (by revert x; decide)⟩

end Bwtc.Props
