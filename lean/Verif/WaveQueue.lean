import Verif.WaveFeed
import Verif.WaveMake

/-!
# The queue of inner nodes: invariants shared by encoder and decoder
-/

set_option autoImplicit false

namespace Bwtc.Wave
open ProbModels RangeCoder

/-! ## Bytes passing a node -/

/-- The bytes whose codes pass a node, in order. -/
def through (c : Codes) (xs : List UInt8) (p : Path) : List UInt8 := xs.filter fun x => decide (p <+: ccode c x)

/-- The bit the code of a byte has at a node it passes. -/
def bitOf (c : Codes) (p : Path) (x : UInt8) : Bool := nextBit p (ccode c x) == some true

theorem bitOf_eq {c : Codes} {p : Path} {x : UInt8} {b : Bool} (h : nextBit p (ccode c x) = some b) : bitOf c p x = b := by
  rw [bitOf, h]
  cases b <;> rfl

section
variable {c : Codes} (hg : GoodCodes c)
include hg

theorem code_goes_on {p : Path} {l r : Sh} (hp : c.root.get p = .node none l r) {x : UInt8}
    (hx : x.toNat ∈ c.codes.map (·.1)) (h : p <+: ccode c x) : ∃ b rest, ccode c x = p ++ b :: rest := by
  obtain ⟨e, he⟩ := h
  cases e with
  | nil =>
    rw [List.append_nil] at he
    have := ccode_get hg hx
    rw [← he, hp] at this
    simp [Sh.leaf] at this
  | cons b rest => exact ⟨b, rest, he.symm⟩

theorem word_next {p : Path} {l r : Sh} (hp : c.root.get p = .node none l r) {x : UInt8 × Nat}
    (hx : x.1.toNat ∈ c.codes.map (·.1)) :
    nextBit p (word c x) = if p <+: ccode c x.1 then some (bitOf c p x.1) else none := by
  split
  · rename_i h
    obtain ⟨b, rest, he⟩ := code_goes_on hg hp hx h
    have h1 : nextBit p (ccode c x.1) = some b := nextBit_eq_some.mpr ⟨rest, he⟩
    rw [bitOf_eq h1]
    exact nextBit_eq_some.mpr ⟨rest ++ icode c x.2, by rw [word, he]; simp⟩
  · rename_i h
    cases e : nextBit p (word c x) with
    | none => rfl
    | some b =>
      exfalso
      obtain ⟨y, hy⟩ := nextBit_eq_some.mp e
      rcases append_comparable (a := ccode c x.1) (b := icode c x.2) hy with ⟨z, h1, _⟩ | ⟨z, h1, _⟩
      · have h2 := ccode_get hg hx
        rw [h1, Sh.get_append, h2] at hp
        cases z with
        | nil => simp [Sh.leaf] at hp
        | cons b z => rw [Sh.leaf_get] at hp; simp at hp
      · exact h ⟨z, h1.symm⟩

theorem bitsAt_through {p : Path} {l r : Sh} (hp : c.root.get p = .node none l r) {rs : List (UInt8 × Nat)}
    (hrs : ∀ x ∈ rs, x.1.toNat ∈ c.codes.map (·.1)) :
    bitsAt (words c rs) p = (through c (rs.map (·.1)) p).map (bitOf c p) := by
  induction rs with
  | nil => rfl
  | cons x rs ih =>
    have h1 := ih (fun y hy => hrs y (List.mem_cons_of_mem _ hy))
    rw [words, List.map_cons, bitsAt_cons, word_next hg hp (hrs x (by simp)), List.map_cons, through, List.filter_cons]
    have h1 : bitsAt (List.map (word c) rs) p = _ := h1
    rw [h1]
    by_cases h : p <+: ccode c x.1
    · rw [if_pos h, if_pos (decide_eq_true h)]; rfl
    · rw [if_neg h, if_neg (by simpa using h)]; rfl

theorem prefix_child {p : Path} {l r : Sh} (hp : c.root.get p = .node none l r) {x : UInt8}
    (hx : x.toNat ∈ c.codes.map (·.1)) (b : Bool) : p ++ [b] <+: ccode c x ↔ p <+: ccode c x ∧ bitOf c p x = b := by
  constructor
  · rintro ⟨y, hy⟩
    refine ⟨⟨b :: y, by rw [← hy]; simp⟩, ?_⟩
    exact bitOf_eq (nextBit_eq_some.mpr ⟨y, by rw [← hy]; simp⟩)
  · rintro ⟨h1, h2⟩
    obtain ⟨b', rest, he⟩ := code_goes_on hg hp hx h1
    have h3 : bitOf c p x = b' := bitOf_eq (nextBit_eq_some.mpr ⟨rest, he⟩)
    rw [h2] at h3
    subst h3
    exact ⟨rest, by rw [he]; simp⟩

theorem through_child {p : Path} {l r : Sh} (hp : c.root.get p = .node none l r) {xs : List UInt8}
    (hxs : ∀ x ∈ xs, x.toNat ∈ c.codes.map (·.1)) (b : Bool) :
    through c xs (p ++ [b]) = (through c xs p).filter fun x => decide (bitOf c p x = b) := by
  rw [through, through, List.filter_filter]
  apply List.filter_congr
  intro x hx
  have := prefix_child hg hp (hxs x hx) b
  rw [Bool.eq_iff_iff, Bool.and_eq_true, decide_eq_true_eq, decide_eq_true_eq, decide_eq_true_eq, this, and_comm]

omit hg in
theorem mem_through {xs : List UInt8} {p : Path} {x : UInt8} : x ∈ through c xs p ↔ x ∈ xs ∧ p <+: ccode c x := by
  rw [through, List.mem_filter, decide_eq_true_eq]

theorem through_leaf {p : Path} {s : Nat} (hp : c.root.get p = .leaf s) {x : UInt8}
    (hx : x.toNat ∈ c.codes.map (·.1)) (h : p <+: ccode c x) : x.toNat = s ∧ ccode c x = p := by
  obtain ⟨e, he⟩ := h
  have h1 := ccode_get hg hx
  rw [← he] at h1
  obtain ⟨rfl, h2⟩ := leaf_prefix hp h1
  exact ⟨h2.symm, by rw [← he, List.append_nil]⟩

theorem prefix_word {p : Path} (hp : c.root.get p ≠ .nil) {x : UInt8 × Nat} (hx : x.1.toNat ∈ c.codes.map (·.1)) :
    p <+: word c x ↔ p <+: ccode c x.1 := by
  constructor
  · rintro ⟨y, hy⟩
    rcases append_comparable (a := ccode c x.1) (b := icode c x.2) hy.symm with ⟨z, h1, _⟩ | ⟨z, h1, _⟩
    · rw [h1, Sh.get_append, ccode_get hg hx] at hp
      cases z with
      | nil => exact ⟨[], by rw [h1]; simp⟩
      | cons b z => exact absurd (Sh.leaf_get _ _ _) hp
    · exact ⟨z, h1.symm⟩
  · rintro ⟨y, hy⟩
    exact ⟨y ++ icode c x.2, by rw [word, ← hy]; simp⟩

theorem thru_through {p : Path} (hp : c.root.get p ≠ .nil) {rs : List (UInt8 × Nat)}
    (hrs : ∀ x ∈ rs, x.1.toNat ∈ c.codes.map (·.1)) : thru (words c rs) p = (through c (rs.map (·.1)) p).length := by
  rw [thru, words, List.countP_map, through, ← List.countP_eq_length_filter, List.countP_map]
  apply List.countP_congr
  intro x hx
  have := prefix_word hg hp (hrs x hx)
  simp only [Function.comp, decide_eq_true_eq]
  exact this

omit hg in
theorem Full.has_leaf {t : Sh} (h : Full t) : ∃ q s, t.get q = .leaf s := by
  induction h with
  | leaf s => exact ⟨[], s, by simp⟩
  | node l r _ _ _ ih _ =>
    obtain ⟨q, s, hq⟩ := ih
    exact ⟨false :: q, s, hq⟩

theorem through_ne {xs : List UInt8} (hall : ∀ s ∈ c.codes.map (·.1), ∃ x ∈ xs, x.toNat = s) {p : Path}
    (hf : Full (c.root.get p)) : through c xs p ≠ [] := by
  obtain ⟨q, s, hq⟩ := Full.has_leaf hf
  rw [← Sh.get_append] at hq
  have hm := (hg.codes.mem _ _).mpr hq
  obtain ⟨x, hx, e⟩ := hall s (List.mem_map.mpr ⟨_, hm, rfl⟩)
  apply List.ne_nil_of_mem (a := x)
  rw [mem_through]
  refine ⟨hx, q, ?_⟩
  have := codeOf_mem hg.codes.nodup hm
  rw [ccode, e, this]

end

/-! ## Invariants of the queue -/

theorem Full.cases' {t : Sh} (h : Full t) : (∃ s, t = .leaf s) ∨
    ∃ l r, t = .node none l r ∧ Full l ∧ Full r ∧ ∀ s, r = .leaf s → ∃ s', l = .leaf s' := by
  cases h with
  | leaf s => exact Or.inl ⟨s, rfl⟩
  | node l r hl hr hc => exact Or.inr ⟨l, r, rfl, hl, hr, hc⟩

/-- What the queue and the list of symbol nodes look like in every round. -/
structure QInv (c : Codes) (xs : List UInt8) (q : List (Path × List Bool)) (ints : List Path) : Prop where
  inner : ∀ e ∈ q, ∃ l r, c.root.get e.1 = .node none l r ∧ Full l ∧ Full r ∧ ∀ s, r = .leaf s → ∃ s', l = .leaf s'
  flags : ∀ e ∈ q, FlagsOk none (through c xs e.1) e.2
  anti : (q.map (·.1)).Pairwise fun a b => ¬ a <+: b ∧ ¬ b <+: a
  leaves : ∀ x s, c.root.get x = .leaf s → (x ∈ ints ↔ ∀ p ∈ q.map (·.1), ¬ p <+: x)
  leaf : ∀ x ∈ ints, ∃ s, c.root.get x = .leaf s
  nodup : ints.Nodup

/-- What a child of a node contributes to the queue. -/
def childQ (t : Sh) (p : Path) (flags bits : List Bool) (b : Bool) : List (Path × List Bool) :=
  if (t.get (p ++ [b])).sym.isSome then [] else [(p ++ [b], childGaps b true bits flags)]

/-- What a child of a node contributes to the symbol nodes. -/
def childI (t : Sh) (p : Path) (b : Bool) : List Path :=
  if (t.get (p ++ [b])).sym.isSome then [p ++ [b]] else []

theorem prefix_snoc {r p : Path} {b : Bool} (h : r <+: p ++ [b]) : r <+: p ∨ r = p ++ [b] := by
  rcases List.prefix_concat_iff.mp h with h | h
  · exact Or.inr h
  · exact Or.inl h

theorem prefix_of_snoc {p x : Path} {b : Bool} (h : p ++ [b] <+: x) : p <+: x := by
  obtain ⟨e, he⟩ := h
  exact ⟨b :: e, by rw [← he]; simp⟩

theorem not_snoc_prefix {p : Path} {b : Bool} : ¬ p ++ [b] <+: p := by
  intro h
  have := h.length_le
  rw [List.length_append, List.length_singleton] at this
  omega

theorem snoc_eq_of_prefix {p x : Path} {b b' : Bool} (h : p ++ [b] <+: x) (h' : p ++ [b'] <+: x) : b = b' := by
  obtain ⟨e, he⟩ := h
  obtain ⟨e', he'⟩ := h'
  rw [← he'] at he
  simp at he
  exact he.1

theorem prefix_comparable {a b x : Path} (h : a <+: x) (h' : b <+: x) : a <+: b ∨ b <+: a := by
  rcases Nat.le_total a.length b.length with hl | hl
  · exact Or.inl (List.prefix_of_prefix_length_le h h' hl)
  · exact Or.inr (List.prefix_of_prefix_length_le h' h hl)

theorem mem_childQ {t : Sh} {p : Path} {flags bits : List Bool} {b : Bool} {e : Path × List Bool} :
    e ∈ childQ t p flags bits b ↔ (t.get (p ++ [b])).sym = none ∧ e = (p ++ [b], childGaps b true bits flags) := by
  rw [childQ]
  cases h : (t.get (p ++ [b])).sym <;> simp

theorem mem_childI {t : Sh} {p : Path} {b : Bool} {x : Path} :
    x ∈ childI t p b ↔ (t.get (p ++ [b])).sym ≠ none ∧ x = p ++ [b] := by
  rw [childI]
  cases h : (t.get (p ++ [b])).sym <;> simp

theorem mem_childQ_fst {t : Sh} {p : Path} {flags bits : List Bool} {x : Path} :
    x ∈ (childQ t p flags bits false ++ childQ t p flags bits true).map (·.1) ↔
      ∃ b, (t.get (p ++ [b])).sym = none ∧ x = p ++ [b] := by
  simp only [List.map_append, List.mem_append, List.mem_map, mem_childQ]
  constructor
  · rintro (⟨e, ⟨h1, rfl⟩, rfl⟩ | ⟨e, ⟨h1, rfl⟩, rfl⟩)
    · exact ⟨false, h1, rfl⟩
    · exact ⟨true, h1, rfl⟩
  · rintro ⟨b, h1, rfl⟩
    cases b
    · exact Or.inl ⟨_, ⟨h1, rfl⟩, rfl⟩
    · exact Or.inr ⟨_, ⟨h1, rfl⟩, rfl⟩

theorem mem_childI_both {t : Sh} {p : Path} {x : Path} :
    x ∈ childI t p false ++ childI t p true ↔ ∃ b, (t.get (p ++ [b])).sym ≠ none ∧ x = p ++ [b] := by
  rw [List.mem_append, mem_childI, mem_childI]
  constructor
  · rintro (h | h)
    · exact ⟨false, h⟩
    · exact ⟨true, h⟩
  · rintro ⟨b, h⟩
    cases b
    · exact Or.inl h
    · exact Or.inr h

theorem get_snoc {t : Sh} {p : Path} {l r : Sh} {s : Option Nat} (h : t.get p = .node s l r) (b : Bool) :
    t.get (p ++ [b]) = if b then r else l := by
  rw [Sh.get_append, h]
  cases b <;> simp [Sh.get]

/-- The path of a node below an inner node goes through one of its children. -/
theorem below_inner {p x : Path} (h : p <+: x) (hne : x ≠ p) : ∃ b, p ++ [b] <+: x := by
  obtain ⟨e, he⟩ := h
  cases e with
  | nil => rw [List.append_nil] at he; exact absurd he.symm hne
  | cons b e => exact ⟨b, e, by rw [← he]; simp⟩

/-- The trees below a path: a leaf has nothing below it. -/
theorem leaf_below {t : Sh} {p x : Path} {s : Nat} (h : t.get p = .leaf s) (hx : p <+: x) (hn : t.get x ≠ .nil) : x = p := by
  obtain ⟨e, rfl⟩ := hx
  rw [Sh.get_append, h] at hn
  cases e with
  | nil => rw [List.append_nil]
  | cons b e => exact absurd (Sh.leaf_get _ _ _) hn

section
variable {c : Codes} (hg : GoodCodes c) {xs : List UInt8} (hxs : ∀ x ∈ xs, x.toNat ∈ c.codes.map (·.1))
include hg hxs

theorem QInv.step {p : Path} {F : List Bool} {q : List (Path × List Bool)} {ints : List Path}
    (h : QInv c xs ((p, F) :: q) ints) :
    QInv c xs (q ++ (childQ c.root p F ((through c xs p).map (bitOf c p)) false ++
        childQ c.root p F ((through c xs p).map (bitOf c p)) true))
      (ints ++ (childI c.root p false ++ childI c.root p true)) := by
  obtain ⟨l, r, hp, hl, hr, hc⟩ := h.inner (p, F) (by simp)
  have hp : c.root.get p = .node none l r := hp
  have hfl := h.flags (p, F) (by simp)
  have hanti := h.anti
  rw [List.map_cons, List.pairwise_cons] at hanti
  have hchild : ∀ b, Full (c.root.get (p ++ [b])) := by
    intro b
    rw [get_snoc hp]
    cases b
    · exact hl
    · exact hr
  have hmemp : ∀ x ∈ q.map (·.1), ¬ p <+: x ∧ ¬ x <+: p := fun x hx => hanti.1 x hx
  have hout : ∀ x ∈ q.map (·.1), ∀ b, ¬ x <+: p ++ [b] ∧ ¬ p ++ [b] <+: x := by
    intro x hx b
    refine ⟨?_, fun hb => (hmemp x hx).1 (prefix_of_snoc hb)⟩
    intro hb
    rcases prefix_snoc hb with hb | rfl
    · exact (hmemp x hx).2 hb
    · exact (hmemp _ hx).1 ⟨[b], rfl⟩
  refine ⟨?_, ?_, ?_, ?_, ?_, ?_⟩
  · intro e he
    rw [List.mem_append, List.mem_append] at he
    rcases he with he | he
    · exact h.inner e (List.mem_cons_of_mem _ he)
    · have : ∃ b, (c.root.get (p ++ [b])).sym = none ∧ e.1 = p ++ [b] := by
        rcases he with he | he <;> (rw [mem_childQ] at he; exact ⟨_, he.1, by rw [he.2]⟩)
      obtain ⟨b, hb, e1⟩ := this
      rw [e1]
      rcases (hchild b).cases' with ⟨s, hs⟩ | hs
      · rw [hs, Sh.leaf_sym] at hb; simp at hb
      · exact hs
  · intro e he
    rw [List.mem_append, List.mem_append] at he
    rcases he with he | he
    · exact h.flags e (List.mem_cons_of_mem _ he)
    · have : ∃ b, e = (p ++ [b], childGaps b true ((through c xs p).map (bitOf c p)) F) := by
        rcases he with he | he <;> (rw [mem_childQ] at he; exact ⟨_, he.2⟩)
      obtain ⟨b, rfl⟩ := this
      simp only []
      rw [through_child hg hp hxs b]
      exact FlagsOk.child hfl (by simp) (by simp)
  · rw [List.map_append, List.pairwise_append]
    refine ⟨hanti.2, ?_, ?_⟩
    · rw [List.map_append, List.pairwise_append]
      have h1 : ∀ b, ((childQ c.root p F ((through c xs p).map (bitOf c p)) b).map (·.1)).Pairwise
          fun a b => ¬ a <+: b ∧ ¬ b <+: a := by
        intro b
        rw [childQ]
        split <;> simp
      refine ⟨h1 false, h1 true, ?_⟩
      intro a ha b hb
      obtain ⟨e, he, rfl⟩ := List.mem_map.mp ha
      obtain ⟨e', he', rfl⟩ := List.mem_map.mp hb
      rw [mem_childQ] at he he'
      rw [he.2, he'.2]
      constructor
      · rintro ⟨z, hz⟩; simp at hz
      · rintro ⟨z, hz⟩; simp at hz
    · intro a ha b hb
      rw [mem_childQ_fst] at hb
      obtain ⟨b', _, rfl⟩ := hb
      exact hout a ha b'
  · intro x s hx
    have hold := h.leaves x s hx
    rw [List.map_cons, List.forall_mem_cons] at hold
    rw [List.mem_append, mem_childI_both, List.map_append]
    constructor
    · rintro (hm | ⟨b, hb, rfl⟩) y hy
      · have hold := hold.mp hm
        rcases List.mem_append.mp hy with hy | hy
        · exact hold.2 y hy
        · obtain ⟨b, _, rfl⟩ := mem_childQ_fst.mp hy
          exact fun hpre => hold.1 (prefix_of_snoc hpre)
      · rcases List.mem_append.mp hy with hy | hy
        · exact (hout y hy b).1
        · obtain ⟨b', hb', rfl⟩ := mem_childQ_fst.mp hy
          intro hpre
          obtain ⟨z, hz⟩ := hpre
          simp at hz
          rw [hz.1] at hb'
          exact hb hb'
    · intro hy
      by_cases hpx : p <+: x
      · right
        have hne : x ≠ p := by
          intro e
          rw [e, hp] at hx
          simp [Sh.leaf] at hx
        obtain ⟨b, hb⟩ := below_inner hpx hne
        refine ⟨b, ?_, ?_⟩
        · intro hs
          exact hy (p ++ [b]) (List.mem_append.mpr (Or.inr (mem_childQ_fst.mpr ⟨b, hs, rfl⟩))) hb
        · rcases (hchild b).cases' with ⟨s', hs'⟩ | ⟨l', r', hs', _⟩
          · exact leaf_below hs' hb (by rw [hx]; simp [Sh.leaf])
          · exfalso
            exact hy (p ++ [b]) (List.mem_append.mpr (Or.inr (mem_childQ_fst.mpr ⟨b, by rw [hs']; rfl, rfl⟩))) hb
      · left
        refine hold.mpr ⟨hpx, fun y hy' => hy y (List.mem_append.mpr (Or.inl hy'))⟩
  · intro x hx
    rcases List.mem_append.mp hx with hx | hx
    · exact h.leaf x hx
    · obtain ⟨b, hb, rfl⟩ := mem_childI_both.mp hx
      rcases (hchild b).cases' with ⟨s, hs⟩ | ⟨l', r', hs, _⟩
      · exact ⟨s, hs⟩
      · rw [hs] at hb; exact absurd rfl hb
  · rw [List.nodup_append]
    refine ⟨h.nodup, ?_, ?_⟩
    · rw [List.nodup_append]
      have h1 : ∀ b, (childI c.root p b).Nodup := by
        intro b
        rw [childI]
        split <;> simp
      refine ⟨h1 false, h1 true, ?_⟩
      intro a ha b hb
      rw [mem_childI] at ha hb
      rw [ha.2, hb.2]
      simp
    · intro a ha b hb e
      obtain ⟨b', hb', rfl⟩ := mem_childI_both.mp hb
      obtain ⟨s, hs⟩ := h.leaf a ha
      have := (h.leaves a s hs).mp ha p (by simp)
      exact this (by rw [e]; exact ⟨[b'], rfl⟩)

end

/-! ## The decoder's tree during the queue phase -/

/-- No node of a list is at or above a path. -/
def Clear (ps : List Path) (x : Path) : Prop := ∀ p ∈ ps, ¬ p <+: x

instance (ps : List Path) (x : Path) : Decidable (Clear ps x) := inferInstanceAs (Decidable (∀ p ∈ ps, ¬ p <+: x))

/-- The decoder's tree while the queue is processed: nodes at or below a queued node are still
empty, as are the symbol nodes. -/
def DInv (c : Codes) (rs : List (UInt8 × Nat)) (d : Heap) (q : List (Path × List Bool)) : Prop :=
  ∀ x, d x = match c.root.get x with
    | .nil => none
    | .node s _ _ => some ⟨s, if s = none ∧ Clear (q.map (·.1)) x then bitsAt (words c rs) x else []⟩

theorem DInv.step {c : Codes} {rs : List (UInt8 × Nat)} {d : Heap} {p : Path} {F : List Bool}
    {q : List (Path × List Bool)} {ints : List Path} {xs : List UInt8} {bits : List Bool}
    (h : QInv c xs ((p, F) :: q) ints) (hd : DInv c rs d ((p, F) :: q)) :
    DInv c rs (d.set p ⟨none, bitsAt (words c rs) p⟩) (q ++ (childQ c.root p F bits false ++ childQ c.root p F bits true)) := by
  obtain ⟨l, r, hp, hl, hr, hc⟩ := h.inner (p, F) (by simp)
  have hp : c.root.get p = .node none l r := hp
  have hanti := h.anti
  rw [List.map_cons, List.pairwise_cons] at hanti
  have hmemp : ∀ x ∈ q.map (·.1), ¬ p <+: x ∧ ¬ x <+: p := fun x hx => hanti.1 x hx
  intro x
  rw [Heap.set]
  by_cases hx : x = p
  · rw [if_pos hx]
    subst hx
    rw [hp]
    simp only []
    rw [if_pos]
    refine ⟨trivial, ?_⟩
    intro y hy
    rw [List.map_append] at hy
    rcases List.mem_append.mp hy with hy | hy
    · exact (hmemp y hy).2
    · obtain ⟨b, _, rfl⟩ := mem_childQ_fst.mp hy
      exact not_snoc_prefix
  · rw [if_neg hx, hd x]
    cases hgx : c.root.get x with
    | nil => rfl
    | node s l' r' =>
      simp only []
      cases s with
      | some y => simp
      | none =>
        have key : Clear (((p, F) :: q).map (·.1)) x ↔
            Clear ((q ++ (childQ c.root p F bits false ++ childQ c.root p F bits true)).map (·.1)) x := by
          rw [Clear, Clear, List.map_cons, List.forall_mem_cons, List.map_append]
          constructor
          · rintro ⟨h1, h2⟩ y hy
            rcases List.mem_append.mp hy with hy | hy
            · exact h2 y hy
            · obtain ⟨b, _, rfl⟩ := mem_childQ_fst.mp hy
              exact fun hpre => h1 (prefix_of_snoc hpre)
          · intro h1
            refine ⟨?_, fun y hy => h1 y (List.mem_append.mpr (Or.inl hy))⟩
            intro hpx
            obtain ⟨b, hb⟩ := below_inner hpx hx
            refine h1 (p ++ [b]) (List.mem_append.mpr (Or.inr (mem_childQ_fst.mpr ⟨b, ?_, rfl⟩))) hb
            have hfull : Full (c.root.get (p ++ [b])) := by
              rw [get_snoc hp]
              cases b
              · exact hl
              · exact hr
            rcases hfull.cases' with ⟨s', hs'⟩ | ⟨l2, r2, hs', _⟩
            · have := leaf_below hs' hb (by rw [hgx]; simp)
              rw [this, hs'] at hgx
              simp [Sh.leaf] at hgx
            · rw [hs']; rfl
        simp only [true_and, key]

/-- Number of inner nodes. -/
def Sh.inners : Sh → Nat
  | .nil => 0
  | .node (some _) _ _ => 0
  | .node none l r => l.inners + r.inners + 1

/-- Number of inner nodes below the queue. -/
def work (c : Codes) (q : List (Path × List Bool)) : Nat := (q.map fun e => (c.root.get e.1).inners).sum

theorem work_step {c : Codes} {p : Path} {F bits : List Bool} {q : List (Path × List Bool)} {ints : List Path}
    {xs : List UInt8} (h : QInv c xs ((p, F) :: q) ints) :
    work c (q ++ (childQ c.root p F bits false ++ childQ c.root p F bits true)) + 1 = work c ((p, F) :: q) := by
  obtain ⟨l, r, hp, hl, hr, hc⟩ := h.inner (p, F) (by simp)
  have hp : c.root.get p = .node none l r := hp
  have hw : ∀ b, ((childQ c.root p F bits b).map fun e => (c.root.get e.1).inners).sum = (if b then r else l).inners := by
    intro b
    have hfull : Full (c.root.get (p ++ [b])) := by
      rw [get_snoc hp]
      cases b
      · exact hl
      · exact hr
    rw [childQ, ← get_snoc hp b]
    rcases hfull.cases' with ⟨s, hs⟩ | ⟨l2, r2, hs, _⟩
    · rw [hs]; rfl
    · rw [if_neg (by rw [hs]; simp [Sh.sym])]; simp
  rw [work, work, List.map_append, List.map_append, List.sum_append, List.sum_append, hw, hw, List.map_cons, List.sum_cons]
  simp only [hp, Sh.inners, if_true]
  simp
  omega

end Bwtc.Wave
