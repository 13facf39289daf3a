import Verif.WaveLock

/-!
# Encoder and decoder in lockstep: the nodes of the run lengths
-/

set_option autoImplicit false

namespace Bwtc.Wave
open ProbModels RangeCoder

theorem irun_t (w : Nat) : ∀ (q : List Bool) (s : IState), (irun w s q).t = s.t.get q
  | [], s => by simp [irun]
  | b :: q, s => by
    rw [irun, irun_t w q, Sh.get_child]
    congr 1
    rw [IState.step]
    split
    · split
      · split <;> rfl
      · split
        · split <;> rfl
        · rfl
    · rfl

theorem istate_t (c : Codes) (q : List Bool) : (istate c q).t = c.itree.get q := irun_t _ _ _

theorem istate_snoc (c : Codes) (q : List Bool) (b : Bool) : istate c (q ++ [b]) = (istate c q).step c.w b := by
  rw [istate, irun_append]; rfl

theorem istate_nil_goesOn (c : Codes) : (istate c []).goesOn = true := rfl

/-- Nodes at and below the leaf `p` of the code tree of the bytes: `p ++ q` is on the word of a run. -/
structure OnWord (c : Codes) (rs : List (UInt8 × Nat)) (p q : Path) (s : Nat) : Prop where
  leaf : c.root.get p = .leaf s
  run : ∃ x ∈ rs, p ++ q <+: word c x

/-- An entry of the decoder's list of integer nodes. -/
def EOk (c : Codes) (rs : List (UInt8 × Nat)) (k : Nat) (e : INode) : Prop :=
  ∃ p q s, OnWord c rs p q s ∧ e.path = p ++ q ∧ e.st = istate c q ∧ e.cnt = thru (words c rs) e.path ∧
    (istate c q).goesOn = true ∧ q.length = k

/-- Whether the encoder has the entry in its list. -/
def active (e : INode) : Bool := decide (e.st.t.sym = none ∨ e.st.t.sym = some 0)

/-- The entries for the child `b` of an entry. -/
def kids (c : Codes) (rs : List (UInt8 × Nat)) (b : Bool) (e : INode) : List INode :=
  if 0 < (bitsAt (words c rs) e.path).count b ∧ (e.st.step c.w b).goesOn = true then
    [⟨e.path ++ [b], e.st.step c.w b, (bitsAt (words c rs) e.path).count b⟩] else []

section
variable {c : Codes} (hg : GoodCodes c) {rs : List (UInt8 × Nat)} (hcov : ∀ x ∈ rs, Covered c x)
include hg hcov

/-- A word through `p ++ q` is the code of the byte `p` and a code of a run length beginning with `q`. -/
theorem word_split {p q : Path} {s : Nat} (hp : c.root.get p = .leaf s) {x : UInt8 × Nat} (hx : x ∈ rs) {y : Path}
    (h : word c x = p ++ q ++ y) : ccode c x.1 = p ∧ icode c x.2 = q ++ y := by
  have h1 : p <+: ccode c x.1 := by
    rw [← prefix_word hg (by rw [hp]; simp [Sh.leaf]) (hcov x hx).1]
    exact ⟨q ++ y, by rw [h]; simp⟩
  have h2 := (through_leaf hg hp (hcov x hx).1 h1).2
  refine ⟨h2, ?_⟩
  rw [word, h2, List.append_assoc] at h
  exact List.append_cancel_left h

/-- Strictly inside a word. -/
theorem inside_inner {p q : Path} {s : Nat} (hp : c.root.get p = .leaf s) {x : UInt8 × Nat} (hx : x ∈ rs) {b : Bool} {y : Path}
    (h : word c x = p ++ q ++ b :: y) : (istate c q).inner := by
  obtain ⟨_, h2⟩ := word_split hg hcov hp hx h
  exact (runCode_states hg (hcov x hx).2.1 (icode_eq hg (hcov x hx).2.1)).2.1 q b y h2

theorem end_final {p q : Path} {s : Nat} (hp : c.root.get p = .leaf s) {x : UInt8 × Nat} (hx : x ∈ rs)
    (h : word c x = p ++ q) : (istate c q).final x.2 := by
  obtain ⟨_, h2⟩ := word_split hg hcov hp hx (y := []) (by rw [h, List.append_nil])
  rw [List.append_nil] at h2
  have := (runCode_states hg (hcov x hx).2.1 (icode_eq hg (hcov x hx).2.1)).2.2
  rwa [h2] at this

/-- The two kinds of nodes. -/
theorem onWord_cases {p q : Path} {s : Nat} (h : OnWord c rs p q s) :
    ((istate c q).inner ∧ ∀ w ∈ words c rs, w ≠ p ++ q) ∨
    (∃ x ∈ rs, word c x = p ++ q ∧ (istate c q).final x.2 ∧ bitsAt (words c rs) (p ++ q) = []) := by
  obtain ⟨x, hx, y, hy⟩ := h.run
  cases y with
  | nil =>
    rw [List.append_nil] at hy
    refine Or.inr ⟨x, hx, hy.symm, end_final hg hcov h.leaf hx hy.symm, ?_⟩
    rw [bitsAt_eq_nil]
    intro w hw
    obtain ⟨x', hx', rfl⟩ := List.mem_map.mp hw
    cases e : nextBit (p ++ q) (word c x') with
    | none => rfl
    | some b =>
      obtain ⟨z, hz⟩ := nextBit_eq_some.mp e
      rw [hy] at hz
      have := (word_prefix hg (hcov x hx) (hcov x' hx') hz).1
      simp at this
  | cons b y =>
    have hi := inside_inner hg hcov h.leaf hx hy.symm
    refine Or.inl ⟨hi, ?_⟩
    intro w hw e
    obtain ⟨x', hx', rfl⟩ := List.mem_map.mp hw
    exact IState.not_final (hcov x' hx').2.1 hi (end_final hg hcov h.leaf hx' e)

theorem active_iff {k : Nat} {e : INode} (h : EOk c rs k e) :
    (active e = true ∧ e.cnt = (bitsAt (words c rs) e.path).length) ∨
    (active e = false ∧ (∃ y, e.st.t.sym = some (y + 1)) ∧ bitsAt (words c rs) e.path = []) := by
  obtain ⟨p, q, s, ho, h1, h2, h3, h4, _⟩ := h
  rcases onWord_cases hg hcov ho with ⟨hi, hne⟩ | ⟨x, hx, hw, hf, hb⟩
  · left
    refine ⟨?_, ?_⟩
    · rw [active, h2, decide_eq_true_eq]; exact hi.2
    · rw [h3, h1, thru_eq hne]
  · right
    rcases hf with ⟨hf1, _⟩ | ⟨_, hf2⟩
    · have hpos := (hcov x hx).2.1
      refine ⟨?_, ⟨x.2 - 1, ?_⟩, by rw [h1]; exact hb⟩
      · rw [active, h2, hf1, decide_eq_false_iff_not]
        rintro (h | h)
        · simp at h
        · simp at h; omega
      · rw [h2, hf1]; congr 1; omega
    · rw [h4] at hf2; simp at hf2

omit hg hcov in
theorem kids_ok {k : Nat} {e e' : INode} {b : Bool} (h : EOk c rs k e) (he : e' ∈ kids c rs b e) : EOk c rs (k + 1) e' := by
  obtain ⟨p, q, s, ho, h1, h2, h3, h4, h5⟩ := h
  rw [kids] at he
  split at he
  · rename_i hc
    rw [List.mem_singleton] at he
    subst he
    refine ⟨p, q ++ [b], s, ⟨ho.leaf, ?_⟩, by simp [h1], ?_, ?_, ?_, by simp [h5]⟩
    · have := List.count_pos_iff.mp hc.1
      obtain ⟨w, hw, hn⟩ := mem_bitsAt.mp this
      obtain ⟨x, hx, rfl⟩ := List.mem_map.mp hw
      refine ⟨x, hx, ?_⟩
      have := nextBit_iff_prefix.mp hn
      rw [h1] at this
      rwa [← List.append_assoc]
    · rw [istate_snoc, h2]
    · rw [thru_child]
    · rw [istate_snoc, ← h2]; exact hc.2
  · simp at he

omit hg hcov in
theorem root_below {p : Path} {s : Nat} (hp : c.root.get p = .leaf s) {q : Path} (hq : q ≠ []) : c.root.get (p ++ q) = .nil := by
  rw [Sh.get_append, hp]
  cases q with
  | nil => exact absurd rfl hq
  | cons b q => exact Sh.leaf_get _ _ _

/-- What the encoder does with the child of an entry of its list. -/
theorem coded_kids {k : Nat} {e : INode} (h : EOk c rs k e) (b : Bool) :
    coded (treeOf c rs) (e.path ++ [b]) = ((kids c rs b e).filter active).map (·.path) := by
  obtain ⟨p, q, s, ho, h1, h2, h3, h4, h5⟩ := h
  have hbelow : c.root.get (p ++ (q ++ [b])) = .nil := root_below ho.leaf (by simp)
  have hbase : Heap.ofShape c.root (e.path ++ [b]) = none := by
    rw [ofShape_none, h1, List.append_assoc]; exact hbelow
  by_cases hcnt : 0 < (bitsAt (words c rs) e.path).count b
  · have hon : OnWord c rs p (q ++ [b]) s := by
      refine ⟨ho.leaf, ?_⟩
      obtain ⟨w, hw, hn⟩ := mem_bitsAt.mp (List.count_pos_iff.mp hcnt)
      obtain ⟨x, hx, rfl⟩ := List.mem_map.mp hw
      have := nextBit_iff_prefix.mp hn
      rw [h1] at this
      exact ⟨x, hx, by rwa [← List.append_assoc]⟩
    have hst : e.st.step c.w b = istate c (q ++ [b]) := by rw [istate_snoc, h2]
    rw [kids, hst]
    rcases onWord_cases hg hcov hon with ⟨hi, hne⟩ | ⟨x, hx, hw, hf, hb⟩
    · rw [if_pos ⟨hcnt, hi.1⟩]
      have hact : active ⟨e.path ++ [b], istate c (q ++ [b]), (bitsAt (words c rs) e.path).count b⟩ = true := by
        rw [active, decide_eq_true_eq]; exact hi.2
      rw [List.filter_cons, hact]
      have hb : bitsAt (words c rs) (e.path ++ [b]) ≠ [] := by
        intro hb
        have h6 := thru_eq (ws := words c rs) (q := e.path ++ [b]) (by
          intro w hw; rw [h1, List.append_assoc]; exact hne w hw)
        rw [hb, thru_child, List.length_nil] at h6
        omega
      have hfind : rs.find? (fun r => word c r = e.path ++ [b]) = none := by
        rw [List.find?_eq_none]
        intro r hr e2
        rw [decide_eq_true_eq] at e2
        exact hne (word c r) (List.mem_map.mpr ⟨r, hr, rfl⟩) (by rw [e2, h1, List.append_assoc])
      rw [coded, treeOf, hbase, hfind]
      simp only [hb, if_false]
      simp
    · have hpos := (hcov x hx).2.1
      have hcod : coded (treeOf c rs) (e.path ++ [b]) = [] := by
        have hfind : ∃ r ∈ rs, rs.find? (fun r => word c r = e.path ++ [b]) = some r := by
          cases e2 : rs.find? (fun r => word c r = e.path ++ [b]) with
          | none =>
            have := List.find?_eq_none.mp e2 x hx
            rw [decide_eq_true_eq, hw, h1, List.append_assoc] at this
            exact absurd rfl this
          | some r => exact ⟨r, List.mem_of_find?_eq_some e2, rfl⟩
        obtain ⟨r, hr, e2⟩ := hfind
        have := (hcov r hr).2.1
        rw [coded, treeOf, hbase, e2]
        simp
        omega
      rw [hcod]
      split
      · rename_i hgo
        have : active ⟨e.path ++ [b], istate c (q ++ [b]), (bitsAt (words c rs) e.path).count b⟩ = false := by
          rw [active, decide_eq_false_iff_not]
          rcases hf with ⟨hf1, _⟩ | ⟨_, hf2⟩
          · show ¬ ((istate c (q ++ [b])).t.sym = none ∨ (istate c (q ++ [b])).t.sym = some 0)
            rw [hf1]
            rintro (h | h)
            · simp at h
            · simp at h; omega
          · rw [hgo.2] at hf2; simp at hf2
        rw [List.filter_cons, this]
        rfl
      · rfl
  · rw [kids, if_neg (fun h => hcnt h.1)]
    have hb : bitsAt (words c rs) (e.path ++ [b]) = [] := by
      rw [bitsAt_eq_nil]
      intro w hw
      cases e2 : nextBit (e.path ++ [b]) w with
      | none => rfl
      | some b' =>
        exfalso
        apply hcnt
        rw [List.count_pos_iff]
        exact mem_bitsAt.mpr ⟨w, hw, nextBit_iff_prefix.mpr (prefix_of_snoc (nextBit_iff_prefix.mp e2))⟩
    have hfind : rs.find? (fun r => word c r = e.path ++ [b]) = none := by
      rw [List.find?_eq_none]
      intro r hr e2
      rw [decide_eq_true_eq] at e2
      apply hcnt
      rw [List.count_pos_iff]
      exact mem_bitsAt.mpr ⟨word c r, List.mem_map.mpr ⟨r, hr, rfl⟩, nextBit_iff_prefix.mpr (by rw [e2]; exact List.prefix_refl _)⟩
    rw [coded, treeOf, hbase, hfind]
    simp only [hb, if_true]
    rfl

end

/-! ## The decoder's tree during the integer phase -/

/-- The symbol of a node before it is processed. -/
def sym0 (s : Nat) (q : Path) : Option Nat := if q = [] then some s else none

/-- The symbol of a node after it has been processed. -/
def symF (c : Codes) (s : Nat) (q : Path) : Option Nat := if q = [] then some s else (c.itree.get q).sym

/-- The decoder's tree while `pend` are the nodes still to be processed. -/
structure HInv (c : Codes) (rs : List (UInt8 × Nat)) (d : Heap) (pend : List Path) : Prop where
  inner : ∀ x l r, c.root.get x = .node none l r → d x = some ⟨none, bitsAt (words c rs) x⟩
  done : ∀ p q s, OnWord c rs p q s → (istate c q).goesOn = true → Clear pend (p ++ q) →
    d (p ++ q) = some ⟨symF c s q, bitsAt (words c rs) (p ++ q)⟩
  todo : ∀ p q s, OnWord c rs p q s → (istate c q).goesOn = true → p ++ q ∈ pend → d (p ++ q) = some ⟨sym0 s q, []⟩
  fresh : ∀ p q s, OnWord c rs p q s → (istate c q).goesOn = true → ¬ Clear pend (p ++ q) → p ++ q ∉ pend →
    d (p ++ q) = none

theorem HInv.congr {c : Codes} {rs : List (UInt8 × Nat)} {d : Heap} {a b : List Path} (h : HInv c rs d a)
    (hab : ∀ x, x ∈ a ↔ x ∈ b) : HInv c rs d b := by
  have hcl : ∀ x, Clear a x ↔ Clear b x := by
    intro x
    constructor
    · intro h p hp; exact h p ((hab p).mpr hp)
    · intro h p hp; exact h p ((hab p).mp hp)
  refine ⟨h.inner, ?_, ?_, ?_⟩
  · intro p q s ho hgo hc; exact h.done p q s ho hgo ((hcl _).mpr hc)
  · intro p q s ho hgo hm; exact h.todo p q s ho hgo ((hab _).mpr hm)
  · intro p q s ho hgo hc hm; exact h.fresh p q s ho hgo (fun x => hc ((hcl _).mp x)) (fun x => hm ((hab _).mp x))

/-- Pairwise incomparable nodes. -/
def Apart (l : List Path) : Prop := l.Pairwise fun a b => ¬ a <+: b ∧ ¬ b <+: a

theorem Apart.perm {a b : List Path} (h : Apart a) (hp : a.Perm b) : Apart b :=
  (hp.pairwise_iff (fun h => ⟨h.2, h.1⟩)).mp h

/-- The decoder's tree after an entry has been processed. -/
def after (c : Codes) (rs : List (UInt8 × Nat)) (e : INode) (sym : Option Nat) (d : Heap) : Heap :=
  let d := d.set e.path ⟨sym, bitsAt (words c rs) e.path⟩
  let cl := childNode c.w d e false ((bitsAt (words c rs) e.path).count false)
  (childNode c.w cl.1 e true ((bitsAt (words c rs) e.path).count true)).1

theorem childNode_heap (w : Nat) (d : Heap) (e : INode) (b : Bool) (n : Nat) (x : Path) :
    (childNode w d e b n).1 x = if x = e.path ++ [b] ∧ 0 < n ∧ d x = none then some ⟨none, []⟩ else d x := by
  rw [childNode]
  by_cases hn : 0 < n
  · rw [if_pos hn]
    simp only []
    by_cases hd : d (e.path ++ [b]) = none
    · rw [hd, Option.isNone_none, if_pos rfl, Heap.set]
      by_cases hx : x = e.path ++ [b]
      · rw [if_pos hx, if_pos ⟨hx, hn, by rw [hx]; exact hd⟩]
      · rw [if_neg hx, if_neg (fun h => hx h.1)]
    · have : (d (e.path ++ [b])).isNone = false := by
        cases h : d (e.path ++ [b]) with
        | none => exact absurd h hd
        | some y => rfl
      rw [this]
      simp only [Bool.false_eq_true, if_false]
      rw [if_neg]
      rintro ⟨h1, _, h3⟩
      rw [h1] at h3
      exact hd h3
  · rw [if_neg hn, if_neg (fun h => hn h.2.1)]

theorem childNode_list (c : Codes) (rs : List (UInt8 × Nat)) (d : Heap) (e : INode) (b : Bool) :
    (childNode c.w d e b ((bitsAt (words c rs) e.path).count b)).2 = kids c rs b e := by
  rw [childNode, kids]
  by_cases hn : 0 < (bitsAt (words c rs) e.path).count b
  · rw [if_pos hn]
    simp only [hn, true_and]
  · rw [if_neg hn, if_neg (fun h => hn h.1)]

theorem after_eq (c : Codes) (rs : List (UInt8 × Nat)) (e : INode) (sym : Option Nat) (d : Heap) (x : Path) :
    after c rs e sym d x = if x = e.path then some ⟨sym, bitsAt (words c rs) e.path⟩
      else if (∃ b, x = e.path ++ [b] ∧ 0 < (bitsAt (words c rs) e.path).count b) ∧ d x = none then some ⟨none, []⟩
      else d x := by
  have hne : ∀ b : Bool, e.path ≠ e.path ++ [b] := by
    intro b h
    have := congrArg List.length h
    simp at this
  rw [after]
  rw [childNode_heap, childNode_heap, Heap.set]
  by_cases hx : x = e.path
  · subst hx
    simp [hne]
  · simp only [hx, if_false]
    by_cases h0 : x = e.path ++ [false]
    · subst h0
      simp
    · by_cases h1 : x = e.path ++ [true]
      · subst h1
        simp
      · simp [h0, h1]

section
variable {c : Codes} (hg : GoodCodes c) {rs : List (UInt8 × Nat)} (hcov : ∀ x ∈ rs, Covered c x)
include hg hcov

/-- A node is below one leaf only. -/
theorem leaf_unique {p p' q q' : Path} {s s' : Nat} (hp : c.root.get p = .leaf s) (hp' : c.root.get p' = .leaf s')
    (h : p ++ q = p' ++ q') : p = p' ∧ q = q' ∧ s = s' := by
  have key : ∀ {a b : Path} {u v : Nat}, c.root.get a = .leaf u → c.root.get b = .leaf v → a <+: b → a = b := by
    rintro a b u v ha hb ⟨z, rfl⟩
    cases z with
    | nil => simp
    | cons x z => rw [root_below ha (by simp)] at hb; simp [Sh.leaf] at hb
  have h1 : p = p' := by
    rcases prefix_comparable (x := p ++ q) ⟨q, rfl⟩ ⟨q', h.symm⟩ with h1 | h1
    · exact key hp hp' h1
    · exact (key hp' hp h1).symm
  subst h1
  refine ⟨rfl, List.append_cancel_left h, ?_⟩
  rw [hp] at hp'
  simpa [Sh.leaf] using hp'

omit hg hcov in
theorem count_pos_of_run {p : Path} {b : Bool} {x : UInt8 × Nat} (hx : x ∈ rs) (h : p ++ [b] <+: word c x) :
    0 < (bitsAt (words c rs) p).count b := by
  rw [List.count_pos_iff]
  exact mem_bitsAt.mpr ⟨word c x, List.mem_map.mpr ⟨x, hx, rfl⟩, nextBit_iff_prefix.mpr h⟩

/-- Processing one entry. -/
theorem HInv.step {k : Nat} {e : INode} {p q : Path} {s : Nat} (ho : OnWord c rs p q s) (h1 : e.path = p ++ q)
    (h2 : e.st = istate c q) (h4 : (istate c q).goesOn = true) {d : Heap} {pend : List Path}
    (h : HInv c rs d (e.path :: pend)) (ha : Apart (e.path :: pend)) :
    HInv c rs (after c rs e (symF c s q) d)
      ((kids c rs false e).map (·.path) ++ (kids c rs true e).map (·.path) ++ pend) := by
  have hapart : ∀ y ∈ pend, ¬ e.path <+: y ∧ ¬ y <+: e.path := fun _ => List.rel_of_pairwise_cons ha
  have hsnoc : ∀ b : Bool, e.path ≠ e.path ++ [b] := by
    intro b h
    have := congrArg List.length h
    simp at this
  have hkid : ∀ y, y ∈ (kids c rs false e).map (·.path) ++ (kids c rs true e).map (·.path) ++ pend ↔
      (∃ b, y = e.path ++ [b] ∧ 0 < (bitsAt (words c rs) e.path).count b ∧ (istate c (q ++ [b])).goesOn = true) ∨ y ∈ pend := by
    intro y
    have hk : ∀ b, y ∈ (kids c rs b e).map (·.path) ↔
        (y = e.path ++ [b] ∧ 0 < (bitsAt (words c rs) e.path).count b ∧ (istate c (q ++ [b])).goesOn = true) := by
      intro b
      rw [kids, istate_snoc, ← h2]
      split
      · rename_i hc; simp [hc]
      · rename_i hc
        constructor
        · intro h; simp at h
        · intro h; exact absurd h.2 hc
    rw [List.mem_append, List.mem_append, hk, hk]
    constructor
    · rintro ((h | h) | h)
      · exact Or.inl ⟨false, h⟩
      · exact Or.inl ⟨true, h⟩
      · exact Or.inr h
    · rintro (⟨b, h⟩ | h)
      · cases b
        · exact Or.inl (Or.inl h)
        · exact Or.inl (Or.inr h)
      · exact Or.inr h
  refine ⟨?_, ?_, ?_, ?_⟩
  · intro x l r hx
    have hne : ∀ z, x ≠ e.path ++ z := by
      rintro z rfl
      rw [h1, List.append_assoc] at hx
      by_cases hz : q ++ z = []
      · rw [hz, List.append_nil, ho.leaf] at hx; simp [Sh.leaf] at hx
      · rw [root_below ho.leaf hz] at hx; simp at hx
    rw [after_eq, if_neg (by simpa using hne []), if_neg (by rintro ⟨⟨b, hb, _⟩, _⟩; exact hne _ hb)]
    exact h.inner x l r hx
  · intro p' q' s' ho' hgo' hcl
    by_cases hx : p' ++ q' = e.path
    · rw [after_eq, if_pos hx]
      obtain ⟨_, hq, hs⟩ := leaf_unique hg hcov ho'.leaf ho.leaf (hx.trans h1)
      subst hq hs
      rw [hx]
    · by_cases hpre : e.path <+: p' ++ q'
      · exfalso
        obtain ⟨z, hz⟩ := hpre
        cases z with
        | nil => exact hx (by simpa using hz.symm)
        | cons b z =>
          obtain ⟨x, hxr, y, hy⟩ := ho'.run
          have hw : word c x = e.path ++ [b] ++ (z ++ y) := by rw [← hy, ← hz]; simp
          have hcnt := count_pos_of_run hxr (p := e.path) (b := b) ⟨z ++ y, hw.symm⟩
          have hgo : (istate c (q ++ [b])).goesOn = true := by
            cases z with
            | nil =>
              have := leaf_unique hg hcov ho'.leaf ho.leaf (q := q') (q' := q ++ [b]) (by
                rw [← hz, h1, List.append_assoc])
              rw [← this.2.1]; exact hgo'
            | cons b' z =>
              exact (inside_inner hg hcov (q := q ++ [b]) (b := b') (y := z ++ y) ho.leaf hxr (by
                rw [hw, h1]; simp)).1
          exact hcl (e.path ++ [b]) ((hkid _).mpr (Or.inl ⟨b, rfl, hcnt, hgo⟩)) ⟨z, by rw [← hz]; simp⟩
      · rw [after_eq, if_neg hx, if_neg (by rintro ⟨⟨b, hb, _⟩, _⟩; exact hpre ⟨[b], hb.symm⟩)]
        refine h.done p' q' s' ho' hgo' ?_
        intro y hy
        rcases List.mem_cons.mp hy with rfl | hy
        · exact hpre
        · exact hcl y ((hkid y).mpr (Or.inr hy))
  · intro p' q' s' ho' hgo' hm
    rcases (hkid _).mp hm with ⟨b, hb, hcnt, _⟩ | hm
    · have hd : d (p' ++ q') = none := by
        refine h.fresh p' q' s' ho' hgo' ?_ ?_
        · intro hc; exact hc e.path (by simp) ⟨[b], hb.symm⟩
        · intro hmem
          rcases List.mem_cons.mp hmem with hmem | hmem
          · rw [hb] at hmem; exact hsnoc b hmem.symm
          · exact (hapart _ hmem).1 ⟨[b], hb.symm⟩
      rw [after_eq, if_neg (by rw [hb]; exact (hsnoc b).symm), if_pos ⟨⟨b, hb, hcnt⟩, hd⟩]
      have hq : q' ≠ [] := by
        have := leaf_unique hg hcov ho'.leaf ho.leaf (q := q') (q' := q ++ [b]) (by rw [hb, h1, List.append_assoc])
        rw [this.2.1]; simp
      rw [sym0, if_neg hq]
    · have hne : ¬ e.path <+: p' ++ q' := (hapart _ hm).1
      rw [after_eq, if_neg (by intro hx; exact hne (by rw [hx]; exact List.prefix_refl _)),
        if_neg (by rintro ⟨⟨b, hb, _⟩, _⟩; exact hne ⟨[b], hb.symm⟩)]
      exact h.todo p' q' s' ho' hgo' (List.mem_cons_of_mem _ hm)
  · intro p' q' s' ho' hgo' hcl hm
    have hex : ∃ y, ((∃ b, y = e.path ++ [b]) ∨ y ∈ pend) ∧ y <+: p' ++ q' ∧ y ≠ p' ++ q' := by
      refine Classical.byContradiction fun hno => hcl ?_
      intro y hy hpre
      apply hno
      refine ⟨y, ?_, hpre, fun heq => hm (heq ▸ hy)⟩
      rcases (hkid y).mp hy with ⟨b, hb, _⟩ | hy
      · exact Or.inl ⟨b, hb⟩
      · exact Or.inr hy
    obtain ⟨y, hy, hpre, hyne⟩ := hex
    have hnp : p' ++ q' ∉ pend := fun hp => hm ((hkid _).mpr (Or.inr hp))
    rcases hy with ⟨b, rfl⟩ | hy
    · have hpe : e.path <+: p' ++ q' := prefix_of_snoc hpre
      have hxe : p' ++ q' ≠ e.path := by
        intro hx
        rw [hx] at hpre
        have := hpre.length_le
        rw [List.length_append, List.length_singleton] at this
        omega
      rw [after_eq, if_neg hxe, if_neg]
      · refine h.fresh p' q' s' ho' hgo' ?_ ?_
        · intro hc; exact hc e.path (by simp) hpe
        · intro hmem
          rcases List.mem_cons.mp hmem with hmem | hmem
          · exact hxe hmem
          · exact hnp hmem
      · rintro ⟨⟨b', hb', _⟩, _⟩
        rw [hb'] at hpre hyne
        exact hyne (hpre.eq_of_length (by simp))
    · have hxe : p' ++ q' ≠ e.path := by
        intro hx; rw [hx] at hpre; exact (hapart y hy).2 hpre
      rw [after_eq, if_neg hxe, if_neg]
      · refine h.fresh p' q' s' ho' hgo' ?_ ?_
        · intro hc; exact hc y (List.mem_cons_of_mem _ hy) hpre
        · intro hmem
          rcases List.mem_cons.mp hmem with hmem | hmem
          · exact hxe hmem
          · exact hnp hmem
      · rintro ⟨⟨b', hb', _⟩, _⟩
        rw [hb'] at hpre hyne
        rcases List.prefix_concat_iff.mp hpre with h6 | h6
        · exact hyne h6
        · exact (hapart y hy).2 h6

omit hg hcov in
/-- The children take the place of their parent. -/
theorem Apart.step {e : INode} {pend : List Path} (ha : Apart (e.path :: pend)) :
    Apart ((kids c rs false e).map (·.path) ++ (kids c rs true e).map (·.path) ++ pend) := by
  have hk : ∀ b y, y ∈ (kids c rs b e).map (·.path) → y = e.path ++ [b] := by
    intro b y hy
    rw [kids] at hy
    split at hy
    · simpa using hy
    · simp at hy
  have hone : ∀ b, Apart ((kids c rs b e).map (·.path)) := by
    intro b
    rw [kids, Apart]
    split <;> simp
  have hapart : ∀ {y}, y ∈ pend → ¬ e.path <+: y ∧ ¬ y <+: e.path := List.rel_of_pairwise_cons ha
  have hch : ∀ (b : Bool) (y : Path), y ∈ pend → ¬ e.path ++ [b] <+: y ∧ ¬ y <+: e.path ++ [b] := by
    intro b y hy
    refine ⟨fun h => (hapart hy).1 (prefix_of_snoc h), fun h => ?_⟩
    rcases List.prefix_concat_iff.mp h with h6 | h6
    · exact (hapart hy).1 ⟨[b], h6.symm⟩
    · exact (hapart hy).2 h6
  rw [Apart, List.pairwise_append, List.pairwise_append]
  refine ⟨⟨hone false, hone true, ?_⟩, (List.pairwise_cons.mp ha).2, ?_⟩
  · intro a ha b hb
    rw [hk _ _ ha, hk _ _ hb]
    constructor
    · rintro ⟨z, hz⟩; simp at hz
    · rintro ⟨z, hz⟩; simp at hz
  · intro a ha y hy
    rcases List.mem_append.mp ha with ha | ha
    · rw [hk _ _ ha]; exact hch _ _ hy
    · rw [hk _ _ ha]; exact hch _ _ hy

omit hcov in
/-- The symbol the decoder gives to a node. -/
theorem entry_sym (s : Nat) (q : Path) :
    (match (c.itree.get q).sym with
      | some y => if decide (1 < c.icodes.length) then some y else sym0 s q
      | none => sym0 s q) = symF c s q := by
  by_cases hq : q = []
  · subst hq
    rw [Sh.get_nil_path, symF, if_pos rfl, sym0, if_pos rfl]
    rcases hg.itree with ⟨h1, h2⟩ | ⟨⟨l, r, h1, _⟩, _⟩
    · rw [h1, h2]; rfl
    · rw [h1]; rfl
  · rw [sym0, if_neg hq, symF, if_neg hq]
    rcases hg.itree with ⟨h1, h2⟩ | ⟨_, _, _, h2⟩
    · have : c.itree.get q = .nil := by
        rw [h1]
        cases q with
        | nil => exact absurd rfl hq
        | cons b q => exact Sh.leaf_get 0 b q
      rw [this]; rfl
    · have : decide (1 < c.icodes.length) = true := by rw [decide_eq_true_eq]; omega
      rw [this]
      cases (c.itree.get q).sym <;> rfl

omit hcov in
theorem entry_none {s : Nat} {q : Path} (h : (c.itree.get q).sym = none) : sym0 s q = symF c s q := by
  rw [← entry_sym hg, h]

omit hcov in
theorem entry_some {s : Nat} {q : Path} {y : Nat} (h : (c.itree.get q).sym = some y) :
    (if decide (1 < c.icodes.length) = true then some y else sym0 s q) = symF c s q := by
  rw [← entry_sym hg, h]

omit hg hcov in
theorem entry_sym_ok (s : Nat) (q : Path) : ¬ ((c.itree.get q).sym ≠ none ∧ symF c s q = none) := by
  rintro ⟨h1, h2⟩
  rw [symF] at h2
  split at h2
  · simp at h2
  · exact h1 h2

omit hg hcov in
theorem after_final {e : INode} (hb : bitsAt (words c rs) e.path = []) (sym : Option Nat) (d : Heap) :
    after c rs e sym d = d.set e.path ⟨sym, []⟩ := by
  funext x
  rw [after_eq, hb, Heap.set]
  simp

/-- The decoder processes one entry. -/
theorem dec_entry {σ₂ : Type} (G : Model σ₂) {k : Nat} {e : INode} (he : EOk c rs k e) {d : Heap} {pend : List Path}
    (h : HInv c rs d (e.path :: pend)) (ha : Apart (e.path :: pend)) :
    ∃ d', HInv c rs d' ((kids c rs false e).map (·.path) ++ (kids c rs true e).map (·.path) ++ pend) ∧
      ∀ ds it s s1, encBits G (bitsAt (words c rs) e.path) s = some (it, s1) → ∀ rest,
        (decRound G c.w (decide (1 < c.icodes.length)) (e :: ds) d s).feed (it ++ rest) =
        ((decRound G c.w (decide (1 < c.icodes.length)) ds d' s1).feed rest).bind fun x =>
          some ((x.1.1, kids c rs false e ++ x.1.2.1, kids c rs true e ++ x.1.2.2.1, x.1.2.2.2), x.2) := by
  have hact := active_iff hg hcov he
  obtain ⟨p, q, s0, ho, h1, h2, h3, h4, h5⟩ := he
  have hd : d e.path = some ⟨sym0 s0 q, []⟩ := by
    rw [h1]; exact h.todo p q s0 ho h4 (by rw [← h1]; simp)
  refine ⟨_, HInv.step (k := k) hg hcov ho h1 h2 h4 h ha, ?_⟩
  intro ds it s s1 henc rest
  have ht : e.st.t = c.itree.get q := by rw [h2, istate_t]
  have hok := entry_sym_ok (c := c) s0 q
  rw [decRound, hd]
  simp only [ht, List.nil_append]
  have hmain : (bitsAt (words c rs) e.path).length = e.cnt → ∀ g : Heap, g = d.set e.path ⟨symF c s0 q, bitsAt (words c rs) e.path⟩ →
      ∀ f : List Bool × σ₂ → Prog (Heap × List INode × List INode × σ₂),
      (f = fun r => (decRound G c.w (decide (1 < c.icodes.length)) ds
          (childNode c.w (childNode c.w (d.set e.path ⟨symF c s0 q, r.1⟩) e false (e.cnt - r.1.count true)).1 e true
            (r.1.count true)).1 r.2).bind fun x =>
        .ret (x.1, (childNode c.w (d.set e.path ⟨symF c s0 q, r.1⟩) e false (e.cnt - r.1.count true)).2 ++ x.2.1,
          (childNode c.w (childNode c.w (d.set e.path ⟨symF c s0 q, r.1⟩) e false (e.cnt - r.1.count true)).1 e true
            (r.1.count true)).2 ++ x.2.2.1, x.2.2.2)) →
      ((decBits G e.cnt s).bind f).feed (it ++ rest) =
        ((decRound G c.w (decide (1 < c.icodes.length)) ds (after c rs e (symF c s0 q) d) s1).feed rest).bind fun x =>
          some ((x.1.1, kids c rs false e ++ x.1.2.1, kids c rs true e ++ x.1.2.2.1, x.1.2.2.2), x.2) := by
    intro hcnt g hgd f hf
    subst hf
    rw [Prog.feed_bind, ← hcnt, feed_decBits G _ _ _ _ henc rest]
    simp only [Option.bind_some]
    rw [← count_both, Nat.add_sub_cancel_left, Prog.feed_bind, childNode_list, childNode_list]
    rfl
  rcases hact with ⟨hact, hcnt⟩ | ⟨_, ⟨y, hy⟩, hb⟩
  · cases hv : (c.itree.get q).sym with
    | none =>
      simp only [entry_none hg (s := s0) hv]
      rw [if_neg (by rw [hv] at hok; exact hok)]
      exact hmain hcnt.symm _ rfl _ rfl
    | some y =>
      cases y with
      | zero =>
        have h6 := entry_some hg (s := s0) hv
        simp only []
        rw [h6, if_neg (by rw [hv] at hok; exact hok)]
        exact hmain hcnt.symm _ rfl _ rfl
      | succ y =>
        exfalso
        rw [active, decide_eq_true_eq, ht, hv] at hact
        simp at hact
  · rw [ht] at hy
    have h6 := entry_some hg (s := s0) hy
    rw [hy]
    simp only []
    rw [h6, if_neg (by rw [hy] at hok; exact hok)]
    rw [hb, encBits, Option.some.injEq, Prod.mk.injEq] at henc
    obtain ⟨rfl, rfl⟩ := henc
    have hk : ∀ b, kids c rs b e = [] := by
      intro b; rw [kids, hb]; simp
    rw [after_final hb, hk, hk]
    simp only [List.nil_append]
    cases (decRound G c.w (decide (1 < c.icodes.length)) ds (d.set e.path ⟨symF c s0 q, []⟩) s).feed rest <;> rfl

/-- One round. -/
theorem round_lockstep {σ₂ : Type} (G : Model σ₂) {k : Nat} :
    ∀ (ds : List INode) (d : Heap) (acc : List Path) (s : σ₂) (items : List (Bool × Nat)) (l r : List Path) (s' : σ₂),
    (∀ e ∈ ds, EOk c rs k e) → HInv c rs d (ds.map (·.path) ++ acc) → Apart (ds.map (·.path) ++ acc) →
    encRound G (treeOf c rs) ((ds.filter active).map (·.path)) s = some (items, l, r, s') →
    l = ((ds.flatMap (kids c rs false)).filter active).map (·.path) ∧
    r = ((ds.flatMap (kids c rs true)).filter active).map (·.path) ∧
    ∃ d', HInv c rs d' ((ds.flatMap (kids c rs false)).map (·.path) ++ (ds.flatMap (kids c rs true)).map (·.path) ++ acc) ∧
      Apart ((ds.flatMap (kids c rs false)).map (·.path) ++ (ds.flatMap (kids c rs true)).map (·.path) ++ acc) ∧
      ∀ rest, (decRound G c.w (decide (1 < c.icodes.length)) ds d s).feed (items ++ rest) =
        some ((d', ds.flatMap (kids c rs false), ds.flatMap (kids c rs true), s'), rest)
  | [], d, acc, s, items, l, r, s', _, hd, ha, he => by
    rw [List.filter_nil, List.map_nil, encRound, Option.some.injEq, Prod.mk.injEq, Prod.mk.injEq, Prod.mk.injEq] at he
    obtain ⟨rfl, rfl, rfl, rfl⟩ := he
    exact ⟨rfl, rfl, d, hd, ha, fun rest => rfl⟩
  | e :: ds, d, acc, s, items, l, r, s', hok, hd, ha, he => by
    have heok := hok e (by simp)
    obtain ⟨d1, hd1, hfeed⟩ := dec_entry hg hcov G heok hd ha
    have ha1 := Apart.step (c := c) (rs := rs) ha
    have hperm : ((kids c rs false e).map (·.path) ++ (kids c rs true e).map (·.path) ++ (ds.map (·.path) ++ acc)).Perm
        (ds.map (·.path) ++ ((kids c rs false e).map (·.path) ++ (kids c rs true e).map (·.path) ++ acc)) :=
      List.perm_append_comm_assoc _ _ _
    have key : ∃ it s1 it' l' r', encBits G (bitsAt (words c rs) e.path) s = some (it, s1) ∧
        encRound G (treeOf c rs) ((ds.filter active).map (·.path)) s1 = some (it', l', r', s') ∧
        items = it ++ it' ∧ l = ((kids c rs false e).filter active).map (·.path) ++ l' ∧
        r = ((kids c rs true e).filter active).map (·.path) ++ r' := by
      rcases active_iff hg hcov heok with ⟨hact, hcnt⟩ | ⟨hact, _, hb⟩
      · rw [List.filter_cons, hact, if_pos rfl, List.map_cons, encRound] at he
        obtain ⟨n, hn, he⟩ := bind_some he
        obtain ⟨⟨it, s1⟩, h1, he⟩ := bind_some he
        obtain ⟨⟨it', l', r', s2⟩, h2, he⟩ := bind_some he
        simp only [Option.pure_def, Option.some.injEq, Prod.mk.injEq] at he h2
        obtain ⟨rfl, rfl, rfl, rfl⟩ := he
        rw [treeOf_bits hn] at h1
        exact ⟨it, s1, it', l', r', h1, h2, rfl, by rw [coded_kids hg hcov heok], by rw [coded_kids hg hcov heok]⟩
      · rw [List.filter_cons, hact] at he
        simp only [Bool.false_eq_true, if_false] at he
        have hk : ∀ b, kids c rs b e = [] := by
          intro b; rw [kids, hb]; simp
        exact ⟨[], s, items, l, r, by rw [hb]; rfl, he, rfl, by rw [hk]; rfl, by rw [hk]; rfl⟩
    obtain ⟨it, s1, it', l', r', h1, h2, rfl, rfl, rfl⟩ := key
    obtain ⟨hl, hr, d2, hd2, ha2, hfeed2⟩ := round_lockstep G ds d1 _ s1 it' l' r' s' (fun x hx => hok x (by simp [hx]))
      (hd1.congr fun x => hperm.mem_iff) (ha1.perm hperm) h2
    have hperm2 : ((ds.flatMap (kids c rs false)).map (·.path) ++ (ds.flatMap (kids c rs true)).map (·.path) ++
        ((kids c rs false e).map (·.path) ++ (kids c rs true e).map (·.path) ++ acc)).Perm
        (((e :: ds).flatMap (kids c rs false)).map (·.path) ++ ((e :: ds).flatMap (kids c rs true)).map (·.path) ++ acc) := by
      rw [List.flatMap_cons, List.flatMap_cons, List.map_append, List.map_append, ← List.append_assoc]
      refine List.Perm.append_right _ ?_
      generalize (kids c rs false e).map (·.path) = A
      generalize (kids c rs true e).map (·.path) = B
      generalize (ds.flatMap (kids c rs false)).map (·.path) = C
      generalize (ds.flatMap (kids c rs true)).map (·.path) = D
      rw [List.perm_iff_count]
      intro a
      simp only [List.count_append]
      omega
    refine ⟨by rw [hl, List.flatMap_cons, List.filter_append, List.map_append],
      by rw [hr, List.flatMap_cons, List.filter_append, List.map_append], d2, hd2.congr fun x => hperm2.mem_iff,
      ha2.perm hperm2, ?_⟩
    intro rest
    rw [List.append_assoc, hfeed ds it s s1 h1, hfeed2 rest]
    rfl

theorem kids_final {k : Nat} {e : INode} (he : EOk c rs k e) (h : active e = false) (b : Bool) : kids c rs b e = [] := by
  rcases active_iff hg hcov he with ⟨h', _⟩ | ⟨_, _, hb⟩
  · rw [h] at h'; simp at h'
  · rw [kids, hb]; simp

/-- The integer phase: the decoder needs at most one more round, which codes nothing. -/
theorem ints_lockstep {σ₂ : Type} (G : Model σ₂) (hreset : ∀ s, ∃ s', G.reset s = some s') :
    ∀ (fuel fuel' k : Nat) (ds : List INode) (d : Heap) (s : σ₂) (items : List (Bool × Nat)) (s' : σ₂), fuel < fuel' →
    (∀ e ∈ ds, EOk c rs k e) → HInv c rs d (ds.map (·.path)) → Apart (ds.map (·.path)) →
    encInts G (treeOf c rs) fuel ((ds.filter active).map (·.path)) s = some (items, s') →
    ∃ d' s'', HInv c rs d' [] ∧ (s'' = s' ∨ G.reset s' = some s'') ∧
      ∀ rest, (decInts G c.w (decide (1 < c.icodes.length)) fuel' ds d s).feed (items ++ rest) = some ((d', s''), rest)
  | 0, _, _, _, _, _, _, _, _, _, _, _, he => by rw [encInts] at he; simp at he
  | fuel + 1, 0, _, _, _, _, _, _, hf, _, _, _, _ => by omega
  | fuel + 1, fuel' + 1, k, [], d, s, items, s', hf, hok, hd, ha, he => by
    rw [List.filter_nil, List.map_nil, encInts, Option.some.injEq, Prod.mk.injEq] at he
    obtain ⟨rfl, rfl⟩ := he
    exact ⟨d, s, hd, Or.inl rfl, fun rest => rfl⟩
  | fuel + 1, fuel' + 1, k, e :: ds, d, s, items, s', hf, hok, hd, ha, he => by
    cases hL : ((e :: ds).filter active).map (·.path) with
    | nil =>
      rw [hL, encInts, Option.some.injEq, Prod.mk.injEq] at he
      obtain ⟨rfl, rfl⟩ := he
      obtain ⟨s'', hs''⟩ := hreset s
      obtain ⟨_, _, d', hd', _, hfeed⟩ := round_lockstep hg hcov G (e :: ds) d [] s'' [] [] [] s'' hok (by simpa using hd)
        (by simpa using ha) (by rw [hL]; rfl)
      have hall : ∀ b, (e :: ds).flatMap (kids c rs b) = [] := by
        intro b
        rw [List.flatMap_eq_nil_iff]
        intro x hx
        refine kids_final hg hcov (hok x hx) ?_ b
        cases hact : active x with
        | false => rfl
        | true =>
          have : x ∈ (e :: ds).filter active := List.mem_filter.mpr ⟨hx, hact⟩
          rw [List.map_eq_nil_iff.mp hL] at this
          simp at this
      rw [hall, hall] at hd' hfeed
      refine ⟨d', s'', by simpa using hd', Or.inr hs'', ?_⟩
      intro rest
      rw [decInts, Prog.feed_lift_bind hs'', Prog.feed_bind, hfeed rest]
      simp only [Option.bind_some, List.append_nil]
      cases fuel' with
      | zero => omega
      | succ f => rfl
    | cons p ps =>
      rw [hL, encInts] at he
      obtain ⟨s1, h1, he⟩ := bind_some he
      obtain ⟨⟨it, l, r, s2⟩, h2, he⟩ := bind_some he
      obtain ⟨⟨it', s3⟩, h3, he⟩ := bind_some he
      simp only [Option.pure_def, Option.some.injEq, Prod.mk.injEq] at he h3
      obtain ⟨rfl, rfl⟩ := he
      rw [← hL] at h2
      obtain ⟨hl, hr, d1, hd1, ha1, hfeed⟩ := round_lockstep hg hcov G (e :: ds) d [] s1 it l r s2 hok (by simpa using hd)
        (by simpa using ha) h2
      rw [hl, hr, ← List.map_append, ← List.filter_append] at h3
      rw [List.append_nil, ← List.map_append] at hd1 ha1
      obtain ⟨d2, s'', hd2, hs'', hfeed2⟩ := ints_lockstep G hreset fuel fuel' (k + 1) _ d1 s2 it' s3 (by omega) (by
        intro x hx
        rcases List.mem_append.mp hx with hx | hx
        · obtain ⟨y, hy, hx⟩ := List.mem_flatMap.mp hx
          exact kids_ok (hok y hy) hx
        · obtain ⟨y, hy, hx⟩ := List.mem_flatMap.mp hx
          exact kids_ok (hok y hy) hx) hd1 ha1 h3
      refine ⟨d2, s'', hd2, hs'', ?_⟩
      intro rest
      rw [decInts, Prog.feed_lift_bind h1, Prog.feed_bind, List.append_assoc, hfeed]
      simp only [Option.bind_some]
      exact hfeed2 rest

/-- The encoder completes a round. -/
theorem round_total {σ₂ : Type} {G : Model σ₂} {I : σ₂ → Prop} (hG : Total G I) {k : Nat} :
    ∀ (ds : List INode) (s : σ₂), (∀ e ∈ ds, EOk c rs k e) → I s →
    ∃ items s', encRound G (treeOf c rs) ((ds.filter active).map (·.path)) s =
      some (items, ((ds.flatMap (kids c rs false)).filter active).map (·.path),
        ((ds.flatMap (kids c rs true)).filter active).map (·.path), s') ∧ I s' ∧ ∀ x ∈ items, x.2 ≤ 4096
  | [], s, _, hs => ⟨[], s, rfl, hs, by simp⟩
  | e :: ds, s, hok, hs => by
    have heok := hok e (by simp)
    cases hact : active e with
    | false =>
      obtain ⟨items, s', h1, h2, h3⟩ := round_total hG ds s (fun x hx => hok x (by simp [hx])) hs
      refine ⟨items, s', ?_, h2, h3⟩
      rw [List.filter_cons, hact, List.flatMap_cons, List.flatMap_cons, kids_final hg hcov heok hact,
        kids_final hg hcov heok hact]
      exact h1
    | true =>
      obtain ⟨it, s1, h1, h2, h3⟩ := encBits_total hG (bitsAt (words c rs) e.path) s hs
      obtain ⟨items, s', h4, h5, h6⟩ := round_total hG ds s1 (fun x hx => hok x (by simp [hx])) h2
      have hsome : ∃ n, treeOf c rs e.path = some n ∧ n.bits = bitsAt (words c rs) e.path := by
        obtain ⟨p, q, s0, ho, e1, _⟩ := heok
        obtain ⟨x, hx, hpre⟩ := ho.run
        obtain ⟨n, hn⟩ := treeOf_isSome hx (by rw [e1]; exact hpre : e.path <+: word c x)
        exact ⟨n, hn, treeOf_bits hn⟩
      obtain ⟨n, hn, hnb⟩ := hsome
      refine ⟨it ++ items, s', ?_, h5, ?_⟩
      · rw [List.filter_cons, hact, if_pos rfl, List.map_cons, encRound, hn]
        simp only [Option.bind_eq_bind, Option.bind_some, hnb, h1, h4, coded_kids hg hcov heok, List.flatMap_cons,
          List.filter_append, List.map_append]
        rfl
      · intro x hx
        rcases List.mem_append.mp hx with hx | hx
        · exact h3 x hx
        · exact h6 x hx

/-- The encoder completes the integer phase. -/
theorem ints_total {σ₂ : Type} {G : Model σ₂} {I : σ₂ → Prop} (hG : Total G I) {M : Nat}
    (hM : ∀ x ∈ rs, (icode c x.2).length ≤ M) :
    ∀ (fuel k : Nat) (ds : List INode) (s : σ₂), M < fuel + k → 0 < fuel → (∀ e ∈ ds, EOk c rs k e) → I s →
    ∃ items s', encInts G (treeOf c rs) fuel ((ds.filter active).map (·.path)) s = some (items, s') ∧ I s' ∧
      ∀ x ∈ items, x.2 ≤ 4096
  | 0, _, _, _, _, hf, _, _ => by omega
  | fuel + 1, k, ds, s, hk, hf, hok, hs => by
    cases hL : (ds.filter active).map (·.path) with
    | nil => exact ⟨[], s, rfl, hs, by simp⟩
    | cons p ps =>
      have hlt : k < M := by
        have hmem : p ∈ (ds.filter active).map (·.path) := by rw [hL]; simp
        obtain ⟨e, he, _⟩ := List.mem_map.mp hmem
        have hact := (List.mem_filter.mp he).2
        obtain ⟨p0, q, s0, ho, h1, h2, h3, h4, h5⟩ := hok e (List.mem_filter.mp he).1
        obtain ⟨x, hx, y, hy⟩ := ho.run
        have hsp := word_split hg hcov ho.leaf hx hy.symm
        cases y with
        | nil =>
          exfalso
          have hf := end_final hg hcov ho.leaf hx (by rw [← hy, List.append_nil])
          have hpos := (hcov x hx).2.1
          rw [active, decide_eq_true_eq, h2] at hact
          exact IState.not_final hpos ⟨h4, hact⟩ hf
        | cons b y =>
          have := hM x hx
          rw [hsp.2, List.length_append, List.length_cons, h5] at this
          omega
      obtain ⟨s1, h1, h2⟩ := hG.reset s hs
      obtain ⟨it, s2, h3, h4, h5⟩ := round_total hg hcov hG ds s1 hok h2
      rw [hL] at h3
      obtain ⟨it', s3, h6, h7, h8⟩ := ints_total hG hM fuel (k + 1)
        (ds.flatMap (kids c rs false) ++ ds.flatMap (kids c rs true)) s2 (by omega) (by omega) (by
        intro x hx
        rcases List.mem_append.mp hx with hx | hx
        · obtain ⟨y, hy, hx⟩ := List.mem_flatMap.mp hx
          exact kids_ok (hok y hy) hx
        · obtain ⟨y, hy, hx⟩ := List.mem_flatMap.mp hx
          exact kids_ok (hok y hy) hx) h4
      rw [List.filter_append, List.map_append] at h6
      refine ⟨it ++ it', s3, ?_, h7, ?_⟩
      · rw [encInts, h1]
        simp only [Option.bind_eq_bind, Option.bind_some, h3, h6]
        rfl
      · intro x hx
        rcases List.mem_append.mp hx with hx | hx
        · exact h5 x hx
        · exact h8 x hx

end

end Bwtc.Wave
