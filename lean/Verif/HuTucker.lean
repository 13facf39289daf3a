/-!
# Hu-Tucker code lengths

Model of `calculateHuTuckerLengths` and its helpers (Utils.cpp:235-393).  A vector of pointers is a list of optional trees: a null
pointer is `none`, and following it or reading outside of the vector is the outcome `none` of the function.  `uint64` sums wrap.
The lines printed to `std::cout` are left out.
-/

set_option autoImplicit false

namespace Bwtc.HuTucker

/-- `HuTuckerNode` (Utils.cpp:237-245).  Inner nodes have both sons and the symbol 0, which is never read. -/
inductive Tree where
  | leaf (weight symbol : Nat)
  | node (left right : Tree) (weight : Nat)

/-- `node->weight` (Utils.cpp:243). -/
def Tree.weight : Tree → Nat
  | .leaf w _ => w
  | .node _ _ w => w

/-- `!node->left` (Utils.cpp:249, 282). -/
def Tree.isLeaf : Tree → Bool
  | .leaf _ _ => true
  | .node _ _ _ => false

/-- Sum of two `uint64` numbers. -/
def add (a b : Nat) : Nat := (a + b) % 2 ^ 64

/-- `std::vector<HuTuckerNode*>` (Utils.cpp:307). -/
abbrev Vec := List (Option Tree)

/-- `*v[i]`: nothing outside of the vector and for a null pointer. -/
def at_ (v : Vec) (i : Nat) : Option Tree := (v[i]?).bind id

/-- How many pointers from `i` on are passed by `while(i < s && (!v[i] || v[i]->left)) ++i;` (Utils.cpp:249). -/
def skipInner : Vec → Nat
  | [] => 0
  | none :: v => skipInner v + 1
  | some t :: v => if t.isLeaf then 0 else skipInner v + 1

/-- `nextTerminal(v, i)` (Utils.cpp:247-252).  Nothing for the result -1. -/
def nextTerminal (v : Vec) (i : Nat) : Option Nat :=
  let k := i + skipInner (v.drop i)
  if k = v.length then if k = 0 then none else some (k - 1) else some k

/-- How many null pointers there are in front. -/
def skipNull : Vec → Nat
  | none :: v => skipNull v + 1
  | _ => 0

/-- `nextValid(v, i)` (Utils.cpp:254-258). -/
def nextValid (v : Vec) (i : Nat) : Nat := i + skipNull (v.drop i)

/-- The loop of `findMinSum` (Utils.cpp:265-275): `begin`, `s`, the least sum and its two places. -/
def minLoop (v : Vec) (last : Nat) : Nat → Nat → Nat → Nat × Nat × Nat → Option (Nat × Nat × Nat)
  | 0, _, _, _ => none
  | fuel + 1, begin_, s, best =>
    if s ≤ last then do
      let ts ← at_ v s
      let tb ← at_ v begin_
      let sum := add ts.weight tb.weight
      let best := if sum < best.1 then (sum, begin_, s) else best
      minLoop v last fuel (if ts.weight < tb.weight then s else begin_) (nextValid v (s + 1)) best
    else some best

/-- `findMinSum(v, begin, end, minSum)` (Utils.cpp:260-279): the least sum and its two places.  The loop goes through the vector, its
length bounds the number of rounds. -/
def findMinSum (v : Vec) (begin_ last : Nat) : Option (Nat × Nat × Nat) := do
  let s := nextValid v (begin_ + 1)
  let ts ← at_ v s
  let tb ← at_ v begin_
  minLoop v last (v.length + 1) begin_ s (add ts.weight tb.weight, begin_, s)

/-- `lengths[symbol] = d` on a `std::map`, which is kept in the order of the symbols (Utils.cpp:283). -/
def insertLen (sym d : Nat) : List (Nat × Nat) → List (Nat × Nat)
  | [] => [(d, sym)]
  | (e, t) :: l => if sym < t then (d, sym) :: (e, t) :: l else if sym = t then (d, sym) :: l else (e, t) :: insertLen sym d l

/-- `collectLengthsAndDestroyTree` (Utils.cpp:280-292). -/
def collect : Tree → Nat → List (Nat × Nat) → List (Nat × Nat)
  | .leaf _ s, d, l => insertLen s d l
  | .node a b _, d, l => collect b (d + 1) (collect a (d + 1) l)

/-- `new HuTuckerNode(nodes[i], nodes[j], nodes[i]->weight + nodes[j]->weight, 0)`, stored at `i`, with null stored at `j`
(Utils.cpp:315-318, 327-331, 342-346). -/
def join (v : Vec) (i j : Nat) : Option Vec := do
  let a ← at_ v i
  let b ← at_ v j
  return (v.set i (some (.node a b (add a.weight b.weight)))).set j none

/-- The first pass (Utils.cpp:325-339): the vector, `im1`, `curr`, `removed`. -/
def firstPass : Nat → Vec → Nat → Nat → Nat → Option (Vec × Nat × Nat)
  | 0, _, _, _, _ => none
  | fuel + 1, v, im1, curr, removed =>
    if curr + 2 < v.length then do
      let p ← at_ v im1
      let c1 ← at_ v (curr + 1)
      if c1.weight < p.weight then
        let c ← at_ v curr
        let c2 ← at_ v (curr + 2)
        if c.weight ≤ c2.weight then
          let v ← join v curr (curr + 1)
          firstPass fuel v curr (curr + 2) (removed + 1)
        else firstPass fuel v curr (curr + 1) removed
      else firstPass fuel v curr (curr + 1) removed
    else some (v, curr, removed)

/-- The loop over pairs of terminals (Utils.cpp:370-379): the least weight and its two places. -/
def pairs (v : Vec) : Nat → Nat → Nat → Nat × Nat × Nat → Option (Nat × Nat × Nat)
  | 0, _, _, _ => none
  | fuel + 1, first, second, best =>
    if first + 1 < v.length then do
      let r ← findMinSum v first second
      let best := if r.1 < best.1 then r else best
      let next ← nextTerminal v (second + 1)
      pairs v fuel second next best
    else some best

/-- The second pass (Utils.cpp:353-388) for `todo` further joins: the vector.  `nodes[minLeft] = n; nodes[minRight] = 0;` in this
order. -/
def secondPass : Nat → Vec → Nat → Option Vec
  | 0, v, _ => some v
  | todo + 1, v, deleted => do
    let (v, deleted) := if v.length / 2 ≤ deleted then (v.filter Option.isSome, 0) else (v, deleted)
    let first ← nextTerminal v 0
    let second ← nextTerminal v (first + 1)
    let a ← at_ v first
    let b ← at_ v second
    let best ← pairs v (v.length + 1) first second (add a.weight b.weight, first, second)
    let l ← v[best.2.1]?
    let r ← v[best.2.2]?
    let l ← l
    let r ← r
    secondPass todo ((v.set best.2.1 (some (.node l r best.1))).set best.2.2 none) (deleted + 1)

/-- `calculateHuTuckerLengths(codeLengths, freqs, names)` on an empty `codeLengths` (Utils.cpp:295-393): pairs of length and symbol.
For no names at all `names[0]`, `nodes[0]` do not exist. -/
def lengths (freqs names : List Nat) : Option (List (Nat × Nat)) :=
  match names with
  | [] => none
  | [a] => some [(1, a)]
  | [a, b] => some [(1, a), (1, b)]
  | _ :: _ :: _ :: _ =>
    if freqs.length < names.length then none
    else do
      let v : Vec := (freqs.zip names).map (fun p => some (.leaf p.1 p.2))
      let a ← at_ v 0
      let c ← at_ v 2
      let (v, curr, removed) ← if a.weight ≤ c.weight then do
          let v ← join v 0 1
          pure (v, 2, 1)
        else pure (v, 1, 0)
      let (v, curr, removed) ← firstPass (v.length + 1) v 0 curr removed
      let (v, removed) ← if curr = v.length - 2 then do
          let x ← at_ v (curr + 1)
          let y ← at_ v (curr - 1)
          if x.weight < y.weight then do
            let v ← join v curr (curr + 1)
            pure (v, removed + 1)
          else pure (v, removed)
        else pure (v, removed)
      let v ← secondPass (names.length - 1 - removed) v removed
      let t ← at_ v 0
      return collect t 0 []

theorem insertLen_perm {s d : Nat} {l : List (Nat × Nat)} (h : s ∉ l.map Prod.snd) : (insertLen s d l).Perm ((d, s) :: l) := by
  induction l with
  | nil => exact List.Perm.refl _
  | cons p l ih =>
    obtain ⟨e, t⟩ := p
    simp only [List.map_cons, List.mem_cons, not_or] at h
    unfold insertLen
    split
    · exact List.Perm.refl _
    · rw [if_neg h.1]
      exact ((ih h.2).cons _).trans (List.Perm.swap _ _ _)

end Bwtc.HuTucker
