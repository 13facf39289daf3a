import Verif.HuffOpt
import Verif.BitCodes

/-!
# Codes of the wavelet tree

Model of the integer codes of `WaveletTree` (`fixedIntegerCode`, `lengthOfFixedCode`), of the
construction of a code tree from code lengths (`assignPrefixCodes`, `collectCodes`) and of the
search for the parameters of the semi-fixed code (`bitsForIntegers`,
`findParametersForSemiFixedCodes`).
-/

set_option autoImplicit false

namespace Bwtc.Wave
open Huff

/-! ## The fixed integer code -/

/-- `fixedIntegerCodeTranslation` (WaveletTree.hpp:536-540).  Simplification: no wrap modulo
`2^64`; the callers below guard the size of `bits`. -/
def translation (bits w : Nat) : Nat := 1 + ((1 <<< bits) - 1) <<< w

/-- `x - 1` in 32 bits. -/
def pred32 (x : Nat) : Nat := if x = 0 then 0xffffffff else x - 1

/-- The number `B` of leading one-bits (WaveletTree.hpp:520, 532): `logFloor(x - 1 + 2^w) - w`. -/
def fixedB (x w : Nat) : Nat := (pred32 x + 2 ^ w).log2 - w

/-- `fixedIntegerCode` (WaveletTree.hpp:515-527); the code asserts `x > 0` and shifts a 64-bit
word by `w`. -/
def fixedCode (x w : Nat) : Option (List Bool) :=
  if x = 0 ∨ 64 ≤ w then none
  else
    let b := fixedB x w
    some (List.replicate b true ++ false :: bitsOf (w + b) (x - translation b w))

/-- `lengthOfFixedCode` (WaveletTree.hpp:529-534). -/
def fixedLen (x w : Nat) : Nat := 2 * fixedB x w + w + 1

/-- Reading the leading ones of a fixed code (the loop WaveletTree.hpp:1333-1340) from a list of
bits: their number and the bits behind the zero. -/
def readOnes : List Bool → Option (Nat × List Bool)
  | [] => none
  | false :: s => some (0, s)
  | true :: s => (readOnes s).map fun p => (p.1 + 1, p.2)

/-- Decoding of a fixed code (WaveletTree.hpp:1328-1353): leading ones, then `ones + w` bits of
the remainder, to which the translation is added.  Simplification: the bits come from a list and
not from the nodes of the tree (`Verif.WaveTree` models that).  A shift of 64 or more is
undefined. -/
def readFixed (w : Nat) (s : List Bool) : Option (Nat × List Bool) := do
  let (ones, s) ← readOnes s
  if 64 ≤ ones + w then none
  else do
    let (r, s) ← readBits (ones + w) s
    return (natOf r + translation ones w, s)

/-! ## Code trees -/

/-- A code tree: the pointers `m_left`, `m_right` and the fields `m_symbol`, `m_hasSymbol`
(`none` while `m_hasSymbol` is false) of `TreeNode` (WaveletTree.hpp:60-140); `nil` is the null
pointer.  Simplification: the bit vectors of the nodes are kept apart (`Verif.WaveTree`). -/
inductive Sh where
  | nil
  | node (sym : Option Nat) (l r : Sh)
  deriving DecidableEq, Repr

/-- `new TreeNode(symbol)`. -/
def Sh.leaf (s : Nat) : Sh := .node (some s) .nil .nil

/-- `assignPrefixCodes(lengths, node, elem, bits)` (WaveletTree.hpp:1450-1482) called on a fresh
node: the finished node and the elements not used yet.  The call on the same node with its left
child already present (line 1463) is written out as the inner case distinction.  The first
argument bounds the depth of the recursion; `none` also stands for a failed assertion
(`bits < lengths[elem].first - 1`), without which the recursion does not end. -/
def assign : Nat → List (Nat × Nat) → Nat → Option (Sh × List (Nat × Nat))
  | _, [], _ => some (.node none .nil .nil, [])
  | 0, _ :: _, _ => none
  | fuel + 1, (len, s) :: rest, bits =>
    if bits + 1 = len then
      match rest with
      | [] => some (.node none (.leaf s) .nil, [])
      | (len2, s2) :: rest2 =>
        if bits + 1 = len2 then some (.node none (.leaf s) (.leaf s2), rest2)
        else if bits + 1 < len2 then
          match assign fuel ((len2, s2) :: rest2) (bits + 1) with
          | none => none
          | some (r, rest) => some (.node none (.leaf s) r, rest)
        else none
    else if bits + 1 < len then
      match assign fuel ((len, s) :: rest) (bits + 1) with
      | none => none
      | some (l, []) => some (.node none l .nil, [])
      | some (l, p :: rest) =>
        match assign fuel (p :: rest) (bits + 1) with
        | none => none
        | some (r, rest) => some (.node none l r, rest)
    else none

/-- The tree built from sorted (length, symbol) pairs (`assignPrefixCodes(lengths, root, 0, 0)`;
WaveletTree.hpp:336, 450, 485, 1446).  Elements left over are ignored as in the code.  The depth of the
recursion is bounded by the largest length. -/
def buildTree (lens : List (Nat × Nat)) : Option Sh :=
  (assign (lens.foldl (fun m p => max m p.1) 0 + 1) lens 0).map (·.1)

/-- `collectCodes` (WaveletTree.hpp:1528-1549) on a node reached by the path `vec`: the list of
assignments `codes[symbol] = vec` in the order they happen.  Reading the symbol of a node without
one is undefined. -/
def collect : Sh → List Bool → Option (List (Nat × List Bool))
  | .nil, _ => none
  | .node s .nil .nil, vec => s.map fun s => [(s, vec)]
  | .node _ .nil (.node s l r), vec => collect (.node s l r) (vec ++ [true])
  | .node _ (.node s l r) .nil, vec => collect (.node s l r) (vec ++ [false])
  | .node _ (.node s l r) (.node s' l' r'), vec => do
    let a ← collect (.node s l r) (vec ++ [false])
    let b ← collect (.node s' l' r') (vec ++ [true])
    return a ++ b

/-- Contents of `codes[s]` after a list of assignments; entries never assigned are empty
vectors. -/
def codeOf (cs : List (Nat × List Bool)) (s : Nat) : List Bool :=
  match cs.reverse.find? fun p => p.1 = s with
  | some p => p.2
  | none => []

/-! ## Parameters of the semi-fixed code -/

/-- `calculateCodeLengths(codeLengths, 0, true)` (Utils.cpp:422-473 with `sorted = true`). -/
def codeLengthsSorted (ps : List (Nat × Nat)) : Option (List (Nat × Nat)) :=
  match ps with
  | [] => none
  | [p] => some [(1, p.2)]
  | _ :: _ :: _ =>
    match lengths W64 (ps.map (·.1)) with
    | none => none
    | some ls => some (ls.zip (ps.map (·.2)))

/-- `m[k] = v` on a `std::map`, kept as a list sorted by key (`notRemoved`, WaveletTree.hpp:1590,
and `m_integerCodes`). -/
def mapSet {α : Type} (k : Nat) (v : α) : List (Nat × α) → List (Nat × α)
  | [] => [(k, v)]
  | (k', v') :: m =>
    if k < k' then (k, v) :: (k', v') :: m
    else if k = k' then (k, v) :: m
    else (k', v') :: mapSet k v m

/-- `if(minFreq == 0 || minFreq > f) minFreq = f` (WaveletTree.hpp:1585-1587, 1598-1600). -/
def lower (minFreq f : Nat) : Nat := if minFreq = 0 ∨ f < minFreq then f else minFreq

/-- State of the selection: flags `removed` of the integers handled so far, the selected pairs
`codeLengths`, `minFreq`, and the map `notRemoved`. -/
structure Sel where
  removed : List Bool
  codeLengths : List (Nat × Nat)
  minFreq : Nat
  notRemoved : List (Nat × Nat)
  deriving DecidableEq, Repr

/-- The loop guessing which integers deserve a Huffman code (WaveletTree.hpp:1577-1591).  The
floating-point comparison `p.first*log(totalFreq/p.first) + 64 < p.first*(depth + length)` is the
parameter `cheap depth w` applied to the pair: every theorem holds for every outcome of it. -/
def select (cheap : Nat × Nat → Bool) : List (Nat × Nat) → Sel → Sel
  | [], s => s
  | p :: l, s =>
    if cheap p ∧ 10 ≤ p.1 then
      select cheap l ⟨s.removed ++ [true], s.codeLengths ++ [p], lower s.minFreq p.1, s.notRemoved⟩
    else
      select cheap l ⟨s.removed ++ [false], s.codeLengths, s.minFreq,
        mapSet p.1 s.removed.length s.notRemoved⟩

/-- The loop that adds integers until there are enough (WaveletTree.hpp:1595-1602).  `it` lists
the rest of the map in reverse order, `i` is the loop counter; the bound
`depth - codeLengths.size()` shrinks while the loop runs.  `none`: the iterator at `rend()` is
dereferenced. -/
def force (depth : Nat) (freqs : List (Nat × Nat)) :
    Nat → List (Nat × Nat) → List Bool → List (Nat × Nat) → Nat →
      Option (List Bool × List (Nat × Nat) × Nat)
  | i, [], removed, cl, minFreq => if i + cl.length < depth then none else some (removed, cl, minFreq)
  | i, (f, idx) :: it, removed, cl, minFreq =>
    if i + cl.length < depth then
      match freqs[idx]? with
      | none => none
      | some p => force depth freqs (i + 1) it (removed.set idx true) (cl ++ [p]) (lower minFreq f)
    else some (removed, cl, minFreq)

/-- `int j = size - 1; while(codeLengths[j].second != 0) --j` (WaveletTree.hpp:1613-1614) on the
reversed list; the result counts from the front.  `none`: `j` leaves the vector. -/
def lastZero : List (Nat × Nat) → Option Nat
  | [] => none
  | p :: l => if p.2 = 0 then some l.length else lastZero l

/-- The loop moving the entry of the fixed codes to the front (WaveletTree.hpp:1615-1622): the
vector and the final `j`. -/
def moveZero (depth : Nat) : Nat → List (Nat × Nat) → Option (List (Nat × Nat) × Nat)
  | 0, l => some (l, 0)
  | j + 1, l =>
    match l[j]?, l[j + 1]? with
    | some a, some b =>
      if depth ≤ a.1 then moveZero depth j ((l.set (j + 1) (b.1, a.2)).set j (a.1, b.2))
      else some (l, j + 1)
    | _, _ => none

/-- Sum of the costs (WaveletTree.hpp:1630-1639), modulo `2^64`; `huffmanLengths[x]` is the last
length stored for `x` and 0 if there is none. -/
def totalCost (w realDepth : Nat) (cl : List (Nat × Nat)) : List (Nat × Nat) → List Bool → Nat
  | p :: l, r :: rs =>
    let len := if r then
        match cl.reverse.find? fun q => q.2 = p.2 with
        | some q => q.1
        | none => 0
      else realDepth + fixedLen p.2 w
    (p.1 * len + totalCost w realDepth cl l rs) % 2 ^ 64
  | _, _ => 0

/-- Cost without a table (WaveletTree.hpp:1562-1568). -/
def plainCost (w : Nat) (freqs : List (Nat × Nat)) : Nat :=
  (freqs.map fun p => p.1 * fixedLen p.2 w).sum % 2 ^ 64

/-- The part of `bitsForIntegers` that decides on the code lengths (WaveletTree.hpp:1573-1624) for
a depth of at least 1: the flags, the lengths, and `realDepth` (which the code takes from
`codeLengths[j].second`). -/
def integerLengths (cheap : Nat × Nat → Bool) (depth : Nat) (freqs : List (Nat × Nat)) :
    Option (List Bool × List (Nat × Nat) × Nat) := do
  let s := select cheap freqs ⟨[], [], 0, []⟩
  let (removed, cl) ←
    if s.codeLengths.length < depth then do
      let (removed, cl, minFreq) ← force depth freqs 0 s.notRemoved.reverse s.removed s.codeLengths s.minFreq
      some (removed, sortPairs (cl ++ [(minFreq, 0)]))
    else some (s.removed, s.codeLengths ++ [(s.minFreq, 0)])
  let lens ← codeLengthsSorted cl
  let lens := sortPairs lens
  let j ← lastZero lens.reverse
  let (lens, j) ← moveZero depth j lens
  let z ← lens[j]?
  return (removed, lens, z.2)

/-- `bitsForIntegers` (WaveletTree.hpp:1552-1641): the cost and the code lengths appended to the
(empty) vector. -/
def bitsForIntegers (cheap : Nat → Nat → Nat × Nat → Bool) (w depth : Nat) (freqs : List (Nat × Nat)) :
    Option (Nat × List (Nat × Nat)) :=
  if freqs.length < depth then some (0, [])
  else if depth = 0 then some (plainCost w freqs, [])
  else
    match integerLengths (cheap w depth) depth freqs with
    | none => none
    | some (removed, lens, realDepth) => some (totalCost w realDepth lens freqs removed, lens)

/-- The first search over `w` (WaveletTree.hpp:1656-1662); `leastBits` stays that of `w = 0`. -/
def bestPlain (freqs : List (Nat × Nat)) : Nat :=
  (List.range 16).foldl (fun best w => if plainCost w freqs < plainCost 0 freqs then w else best) 0

/-- The loop over the depths `depth..3` (WaveletTree.hpp:1665-1675) for one `w`, given the list of
depths still to try; the state is (`codeLengths`, `leastBits`, `bestW`). -/
def searchDepth (cheap : Nat → Nat → Nat × Nat → Bool) (freqs : List (Nat × Nat)) (w : Nat) :
    List Nat → List (Nat × Nat) × Nat × Nat → Option (List (Nat × Nat) × Nat × Nat)
  | [], st => some st
  | depth :: ds, st =>
    match bitsForIntegers cheap w depth freqs with
    | none => none
    | some (bits, tmp) =>
      if bits = 0 then some st
      else if bits < st.2.1 then searchDepth cheap freqs w ds (tmp, bits, w)
      else searchDepth cheap freqs w ds st

/-- The loop over `w` (WaveletTree.hpp:1664). -/
def searchW (cheap : Nat → Nat → Nat × Nat → Bool) (freqs : List (Nat × Nat)) :
    List Nat → List (Nat × Nat) × Nat × Nat → Option (List (Nat × Nat) × Nat × Nat)
  | [], st => some st
  | w :: ws, st =>
    match searchDepth cheap freqs w [1, 2, 3] st with
    | none => none
    | some st => searchW cheap freqs ws st

/-- `findParametersForSemiFixedCodes` (WaveletTree.hpp:1644-1680): the parameter `W` and the table
of code lengths (empty: only fixed codes). -/
def findParameters (cheap : Nat → Nat → Nat × Nat → Bool) (freqs : List (Nat × Nat)) :
    Option (Nat × List (Nat × Nat)) := do
  let freqs := sortPairs freqs
  let (lens, _, w) ← searchW cheap freqs (List.range 16) ([], plainCost 0 freqs, bestPlain freqs)
  return (w, lens)

end Bwtc.Wave
