import Verif.WaveChoice

/-!
# The wavelet tree of a message

Model of `pushMessage`, `pushRun`, `pushBits` and `message` (WaveletTree.hpp:1184-1378, 1484-1494)
in the configuration `OPTIMIZED_INTEGER_CODE`, `SEMI_FIXED_CODE`.

A node is addressed by its path from the root (`false` = left), a tree is a function from paths to
nodes; `none` is the null pointer.
-/

set_option autoImplicit false

namespace Bwtc.Wave
open Huff

/-- Address of a node. -/
abbrev Path := List Bool

/-- `TreeNode` (WaveletTree.hpp:60-140) without its child pointers; `sym = none` stands for
`m_hasSymbol == false`. -/
structure Node where
  sym : Option Nat
  bits : List Bool
  deriving DecidableEq, Repr

/-- The nodes of a tree. -/
abbrev Heap := Path → Option Node

/-- Overwriting one node. -/
def Heap.set (h : Heap) (p : Path) (n : Node) : Heap := fun q => if q = p then some n else h q

/-- The nodes of a code tree, with empty bit vectors. -/
def Heap.ofShape (t : Sh) : Heap := fun p =>
  match t.get p with
  | .nil => none
  | .node s _ _ => some ⟨s, []⟩

/-- `pushBits(bits)` (WaveletTree.hpp:1184-1200) from the node `p`: all nodes must exist. -/
def pushChar (h : Heap) : Path → List Bool → Option (Heap × Path)
  | p, [] => some (h, p)
  | p, b :: bs =>
    match h p, h (p ++ [b]) with
    | some n, some _ => (pushChar (h.set p ⟨n.sym, n.bits ++ [b]⟩) (p ++ [b]) bs)
    | _, _ => none

/-- `pushBits(node, bits, symbol)` (WaveletTree.hpp:1230-1249): nodes are created where they are
missing; the last one gets the symbol unless it exists already. -/
def pushInt (h : Heap) (symbol : Nat) : Path → List Bool → Option Heap
  | _, [] => none
  | p, b :: bs =>
    match h p with
    | none => none
    | some n =>
      let h := h.set p ⟨n.sym, n.bits ++ [b]⟩
      match bs with
      | [] => some (if (h (p ++ [b])).isNone then h.set (p ++ [b]) ⟨some symbol, []⟩ else h)
      | b' :: bs' =>
        let h := if (h (p ++ [b])).isNone then h.set (p ++ [b]) ⟨none, []⟩ else h
        pushInt h symbol (p ++ [b]) (b' :: bs')

/-- The code of a run length (WaveletTree.hpp:1262-1269): from the table, or the escape code
followed by the fixed code. -/
def runCode (c : Codes) (n : Nat) : Option (List Bool) :=
  match c.icodes.find? fun p => p.1 = n with
  | some p => some p.2
  | none => (fixedCode n c.w).map (codeOf c.icodes 0 ++ ·)

/-- `pushRun` (WaveletTree.hpp:1252-1275). -/
def pushRun (c : Codes) (h : Heap) (symbol : UInt8) (n : Nat) : Option Heap := do
  let (h, p) ← pushChar h [] (codeOf c.codes symbol.toNat)
  let code ← runCode c n
  pushInt h n p code

/-- The runs handed to `pushRun` one after the other. -/
def pushRuns (c : Codes) : Heap → List (UInt8 × Nat) → Option Heap
  | h, [] => some h
  | h, r :: rs => (pushRun c h r.1 r.2).bind fun h => pushRuns c h rs

/-- `while(curr < src + length && *prev == *curr) ++curr` (WaveletTree.hpp:1488): length of the
leading run of `x` and the rest. -/
def leadRun (x : UInt8) : List UInt8 → Nat × List UInt8
  | [] => (0, [])
  | y :: l => if x = y then let r := leadRun x l; (r.1 + 1, r.2) else (0, y :: l)

/-- The calls of `pushRun` made by `pushMessage` (WaveletTree.hpp:1484-1494); the argument is the
data from `prev` on.  One round of the do/while loop handles a run; it ends when at most one byte
is left behind it, which is pushed as a run of length 1.  The first argument bounds the rounds. -/
def messageRuns : Nat → List UInt8 → Option (List (UInt8 × Nat))
  | 0, _ => none
  | _ + 1, [] => none
  | fuel + 1, x :: l =>
    let r := leadRun x l
    match r.2 with
    | [] => some [(x, r.1 + 1)]
    | [y] => some [(x, r.1 + 1), (y, 1)]
    | y :: z :: l => (messageRuns fuel (y :: z :: l)).map ((x, r.1 + 1) :: ·)

/-- `pushMessage` (WaveletTree.hpp:1484-1494) on the tree with the chosen codes. -/
def pushMessage (c : Codes) (data : List UInt8) : Option Heap := do
  let rs ← messageRuns (data.length + 1) data
  pushRuns c (Heap.ofShape c.root) rs

/-- `bitsSeen` (WaveletTree.hpp:1281). -/
abbrev Seen := Path → Nat

/-- One step down (WaveletTree.hpp:1287-1291): reads bit `i` of the node and computes the rank.
`none`: the bit does not exist, or `i - bitsSeen[node]` is negative. -/
def descend (h : Heap) (seen : Seen) (p : Path) (i : Nat) : Option (Bool × Nat × Seen) :=
  match h p with
  | none => none
  | some n =>
    match n.bits[i]? with
    | none => none
    | some true => some (true, seen p, fun q => if q = p then seen p + 1 else seen q)
    | some false => if seen p ≤ i then some (false, i - seen p, seen) else none

/-- The do/while loops walking to the next node with a symbol (WaveletTree.hpp:1286-1292,
1316-1329).  The first argument bounds the number of steps. -/
def walk (h : Heap) : Nat → Seen → Path → Nat → Option (Nat × Path × Nat × Seen)
  | 0, _, _, _ => none
  | fuel + 1, seen, p, i =>
    match descend h seen p i with
    | none => none
    | some (b, i, seen) =>
      match h (p ++ [b]) with
      | none => none
      | some n =>
        match n.sym with
        | some s => some (s, p ++ [b], i, seen)
        | none => walk h fuel seen (p ++ [b]) i

/-- `while(bit)` (WaveletTree.hpp:1335-1341), the leading ones of a fixed code. -/
def walkOnes (h : Heap) : Nat → Seen → Path → Nat → Nat → Option (Nat × Path × Nat × Seen)
  | 0, _, _, _, _ => none
  | fuel + 1, seen, p, i, ones =>
    match h p with
    | none => none
    | some n =>
      match n.bits[i]? with
      | none => none
      | some false => some (ones, p, i, seen)
      | some true =>
        walkOnes h fuel (fun q => if q = p then seen p + 1 else seen q) (p ++ [true]) (seen p) (ones + 1)

/-- The loop over the remaining bits (WaveletTree.hpp:1343-1350): `k` rounds. -/
def walkBits (h : Heap) : Nat → Seen → Path → Nat → Nat → Option (Nat × Seen)
  | 0, seen, _, _, r => some (r, seen)
  | k + 1, seen, p, i, r =>
    match descend h seen p i with
    | none => none
    | some (b, i, seen) =>
      match h (p ++ [b]) with
      | none => none
      | some n =>
        match n.bits[i]? with
        | none => none
        | some bit => walkBits h k seen (p ++ [b]) i (2 * r + bit.toNat)

/-- The walk through the table of run lengths (WaveletTree.hpp:1315-1332): without a table the run
length counts as 0, the escape symbol. -/
def walkTable (fuel : Nat) (c : Codes) (h : Heap) (seen : Seen) (p : Path) (i : Nat) :
    Option (Nat × Path × Nat × Seen) :=
  if c.itree.sym.isNone then walk h fuel seen p i else some (0, p, i, seen)

/-- One round of the main loop of `message` (WaveletTree.hpp:1283-1374): the `j`-th run.  The shift
by 64 or more in the translation is undefined. -/
def readRun (fuel : Nat) (c : Codes) (h : Heap) (seen : Seen) (j : Nat) : Option ((UInt8 × Nat) × Seen) := do
  let (symbol, p, i, seen) ← walk h fuel seen [] j
  let (n, p, i, seen) ← walkTable fuel c h seen p i
  if n = 0 then do
    let (ones, p, i, seen) ← walkOnes h fuel seen p i 0
    if 64 ≤ ones + c.w then none
    else do
      let (r, seen) ← walkBits h (ones + c.w) seen p i 0
      return ((UInt8.ofNat symbol, r + translation ones c.w), seen)
  else return ((UInt8.ofNat symbol, n), seen)

/-- The main loop (WaveletTree.hpp:1282): `k` more runs. -/
def readRuns (fuel : Nat) (c : Codes) (h : Heap) : Nat → Seen → Nat → Option (List (UInt8 × Nat))
  | 0, _, _ => some []
  | k + 1, seen, j =>
    match readRun fuel c h seen j with
    | none => none
    | some (r, seen) => (readRuns fuel c h k seen (j + 1)).map (r :: ·)

/-- `message` (WaveletTree.hpp:1277-1378): the bytes written to `out`. -/
def message (fuel : Nat) (c : Codes) (h : Heap) : Option (List UInt8) := do
  let root ← h []
  let rs ← readRuns fuel c h root.bits.length (fun _ => 0) 0
  return rs.flatMap fun r => List.replicate r.2 r.1

/-! ## Decoding a run length from a list of bits -/

/-- The walk of `message` through the table (WaveletTree.hpp:1316-1329), on the code tree and a list of
bits instead of the nodes: the symbol reached. -/
def walkTree : Sh → List Bool → Option (Nat × List Bool)
  | .nil, _ => none
  | .node _ _ _, [] => none
  | .node _ l r, b :: s =>
    match (if b then r else l) with
    | .nil => none
    | .node (some y) _ _ => some (y, s)
    | .node none l' r' => walkTree (.node none l' r') s

/-- Decoding of a run length (WaveletTree.hpp:1312-1353) from a list of bits. -/
def decodeRun (c : Codes) (s : List Bool) : Option (Nat × List Bool) := do
  let (n, s) ← if c.itree.sym.isNone then walkTree c.itree s else some (0, s)
  if n = 0 then readFixed c.w s else return (n, s)

end Bwtc.Wave
