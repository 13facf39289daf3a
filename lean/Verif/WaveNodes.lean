import Verif.WaveMake

/-!
# The nodes of the wavelet tree on the heap

`WaveCode.lean` models the code trees as values.  Here `assignPrefixCodes` is modelled on pointers, together with the constructors and
the destructor, which say when the nodes are allocated and freed (WaveletTree.hpp:53-66, 279-290, 331-341, 387-399, 427-461,
1440-1482).  The bit vectors of the nodes are left out: they do not change the pointers.
-/

set_option autoImplicit false

namespace Bwtc.WaveNodes
open Wave

/-- A `TreeNode` (WaveletTree.hpp:54-71); `live` becomes false when it is deleted. -/
structure Cell where
  sym : Option Nat
  left : Option Nat
  right : Option Nat
  live : Bool

/-- The nodes that were ever allocated.  Addresses are not used again. -/
abbrev Heap := List Cell

/-- `*p`; nothing outside of the heap and for a deleted node. -/
def get (h : Heap) (p : Nat) : Option Cell := (h[p]?).bind fun c => if c.live then some c else none

/-- `new TreeNode()` and `new TreeNode(symbol)` (WaveletTree.hpp:55-57): the node at the end of the heap. -/
def new (h : Heap) (sym : Option Nat) : Heap := h ++ [⟨sym, none, none, true⟩]

/-- `node->m_left = q` (WaveletTree.hpp:1462, 1473). -/
def setLeft (h : Heap) (p q : Nat) : Option Heap := (get h p).map fun c => h.set p { c with left := some q }

/-- `node->m_right = q` (WaveletTree.hpp:1466, 1478). -/
def setRight (h : Heap) (p q : Nat) : Option Heap := (get h p).map fun c => h.set p { c with right := some q }

/-- `assignPrefixCodes(lengths, node, elem, bits)` (WaveletTree.hpp:1450-1482) with the depth of the recursion as fuel: the heap and the
result.  For the length 0 the subtraction wraps and the recursion does not end. -/
def assign (L : List (Nat × Nat)) : Nat → Heap → Nat → Nat → Nat → Option (Heap × Nat)
  | 0, _, _, _, _ => none
  | fuel + 1, h, node, elem, bits =>
    match L[elem]? with
    | none => some (h, elem)
    | some (len, s) => do
      let c ← get h node
      if len = 0 then none
      else if bits = len - 1 then
        if c.left.isNone then
          let h1 ← setLeft (new h (some s)) node h.length
          assign L fuel h1 node (elem + 1) bits
        else if c.right.isNone then
          let h1 ← setRight (new h (some s)) node h.length
          return (h1, elem + 1)
        else none
      else if bits < len - 1 then
        let (h, elem) ← if c.left.isNone then do
            let h1 ← setLeft (new h none) node h.length
            assign L fuel h1 h.length elem (bits + 1)
          else pure (h, elem)
        let c ← get h node
        if c.right.isNone then
          if elem < L.length then
            let h1 ← setRight (new h none) node h.length
            assign L fuel h1 h.length elem (bits + 1)
          else return (h, elem)
        else none
      else none

/-- Enough for the depth of the recursion. -/
def depthFor (L : List (Nat × Nat)) : Nat := 2 * (L.foldl (fun m p => max m p.1) 0 + 1) + 1

/-- `m_root = new TreeNode(); assignPrefixCodes(lengths, m_root, 0, 0)` (WaveletTree.hpp:1445-1446): the heap and `m_root`. -/
def newRoot (L : List (Nat × Nat)) (h : Heap) : Option (Heap × Nat) := do
  let r ← assign L (depthFor L) (new h none) h.length 0 0
  return (r.1, h.length)

/-- The tree of the integer codes (WaveletTree.hpp:334-341 and 454-459): the heap and `m_integerCodeTree`. -/
def newIntegers (L : List (Nat × Nat)) (h : Heap) : Option (Heap × Nat) :=
  if 0 < L.length then newRoot L h else some (new h (some 0), h.length)

/-- The members `m_root` and `m_integerCodeTree`; null is `none`. -/
structure Obj where
  root : Option Nat
  integers : Option Nat

/-- `WaveletTree(src, length)` (WaveletTree.hpp:295-360), from the lengths of both codes. -/
def construct (L I : List (Nat × Nat)) (h : Heap) : Option (Heap × Obj) := do
  let (h, r) ← newRoot L h
  let (h, i) ← newIntegers I h
  return (h, ⟨some r, some i⟩)

/-- `WaveletTree()` (WaveletTree.hpp:279-290). -/
def constructEmpty (h : Heap) : Heap × Obj := (new h none, ⟨some h.length, none⟩)

/-- `readShape` (WaveletTree.hpp:401-500), from the lengths of both codes: the pointers are overwritten. -/
def readShape (L I : List (Nat × Nat)) (_o : Obj) (h : Heap) : Option (Heap × Obj) := construct L I h

/-- `destroy(node)` (WaveletTree.hpp:394-399), with the depth of the recursion as fuel; null is dereferenced. -/
def destroy : Nat → Option Nat → Heap → Option Heap
  | 0, _, _ => none
  | _ + 1, none, _ => none
  | fuel + 1, some p, h => do
    let c ← get h p
    let h ← (if c.left.isSome then destroy fuel c.left h else some h)
    let c ← get h p
    let h ← (if c.right.isSome then destroy fuel c.right h else some h)
    let c ← get h p
    return h.set p { c with live := false }

/-- `~WaveletTree()` (WaveletTree.hpp:387-392). -/
def destruct (o : Obj) (h : Heap) : Option Heap := do
  let h ← destroy (h.length + 1) o.root h
  destroy (h.length + 1) o.integers h

/-! ## Growing the tree -/

/-- `m_right` for `true`, `m_left` for `false`. -/
def Cell.child (c : Cell) (b : Bool) : Option Nat := if b then c.right else c.left

/-- `if(!node->m_left) node->m_left = new TreeNode(...)` and the same on the right (WaveletTree.hpp:1100-1101, 1136-1137, 1218-1222,
1237-1248): the heap and the child. -/
def ensure (h : Heap) (p : Nat) (b : Bool) (s : Option Nat) : Option (Heap × Nat) :=
  (get h p).bind fun c =>
    match c.child b with
    | some q => some (h, q)
    | none => (if b then setRight (new h s) p h.length else setLeft (new h s) p h.length).map fun h' => (h', h.length)

/-- `pushBits(bits)` (WaveletTree.hpp:1184-1200) from the node `p`; a null child is an error. -/
def pushChar (h : Heap) : Nat → List Bool → Option Nat
  | p, [] => some p
  | p, b :: bs => (get h p).bind fun c =>
    match c.child b with
    | none => none
    | some q => pushChar h q bs

/-- `pushBits(node, bits, symbol)` (WaveletTree.hpp:1228-1249); `bits.back()` of no bits is an error. -/
def pushInt (symbol : Nat) : Heap → Nat → List Bool → Option Heap
  | _, _, [] => none
  | h, p, [b] => (ensure h p b (some symbol)).map (·.1)
  | h, p, b :: b' :: bs => (ensure h p b none).bind fun r => pushInt symbol r.1 r.2 (b' :: bs)

/-- `pushRun` (WaveletTree.hpp:1251-1275). -/
def pushRun (c : Codes) (root : Nat) (h : Heap) (symbol : UInt8) (n : Nat) : Option Heap :=
  (pushChar h root (codeOf c.codes symbol.toNat)).bind fun p => (runCode c n).bind fun code => pushInt n h p code

/-- The calls of `pushRun` made by `pushMessage` (WaveletTree.hpp:1484-1494). -/
def pushRuns (c : Codes) (root : Nat) : Heap → List (UInt8 × Nat) → Option Heap
  | h, [] => some h
  | h, r :: rs => (pushRun c root h r.1 r.2).bind fun h => pushRuns c root h rs

/-! ## The decoder -/

/-- How a part of the decoder ends: with a result, at a null or a deleted node (or with a failed assertion), or because no more answers
or rounds are given. -/
inductive Out (α : Type) where
  | ok (a : α)
  | bad
  | ended

/-- `IntegerNode` (WaveletTree.hpp:839-850). -/
structure INode where
  node : Nat
  int : Option Nat
  bits : Nat
  ones : Nat
  status : Nat

/-- `node.m_intNode ? node.m_intNode->m_left : 0` (WaveletTree.hpp:1113, 1149). -/
def intChild (h : Heap) (int : Option Nat) (b : Bool) : Option (Option Nat) :=
  match int with
  | none => some none
  | some i => (get h i).map fun c => c.child b

/-- The child `q` of an integer node (WaveletTree.hpp:1112-1127, 1148-1162); `m_leadingOnes` is a `uint32`. -/
def INode.next (w : Nat) (n : INode) (i : Option Nat) (b : Bool) (q cnt : Nat) : INode :=
  if i.isNone then
    if n.status = 0 then if b then ⟨q, i, cnt, (n.ones + 1) % 2 ^ 32, 1⟩ else ⟨q, i, cnt, w, 2⟩
    else if n.status = 1 then if b then ⟨q, i, cnt, (n.ones + 1) % 2 ^ 32, 1⟩ else ⟨q, i, cnt, (n.ones + w) % 2 ^ 32, 2⟩
    else ⟨q, i, cnt, (n.ones + 2 ^ 32 - 1) % 2 ^ 32, n.status⟩
  else ⟨q, i, cnt, n.ones, n.status⟩

/-- One side of an integer node (WaveletTree.hpp:1099-1131, 1135-1166). -/
def growChild (w : Nat) (h : Heap) (n : INode) (b : Bool) (cnt : Nat) : Out (Heap × List INode) :=
  if 0 < cnt then
    match ensure h n.node b none with
    | none => .bad
    | some (h, q) =>
      match intChild h n.int b with
      | none => .bad
      | some i =>
        let d := n.next w i b q cnt
        .ok (h, if d.status ≠ 2 ∨ 0 < d.ones then [d] else [])
  else .ok (h, [])

/-- The symbol of a possibly null node of the integer codes. -/
def intSym (h : Heap) (int : Option Nat) : Option (Option Nat) :=
  match int with
  | none => some none
  | some i => (get h i).map fun c => c.sym

/-- One integer node (WaveletTree.hpp:1034-1169).  The decoded bits are represented by the number of ones among them, for which any
number may be given.  `m_integerCodes.size() > 1` is the argument `table`; without a table the old value of `m_symbol` stays. -/
def visit (w : Nat) (table : Bool) (h : Heap) (n : INode) (ones : Nat) : Out (Heap × List INode × List INode) :=
  match intSym h n.int, get h n.node with
  | some sym, some c =>
    let h := if sym.isSome then h.set n.node { c with sym := if table then sym else some (match c.sym with | some s => s | none => 0) } else h
    match sym with
    | some (_ + 1) => .ok (h, [], [])
    | _ =>
      match growChild w h n false (n.bits - min ones n.bits) with
      | .ok (h, l) =>
        match growChild w h n true (min ones n.bits) with
        | .ok (h, r) => .ok (h, l, r)
        | .bad => .bad
        | .ended => .ended
      | .bad => .bad
      | .ended => .ended
  | _, _ => .bad

/-- The integer phase (WaveletTree.hpp:1029-1173): rounds, answers, the lists `integerCodeNodes`, `left` and `right`. -/
def decInts (w : Nat) (table : Bool) : Nat → List Nat → List INode → List INode → List INode → Heap → Out Heap
  | 0, _, _, _, _, _ => .ended
  | fuel + 1, os, [], l, r, h => if l.isEmpty && r.isEmpty then .ok h else decInts w table fuel os (l ++ r) [] [] h
  | _ + 1, [], _ :: _, _, _, _ => .ended
  | fuel + 1, o :: os, n :: ns, l, r, h =>
    match visit w table h n o with
    | .ok (h, a, b) => decInts w table fuel os ns (l ++ a) (r ++ b) h
    | .bad => .bad
    | .ended => .ended

/-- The queue of inner nodes (WaveletTree.hpp:929-1026), as pairs of a node and the number of its bits; the numbers of ones are given as
in `visit`.  The result are the remaining answers and `integerCodeNodes`. -/
def decQueue (int : Option Nat) (h : Heap) : Nat → List Nat → List (Nat × Nat) → List INode → Out (List Nat × List INode)
  | 0, _, _, _ => .ended
  | _ + 1, os, [], ints => .ok (os, ints)
  | _ + 1, [], _ :: _, _ => .ended
  | fuel + 1, o :: os, (p, k) :: q, ints =>
    match get h p with
    | none => .bad
    | some c =>
      match c.left, c.right with
      | some l, some r =>
        match get h l, get h r with
        | some cl, some cr =>
          match cl.sym, cr.sym with
          | some _, some _ => decQueue int h fuel os q (ints ++ [⟨l, int, k - min o k, 0, 0⟩, ⟨r, int, min o k, 0, 0⟩])
          | some _, none => decQueue int h fuel os (q ++ [(r, min o k)]) (ints ++ [⟨l, int, k - min o k, 0, 0⟩])
          | none, some _ => .bad
          | none, none => decQueue int h fuel os (q ++ [(l, k - min o k), (r, min o k)]) ints
        | _, _ => .bad
      | _, _ => .bad

/-- Where a child of the root goes (WaveletTree.hpp:891-925). -/
def rootChild (int : Option Nat) (h : Heap) (ptr : Option Nat) (k : Nat) : Option (List (Nat × Nat) × List INode) :=
  match ptr with
  | none => none
  | some p => (get h p).map fun c => if c.sym.isSome then ([], [⟨p, int, k, 0, 0⟩]) else ([(p, k)], [])

/-- `decodeTreeBF` (WaveletTree.hpp:857-1174). -/
def decodeTree (w : Nat) (table : Bool) (int : Option Nat) (root rootSize fuel : Nat) (os : List Nat) (h : Heap) : Out Heap :=
  match os with
  | [] => .ended
  | o :: os =>
    let k := if rootSize = 0 then 1 else rootSize
    match get h root with
    | none => .bad
    | some c =>
      match rootChild int h c.left (k - min o k), (if 0 < min o k then rootChild int h c.right (min o k) else some ([], [])) with
      | some ql, some qr =>
        match decQueue int h fuel os (ql.1 ++ qr.1) (ql.2 ++ qr.2) with
        | .ok (os, ints) => decInts w table fuel os ints [] [] h
        | .bad => .bad
        | .ended => .ended
      | _, _ => .bad

/-! ## Whole lives -/

/-- A `WaveletTree` made by the encoder from the lengths of both codes, with its message pushed, and destroyed
(WaveletTree.hpp:295-360, 387-399; WaveletCoders.cpp:119-128). -/
def encoderLife (L I : List (Nat × Nat)) (c : Codes) (rs : List (UInt8 × Nat)) (h : Heap) : Option Heap :=
  (construct L I h).bind fun r =>
    match r.2.root with
    | none => none
    | some root => (pushRuns c root r.1 rs).bind fun h => destruct r.2 h

/-- The same for a message (WaveletTree.hpp:301-360): the lengths of the codes and the codes are chosen as in `Wave.messageCodes`, with
`cheap` for the outcomes of the floating-point comparisons. -/
def messageLife (cheap : Nat → Nat → Nat × Nat → Bool) (data : List UInt8) (h : Heap) : Option Heap :=
  (Runs.runsAndChars 0 (fun _ => 0) (fun _ => 0) data).bind fun s =>
    (Huff.calculateHuffmanLengths (HuffBlock.freqList s.2.1)).bind fun cl =>
      (findParameters cheap (runDist s.2.2 data.length)).bind fun x =>
        (messageCodes cheap data).bind fun c =>
          (messageRuns (data.length + 1) data).bind fun rs => encoderLife (Huff.sortPairs cl) x.2 c rs h

/-- A `WaveletTree` of the decoder: its shape read, the tree decoded, and destroyed (WaveletCoders.cpp:269-290). -/
def decoderLife (L I : List (Nat × Nat)) (w : Nat) (table : Bool) (rootSize fuel : Nat) (os : List Nat) (h : Heap) : Out Heap :=
  match readShape L I (constructEmpty h).2 (constructEmpty h).1 with
  | none => .bad
  | some (h, o) =>
    match o.root with
    | none => .bad
    | some root =>
      match decodeTree w table o.integers root rootSize fuel os h with
      | .ok h =>
        match destruct o h with
        | none => .bad
        | some h => .ok h
      | .bad => .bad
      | .ended => .ended

end Bwtc.WaveNodes
