import Verif.WaveTree
import Verif.ProbModels
import Verif.RangeCoder

/-!
# Breadth-first coding of a wavelet tree

Model of `encodeTreeBF` (WaveletTree.hpp:637-809) and `decodeTreeBF` (WaveletTree.hpp:857-1174) in
the configuration `OPTIMIZED_INTEGER_CODE`, `SEMI_FIXED_CODE`.

The encoder yields the list of the arguments of its calls `enc.encode(bit, probability)`.  The
decoder is a program that asks for bits, giving the probability with each question.
-/

set_option autoImplicit false

namespace Bwtc.Wave
open ProbModels RangeCoder

/-! ## Programs that read coded bits -/

/-- A computation calling `dec.decode(probability)`; `fail` is undefined behaviour. -/
inductive Prog (α : Type) where
  | ret (a : α)
  | ask (p : Nat) (k : Bool → Prog α)
  | fail

namespace Prog

/-- Sequencing. -/
def bind {α β : Type} : Prog α → (α → Prog β) → Prog β
  | .ret a, f => f a
  | .ask p k, f => .ask p fun b => (k b).bind f
  | .fail, _ => .fail

instance : Monad Prog where
  pure := Prog.ret
  bind := Prog.bind

/-- A step that reads nothing. -/
def lift {α : Type} : Option α → Prog α
  | some a => .ret a
  | none => .fail

/-- Running on the range decoder (`Verif.RangeCoder`). -/
def exec {α : Type} : Prog α → Dec → Option (α × Dec)
  | .ret a, d => some (a, d)
  | .ask p k, d =>
    match decodeBit d p with
    | none => none
    | some (b, d) => (k b).exec d
  | .fail, _ => none

end Prog

/-! ## Gap vectors -/

/-- The gap vector of the child `b` of a node with the given bits and gap vector
(`bv.push_back(prev != bit || node.second[i])`, WaveletTree.hpp:674, 718, 750, 888, 987, 1018):
one entry for each bit equal to `b`.  At the root the node's own flags are all false.
Simplification: computed apart from the coding loop, which handles bits and flags in the same
order. -/
def childGaps (b : Bool) : Bool → List Bool → List Bool → List Bool
  | prev, x :: xs, g :: gs =>
    if x = b then ((prev != x) || g) :: childGaps b x xs gs else childGaps b x xs gs
  | _, _, _ => []

section
variable {σ₁ σ₂ σ₃ : Type} (P : Model σ₁) (G : Model σ₂) (A : Model σ₃)

/-! ## Encoder -/

/-- `enc.encode(bit, m.probabilityOfOne()); m.update(bit)`: the probability and the new state. -/
def encBit {σ : Type} (M : Model σ) (s : σ) (b : Bool) : Option (Nat × σ) := do
  let p ← M.prob s
  let s ← M.update s b
  return (p, s)

/-- A loop coding all bits of a node with one model (WaveletTree.hpp:669-672 with `pm`, 776-779 with
`gm`). -/
def encBits {σ : Type} (M : Model σ) : List Bool → σ → Option (List (Bool × Nat) × σ)
  | [], s => some ([], s)
  | b :: bs, s => do
    let (p, s) ← encBit M s b
    let (it, s) ← encBits M bs s
    return ((b, p) :: it, s)

/-- The loop for a node whose children both have symbols (WaveletTree.hpp:702-709): only flagged bits
are coded. -/
def encBoth : List Bool → List Bool → σ₃ → Option (List (Bool × Nat) × σ₃)
  | [], _, s => some ([], s)
  | _ :: _, [], _ => none
  | _ :: bs, false :: gs, s => encBoth bs gs s
  | b :: bs, true :: gs, s => do
    let (p, s) ← encBit A s b
    let (it, s) ← encBoth bs gs s
    return ((b, p) :: it, s)

/-- The loops for a node whose left child has a symbol and whose right child has none
(`leftSym = true`, WaveletTree.hpp:716-730: a bit behind a zero is known unless flagged) and for a
node with two inner children (`leftSym = false`, WaveletTree.hpp:739-752). -/
def encMixed (leftSym : Bool) : Bool → List Bool → List Bool → σ₁ → σ₃ → Option (List (Bool × Nat) × σ₁ × σ₃)
  | _, [], _, s1, s3 => some ([], s1, s3)
  | _, _ :: _, [], _, _ => none
  | _, b :: bs, true :: gs, s1, s3 => do
    let (p, s3) ← encBit A s3 b
    let s1 ← P.updateState s1 b
    let (it, s1, s3) ← encMixed leftSym b bs gs s1 s3
    return ((b, p) :: it, s1, s3)
  | prev, b :: bs, false :: gs, s1, s3 =>
    if leftSym && !prev then encMixed leftSym b bs gs s1 s3
    else do
      let (p, s1) ← encBit P s1 b
      let (it, s1, s3) ← encMixed leftSym b bs gs s1 s3
      return ((b, p) :: it, s1, s3)

/-- The queue of nodes between the root and the symbol nodes (WaveletTree.hpp:690-759): items,
symbol nodes in the order they were appended, states.  `fuel` bounds the number of rounds. -/
def encQueue (h : Heap) : Nat → List (Path × List Bool) → List Path → σ₁ → σ₃ →
    Option (List (Bool × Nat) × List Path × σ₁ × σ₃)
  | 0, _, _, _, _ => none
  | _ + 1, [], ints, s1, s3 => some ([], ints, s1, s3)
  | fuel + 1, (p, flags) :: q, ints, s1, s3 => do
    let s1 ← P.reset s1
    let s3 ← A.reset s3
    let n ← h p
    let b0 ← n.bits.head?
    let l ← h (p ++ [false])
    let r ← h (p ++ [true])
    match l.sym, r.sym with
    | some _, some _ => do
      let (it, s3) ← encBoth A n.bits flags s3
      let (it', ints, s1, s3) ← encQueue h fuel q (ints ++ [p ++ [false], p ++ [true]]) s1 s3
      return (it ++ it', ints, s1, s3)
    | some _, none => do
      let (it, s1, s3) ← encMixed P A true (!b0) n.bits flags s1 s3
      let (it', ints, s1, s3) ← encQueue h fuel (q ++ [(p ++ [true], childGaps true (!b0) n.bits flags)])
        (ints ++ [p ++ [false]]) s1 s3
      return (it ++ it', ints, s1, s3)
    | none, some _ => none
    | none, none => do
      let (it, s1, s3) ← encMixed P A false (!b0) n.bits flags s1 s3
      let (it', ints, s1, s3) ← encQueue h fuel (q ++ [(p ++ [false], childGaps false (!b0) n.bits flags),
        (p ++ [true], childGaps true (!b0) n.bits flags)]) ints s1 s3
      return (it ++ it', ints, s1, s3)

/-- Where a child of the root goes (WaveletTree.hpp:677-685): the queue or the symbol nodes. -/
def rootChild (h : Heap) (p : Path) (flags : List Bool) : List (Path × List Bool) × List Path :=
  match h p with
  | none => ([], [])
  | some n => if n.sym.isSome then ([], [p]) else ([(p, flags)], [])

/-- Whether a child of an integer node is coded in the next round (WaveletTree.hpp:788-795). -/
def coded (h : Heap) (p : Path) : List Path :=
  match h p with
  | none => []
  | some n => if n.sym = none ∨ n.sym = some 0 then [p] else []

/-- One round of the integer phase (WaveletTree.hpp:773-803): items, left and right children. -/
def encRound (h : Heap) : List Path → σ₂ → Option (List (Bool × Nat) × List Path × List Path × σ₂)
  | [], s => some ([], [], [], s)
  | p :: ps, s => do
    let n ← h p
    let (it, s) ← encBits G n.bits s
    let (it', l, r, s) ← encRound h ps s
    return (it ++ it', coded h (p ++ [false]) ++ l, coded h (p ++ [true]) ++ r, s)

/-- The integer phase (WaveletTree.hpp:768-804); the list is that of `integerCodeNodes` after the two
splices. -/
def encInts (h : Heap) : Nat → List Path → σ₂ → Option (List (Bool × Nat) × σ₂)
  | 0, _, _ => none
  | _ + 1, [], s => some ([], s)
  | fuel + 1, p :: ps, s => do
    let s ← G.reset s
    let (it, l, r, s) ← encRound G h (p :: ps) s
    let (it', s) ← encInts h fuel (l ++ r) s
    return (it ++ it', s)

/-- `encodeTreeBF` (WaveletTree.hpp:637-809): everything handed to the range coder, and the states
of the three models. -/
def encodeTree (fuel : Nat) (h : Heap) (s1 : σ₁) (s2 : σ₂) (s3 : σ₃) :
    Option (List (Bool × Nat) × σ₁ × σ₂ × σ₃) := do
  let root ← h []
  let b0 ← root.bits.head?
  let (it, s1) ← encBits P root.bits s1
  let flags := List.replicate root.bits.length false
  let l := rootChild h [false] (childGaps false (!b0) root.bits flags)
  let r := rootChild h [true] (childGaps true (!b0) root.bits flags)
  let (it', ints, s1, s3) ← encQueue P A h fuel (l.1 ++ r.1) (l.2 ++ r.2) s1 s3
  let (it'', s2) ← encInts G h fuel ints s2
  return (it ++ it' ++ it'', s1, s2, s3)

/-! ## Decoder -/

/-- `bit = dec.decode(m.probabilityOfOne()); m.update(bit)`. -/
def decBit {σ : Type} (M : Model σ) (s : σ) : Prog (Bool × σ) :=
  (Prog.lift (M.prob s)).bind fun p => .ask p fun b => (Prog.lift (M.update s b)).bind fun s => .ret (b, s)

/-- A loop reading `k` bits with one model (WaveletTree.hpp:876-886 with `pm`, 1057-1062 with
`gm`). -/
def decBits {σ : Type} (M : Model σ) : Nat → σ → Prog (List Bool × σ)
  | 0, s => .ret ([], s)
  | k + 1, s => (decBit M s).bind fun bs => (decBits M k bs.2).bind fun r => .ret (bs.1 :: r.1, r.2)

/-- The loop for a node whose children both have symbols (WaveletTree.hpp:940-950). -/
def decBoth : Bool → List Bool → σ₃ → Prog (List Bool × σ₃)
  | _, [], s => .ret ([], s)
  | prev, false :: gs, s => (decBoth (!prev) gs s).bind fun r => .ret ((!prev) :: r.1, r.2)
  | _, true :: gs, s => (decBit A s).bind fun bs => (decBoth bs.1 gs bs.2).bind fun r => .ret (bs.1 :: r.1, r.2)

/-- The loops for a node with a symbol on the left only (WaveletTree.hpp:973-989) and for a node with
two inner children (WaveletTree.hpp:1005-1020). -/
def decMixed (leftSym : Bool) : Bool → List Bool → σ₁ → σ₃ → Prog (List Bool × σ₁ × σ₃)
  | _, [], s1, s3 => .ret ([], s1, s3)
  | _, true :: gs, s1, s3 =>
    (decBit A s3).bind fun bs => (Prog.lift (P.updateState s1 bs.1)).bind fun s1 =>
      (decMixed leftSym bs.1 gs s1 bs.2).bind fun r => .ret (bs.1 :: r.1, r.2)
  | prev, false :: gs, s1, s3 =>
    if leftSym && !prev then (decMixed leftSym true gs s1 s3).bind fun r => .ret (true :: r.1, r.2)
    else (decBit P s1).bind fun bs => (decMixed leftSym bs.1 gs bs.2 s3).bind fun r => .ret (bs.1 :: r.1, r.2)

/-- Position in the integer code of an `IntegerNode` (WaveletTree.hpp:839-850): `m_intNode`,
`m_leadingOnes`, `m_codeStatus`. -/
structure IState where
  t : Sh
  ones : Nat
  status : Nat
  deriving DecidableEq, Repr

/-- `m_left` or `m_right` of a possibly null `m_intNode`. -/
def Sh.child : Sh → Bool → Sh
  | .nil, _ => .nil
  | .node _ l _, false => l
  | .node _ _ r, true => r

/-- The state of a child (WaveletTree.hpp:1111-1126, 1147-1161). -/
def IState.step (w : Nat) (s : IState) (b : Bool) : IState :=
  let t := s.t.child b
  if t = .nil then
    if s.status = 0 then
      if b then ⟨t, s.ones + 1, 1⟩ else ⟨t, w, 2⟩
    else if s.status = 1 then
      if b then ⟨t, s.ones + 1, 1⟩ else ⟨t, s.ones + w, 2⟩
    else ⟨t, s.ones - 1, s.status⟩
  else ⟨t, s.ones, s.status⟩

/-- `m_codeStatus != 2 || m_leadingOnes > 0` (WaveletTree.hpp:1128, 1163). -/
def IState.goesOn (s : IState) : Bool := decide (s.status ≠ 2 ∨ 0 < s.ones)

/-- `IntegerNode` (WaveletTree.hpp:839-850). -/
structure INode where
  path : Path
  st : IState
  cnt : Nat

/-- The queue of inner nodes (WaveletTree.hpp:929-1026).  `fuel` bounds the number of rounds. -/
def decQueue (t : Sh) : Nat → Heap → List (Path × List Bool) → List INode → σ₁ → σ₃ →
    Prog (Heap × List INode × σ₁ × σ₃)
  | 0, _, _, _, _, _ => .fail
  | _ + 1, h, [], ints, s1, s3 => .ret (h, ints, s1, s3)
  | fuel + 1, h, (p, flags) :: q, ints, s1, s3 =>
    (Prog.lift (P.reset s1)).bind fun s1 => (Prog.lift (A.reset s3)).bind fun s3 =>
    match h p, h (p ++ [false]), h (p ++ [true]) with
    | some n, some l, some r =>
      match l.sym, r.sym with
      | some _, some _ =>
        (decBoth A true flags s3).bind fun r =>
          let ones := r.1.count true
          decQueue t fuel (h.set p ⟨n.sym, n.bits ++ r.1⟩) q
            (ints ++ [⟨p ++ [false], ⟨t, 0, 0⟩, flags.length - ones⟩, ⟨p ++ [true], ⟨t, 0, 0⟩, ones⟩]) s1 r.2
      | some _, none =>
        (decMixed P A true true flags s1 s3).bind fun r =>
          let right := childGaps true true r.1 flags
          decQueue t fuel (h.set p ⟨n.sym, n.bits ++ r.1⟩) (q ++ [(p ++ [true], right)])
            (ints ++ [⟨p ++ [false], ⟨t, 0, 0⟩, flags.length - right.length⟩]) r.2.1 r.2.2
      | none, some _ => .fail
      | none, none =>
        (decMixed P A false true flags s1 s3).bind fun r =>
          decQueue t fuel (h.set p ⟨n.sym, n.bits ++ r.1⟩)
            (q ++ [(p ++ [false], childGaps false true r.1 flags), (p ++ [true], childGaps true true r.1 flags)])
            ints r.2.1 r.2.2
    | _, _, _ => .fail

/-- The child of an integer node (WaveletTree.hpp:1099-1130, 1135-1165): created if missing, and
appended to the list of the next round unless the code is complete.  `cnt` is the number of bits of
the node that lead to it. -/
def childNode (w : Nat) (h : Heap) (d : INode) (b : Bool) (cnt : Nat) : Heap × List INode :=
  if 0 < cnt then
    let p := d.path ++ [b]
    let h := if (h p).isNone then h.set p ⟨none, []⟩ else h
    let st := d.st.step w b
    (h, if st.goesOn then [⟨p, st, cnt⟩] else [])
  else (h, [])

/-- One round of the integer phase (WaveletTree.hpp:1034-1169): heap, left and right children.
`m_integerCodes.size() > 1` is the argument `table`.  Setting `m_hasSymbol` of a node without a
symbol while the symbol is not overwritten does not happen and is `fail`. -/
def decRound (w : Nat) (table : Bool) : List INode → Heap → σ₂ →
    Prog (Heap × List INode × List INode × σ₂)
  | [], h, s => .ret (h, [], [], s)
  | d :: ds, h, s =>
    match h d.path with
    | none => .fail
    | some n =>
      let sym := match d.st.t.sym with
        | some y => if table then some y else n.sym
        | none => n.sym
      if d.st.t.sym ≠ none ∧ sym = none then .fail
      else
        match d.st.t.sym with
        | some (_ + 1) => decRound w table ds (h.set d.path ⟨sym, n.bits⟩) s
        | _ =>
          (decBits G d.cnt s).bind fun r =>
            let ones := r.1.count true
            let h := h.set d.path ⟨sym, n.bits ++ r.1⟩
            let cl := childNode w h d false (d.cnt - ones)
            let cr := childNode w cl.1 d true ones
            (decRound w table ds cr.1 r.2).bind fun x =>
              .ret (x.1, cl.2 ++ x.2.1, cr.2 ++ x.2.2.1, x.2.2.2)

/-- The integer phase (WaveletTree.hpp:1029-1173). -/
def decInts (w : Nat) (table : Bool) : Nat → List INode → Heap → σ₂ → Prog (Heap × σ₂)
  | 0, _, _, _ => .fail
  | _ + 1, [], h, s => .ret (h, s)
  | fuel + 1, d :: ds, h, s =>
    (Prog.lift (G.reset s)).bind fun s =>
      (decRound G w table (d :: ds) h s).bind fun r => decInts w table fuel (r.2.1 ++ r.2.2.1) r.1 r.2.2.2

/-- Where a child of the root goes (WaveletTree.hpp:891-925). -/
def rootNode (t : Sh) (h : Heap) (p : Path) (flags : List Bool) : Option (List (Path × List Bool) × List INode) :=
  match h p with
  | none => none
  | some n => if n.sym.isSome then some ([], [⟨p, ⟨t, 0, 0⟩, flags.length⟩]) else some ([(p, flags)], [])

/-- `decodeTreeBF` (WaveletTree.hpp:857-1174) for codes read by `readShape`: the tree and the states
of the three models. -/
def decodeTree (fuel : Nat) (c : Codes) (rootSize : Nat) (s1 : σ₁) (s2 : σ₂) (s3 : σ₃) :
    Prog (Heap × σ₁ × σ₂ × σ₃) :=
  let h := Heap.ofShape c.root
  match h [] with
  | none => .fail
  | some n =>
    (decBits P (if rootSize = 0 then 1 else rootSize) s1).bind fun r =>
      let bits := r.1
      let h := h.set [] ⟨n.sym, n.bits ++ bits⟩
      let flags := List.replicate bits.length false
      let left := childGaps false (!(bits.head? == some true)) bits flags
      let right := childGaps true (!(bits.head? == some true)) bits flags
      (Prog.lift (rootNode c.itree h [false] left)).bind fun ql =>
        (Prog.lift (if 0 < right.length then rootNode c.itree h [true] right else some ([], []))).bind fun qr =>
          (decQueue P A c.itree fuel h (ql.1 ++ qr.1) (ql.2 ++ qr.2) r.2 s3).bind fun x =>
            (decInts G c.w (decide (1 < c.icodes.length)) fuel x.2.1 x.1 s2).bind fun y =>
              .ret (y.1, x.2.2.1, y.2, x.2.2.2)

end

end Bwtc.Wave
