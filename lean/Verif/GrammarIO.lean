import Verif.GrammarUpdate
import Verif.Varint

/-!
# Writing and reading the grammar

Model of `Grammar::writeGrammar` and `Grammar::readGrammar` (preprocessors/Grammar.cpp:202-456).
A written grammar is a list of bytes, the stream read from is a list of bits (`Basic`).
-/

set_option autoImplicit false

namespace Bwtc.Grammar
open Varint

/-! ## Writing -/

/-- `isLarge()` of the variable of a rule (Grammar.hpp:66). -/
def Key.isLarge : Key → Bool
  | .one _ => false
  | .two _ _ => true

/-- `writeNumberOfRules` (Grammar.cpp:448-456): the bytes and the returned size. -/
def writeNumberOfRules (g : G) : Option (List UInt8 × Nat) := do
  let (p, k) ← packInteger g.rules.length
  return (writeCounted k p, k)

/-- `writeSpecialSymbols` (Grammar.cpp:322-329); the number is truncated to a byte. -/
def writeSpecialSymbols (g : G) : List UInt8 := UInt8.ofNat g.specials.length :: g.specials

/-- The loop of `writeVariableFlags` and the byte written behind it (Grammar.cpp:429-444): arguments
are `buffer` and `bitsLeft`.  `divisible` is true iff `bitsLeft` is eight at the end. -/
def flagsLoop : List Bool → Nat → Nat → List UInt8
  | [], buf, left => if left = 8 then [] else [UInt8.ofNat buf]
  | b :: bs, buf, left =>
    if left - 1 = 0 then UInt8.ofNat (buf ||| (b.toNat <<< (left - 1))) :: flagsLoop bs 0 8
    else flagsLoop bs (buf ||| (b.toNat <<< (left - 1))) (left - 1)

/-- `writeVariableFlags` (Grammar.cpp:425-446). -/
def writeVariableFlags (g : G) : List UInt8 := flagsLoop (g.rules.map fun r => r.lhs.isLarge) 0 8

/-- `writeVariables` (Grammar.cpp:336-349). -/
def writeVariables (g : G) : List UInt8 := g.rules.flatMap fun r => r.lhs.bytes

/-- The loop of `numberOfFreedSymbols` (Grammar.cpp:351-364): arguments are the remaining entries,
the index `i`, `curr` (`sq` is `curr * curr`) and `numOfFreedSymbols`. -/
def countFreed : List (Bool × UInt8) → Nat → Nat → Nat → Nat
  | [], _, _, num => num
  | e :: l, i, curr, num =>
    if curr * curr = i then countFreed l (i + 1) (curr + 1) num
    else if e.1 then countFreed l (i + 1) curr num
    else countFreed l (i + 1) curr (num + 1)

/-- `numberOfFreedSymbols` (Grammar.cpp:351-364). -/
def numberOfFreedSymbols (g : G) : Nat := countFreed g.spr 0 0 0

/-- The loop of `writeFreedSymbols` (Grammar.cpp:377-388): `freedSymbols`, the entries from `curr` on,
`curr` and `sqr`.  `none`: access behind the entries. -/
def writeFreedLoop : Nat → List (Bool × UInt8) → Nat → Nat → Option (List UInt8)
  | 0, _, _, _ => some []
  | _ + 1, [], _, _ => none
  | k + 1, e :: l, curr, sqr =>
    if sqr * sqr = curr then writeFreedLoop (k + 1) l (curr + 1) (sqr + 1)
    else if e.1 then writeFreedLoop (k + 1) l (curr + 1) sqr
    else do
      let r ← writeFreedLoop k l (curr + 1) sqr
      return e.2 :: r

/-- `writeFreedSymbols` (Grammar.cpp:366-391); the number is truncated to a byte. -/
def writeFreedSymbols (g : G) : Option (List UInt8) := do
  let r ← writeFreedLoop (numberOfFreedSymbols g) (g.spr.drop 2) 2 2
  return UInt8.ofNat (numberOfFreedSymbols g) :: r

/-- The loop of `writeLengthsOfRules` and the byte behind it (Grammar.cpp:395-413): lengths, `buffer`
and `rulesInBuffer`.  `none`: the assertion on the lengths fails. -/
def lengthsLoop : List Nat → Nat → Nat → Option (List UInt8)
  | [], buf, k => some (if k = 0 then [] else [UInt8.ofNat (buf <<< (8 - 2 * k))])
  | l :: ls, buf, k =>
    if l < 2 ∨ 4 < l then none
    else if k + 1 = 4 then do
      let r ← lengthsLoop ls 0 0
      return UInt8.ofNat ((buf <<< 2) ||| (l - 2)) :: r
    else lengthsLoop ls (((buf <<< 2) ||| (l - 2)) % 256) (k + 1)

/-- `writeLengthsOfRules` (Grammar.cpp:394-415). -/
def writeLengthsOfRules (g : G) : Option (List UInt8) :=
  lengthsLoop (g.rules.map fun r => r.rhs.length) 0 0

/-- `writeRightSides` (Grammar.cpp:417-423). -/
def writeRightSides (g : G) : List UInt8 := g.rules.flatMap fun r => r.rhs

/-- The sum of the values returned by the functions called behind `writeNumberOfRules`
(Grammar.cpp:313-317, returned at 328, 348, 390, 414, 422 and 445). -/
def restSize (g : G) : Nat :=
  (g.specials.length + 1) +
    ((g.rules.length / 8 + (if g.rules.length % 8 = 0 then 0 else 1)) +
      (g.rules.map fun r => if r.lhs.isLarge then 2 else 1).sum) +
    (1 + numberOfFreedSymbols g) +
    (g.rules.length / 4 + (if g.rules.length % 4 = 0 then 0 else 1)) +
    (g.rules.flatMap fun r => r.rhs).length

/-- `writeGrammar` (Grammar.cpp:310-320): the written bytes and the returned size, truncated to 32
bits. -/
def writeGrammar (g : G) : Option (List UInt8 × Nat) := do
  let (num, k) ← writeNumberOfRules g
  if g.rules.length = 0 then return (num, k % 2 ^ 32)
  else
    let freed ← writeFreedSymbols g
    let lens ← writeLengthsOfRules g
    return (num ++ (writeSpecialSymbols g ++ (writeVariableFlags g ++ (writeVariables g ++
      (freed ++ (lens ++ writeRightSides g))))), (k + restSize g) % 2 ^ 32)

/-! ## Reading -/

/-- Reading `n` bytes. -/
def readBytes : Nat → List Bool → Option (List UInt8 × List Bool)
  | 0, s => some ([], s)
  | n + 1, s => do
    let (b, s) ← readByte s
    let (r, s) ← readBytes n s
    return (b :: r, s)

/-- The array `specialEnumeration` after the special symbols were read (Grammar.cpp:206, 220). -/
def enumerate (specials : List UInt8) : UInt8 → Nat :=
  specials.zipIdx.foldl (fun f e => setFn f e.1 e.2) (fun _ => 0)

/-- The array `original` after the special symbols were read (Grammar.cpp:215, 221). -/
def originalInit (n : Nat) : List Bool :=
  (List.range n).foldl (fun o i => o.set (i * i) false) (List.replicate (n * n) true)

/-- The variables of the loop over the left sides (Grammar.cpp:223, 232-247). -/
structure RdVars where
  freqs : UInt8 → Nat
  isVariable : UInt8 → Bool
  original : List Bool
  maxSymbol : Nat
  lhs : List Key

/-- The loop over the left sides (Grammar.cpp:232-247).  `none`: end of the data, or access outside of
`original`. -/
def readVars (enum : UInt8 → Nat) : List Bool → RdVars → List Bool → Option (RdVars × List Bool)
  | [], st, s => some (st, s)
  | false :: fl, st, s => do
    let (v, s) ← readByte s
    let st := { st with freqs := inc st.freqs v, isVariable := setFn st.isVariable v true,
                        lhs := st.lhs ++ [.one v] }
    readVars enum fl st s
  | true :: fl, st, s => do
    let (v, s) ← readByte s
    let (w, s) ← readByte s
    let e := numberOfSpecialPair (enum v) (enum w)
    if e < st.original.length then
      let st := { st with freqs := inc (inc st.freqs v) w, original := st.original.set e false,
                          maxSymbol := if st.maxSymbol < e then e else st.maxSymbol,
                          lhs := st.lhs ++ [.two v w] }
      readVars enum fl st s
    else none

/-- The loop over the freed symbols (Grammar.cpp:257-275): the values of `original` from `curr` on, the
number of symbols still to be read, `curr` and `sqr` (`sq` is `sqr * sqr`).  The result holds the
entries, the values of `curr` and `sqr`, and the rest of the stream.  `none`: access outside of
`original` (`curr < specials*specials` is asserted) or of the special symbols. -/
def readFreed (specials : List UInt8) : List Bool → Nat → Nat → Nat → List Bool →
    Option (List (Bool × UInt8) × Nat × Nat × List Bool)
  | _, 0, curr, sqr, s => some ([], curr, sqr, s)
  | [], _ + 1, _, _, _ => none
  | o :: os, k + 1, curr, sqr, s =>
    if sqr * sqr = curr then do
      let c ← specials[sqr]?
      let (r, fin) ← readFreed specials os (k + 1) (curr + 1) (sqr + 1) s
      return ((false, c) :: r, fin)
    else if o then do
      let (c, s) ← readByte s
      let (r, fin) ← readFreed specials os k (curr + 1) sqr s
      return ((false, c) :: r, fin)
    else do
      let (r, fin) ← readFreed specials os (k + 1) (curr + 1) sqr s
      return ((true, 0) :: r, fin)

/-- The loop up to `maxSymbol` (Grammar.cpp:277-286): the number of entries still to be made, `curr`
and `sqr`.  `none`: access outside of the special symbols. -/
def fillSpr (specials : List UInt8) : Nat → Nat → Nat → Option (List (Bool × UInt8))
  | 0, _, _ => some []
  | k + 1, curr, sqr =>
    if sqr * sqr = curr then do
      let c ← specials[sqr]?
      let r ← fillSpr specials k (curr + 1) (sqr + 1)
      return (false, c) :: r
    else do
      let r ← fillSpr specials k (curr + 1) sqr
      return (true, 0) :: r

/-- The lengths packed in one byte (Grammar.cpp:294-300), at most `left` of them. -/
def unpackLengths (b : UInt8) (left : Nat) : List Nat :=
  ((List.range 4).take left).map fun j => 2 + ((b.toNat >>> (6 - 2 * j)) &&& 3)

/-- The loop over the lengths (Grammar.cpp:291-301): bytes to read and rules without a length. -/
def readLengths : Nat → Nat → List Bool → Option (List Nat × List Bool)
  | 0, _, s => some ([], s)
  | k + 1, left, s => do
    let (b, s) ← readByte s
    let (r, s) ← readLengths k (left - 4) s
    return (unpackLengths b left ++ r, s)

/-- The ranges given to the rules (Grammar.cpp:290, 298-299) as parts of `m_rightHandSides`. -/
def splitLengths : List Nat → List UInt8 → List (List UInt8)
  | [], _ => []
  | n :: ns, l => l.take n :: splitLengths ns (l.drop n)

/-- `readGrammar` on an empty grammar (Grammar.cpp:202-308).  The number of rules is truncated to 32
bits.  `m_newRules` is left uninitialised there, zero here. -/
def readGrammar (s : List Bool) : Option (G × List Bool) := do
  let (value, _, s) ← readVar s
  let rules := value % 2 ^ 32
  if rules = 0 then return (empty, s)
  else
    let (n, s) ← readByte s
    let (specials, s) ← readBytes n.toNat s
    let (flags, s) ← readBits rules s
    let s := alignIn s
    let (st, s) ← readVars (enumerate specials) flags
      ⟨fun _ => 0, fun _ => false, originalInit n.toNat, 0, []⟩ s
    let (k, s) ← readByte s
    let (spr1, curr, sqr, s) ← readFreed specials st.original k.toNat 0 0 s
    let spr2 ← fillSpr specials (if 0 < st.maxSymbol then st.maxSymbol + 1 - curr else 0) curr sqr
    let (lens, s) ← readLengths (rules / 4 + (if rules % 4 = 0 then 0 else 1)) rules s
    let (rhs, s) ← readBytes lens.sum s
    return (⟨rhs.foldl inc st.freqs, fun c => decide (c ∈ specials), st.isVariable, specials,
      spr1 ++ spr2, List.zipWith Rule.mk st.lhs (splitLengths lens rhs), 0⟩, s)

end Bwtc.Grammar
