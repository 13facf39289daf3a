import Verif.GrammarPairs

/-!
# The grammar of the preprocessor and the postprocessor

Model of `Grammar` (preprocessors/Grammar.{hpp,cpp}, without reading and writing) and of
`Postprocessor` (preprocessors/Postprocessor.cpp).  A `uint16` made of two bytes is a pair of bytes;
arrays indexed by a byte are functions.  The ranges of the rules partition `m_rightHandSides` in the
order of the rules (both `addRule` and `expandAlphabet` keep it that way), so every rule carries its
own right-hand side.  `m_specialSymbolsAsVariables` is never read and left out.
-/

set_option autoImplicit false

namespace Bwtc.Grammar

/-- A variable of the grammar or a key of the postprocessor's table: a single byte, or two special
symbols (`m_variable` with `m_largeVariable`, Grammar.hpp:47-79; key with bit 16,
Postprocessor.cpp:74, 90-91, 101-104). -/
inductive Key where
  | one (c : UInt8)
  | two (a b : UInt8)
deriving DecidableEq, Repr

/-- The bytes a key is written with. -/
def Key.bytes : Key → List UInt8
  | .one c => [c]
  | .two a b => [a, b]

/-- `PrRule` (Grammar.hpp:47-79). -/
structure Rule where
  lhs : Key
  rhs : List UInt8
deriving DecidableEq, Repr

/-- The members of `Grammar` (Grammar.hpp:187-213). -/
structure G where
  freqs : UInt8 → Nat
  isSpecial : UInt8 → Bool
  isVariable : UInt8 → Bool
  specials : List UInt8
  spr : List (Bool × UInt8)
  rules : List Rule
  newRules : Nat

/-- The constructor (Grammar.cpp:36-40).  `m_newRules` is not initialised there, but it is set by
`beginUpdatingRules` before it is read. -/
def empty : G := ⟨fun _ => 0, fun _ => false, fun _ => false, [], [], [], 0⟩

/-- Assignment to an array cell. -/
def setFn {α : Type} (f : UInt8 → α) (c : UInt8) (v : α) : UInt8 → α :=
  fun d => if d = c then v else f d

/-- `++array[c]`. -/
def inc (f : UInt8 → Nat) (c : UInt8) : UInt8 → Nat := setFn f c (f c + 1)

/-- `--array[c]`; `none`: the counter is zero (and would wrap around). -/
def dec (f : UInt8 → Nat) (c : UInt8) : Option (UInt8 → Nat) :=
  if f c = 0 then none else some (setFn f c (f c - 1))

/-- `beginUpdatingRules` (Grammar.hpp:140-143). -/
def beginUpdating (g : G) : G := { g with newRules := 0 }

/-- `endUpdatingRules(variables)` (Grammar.hpp:145-149). -/
def endUpdating (g : G) (vars : List UInt8) : G :=
  { g with isVariable := vars.foldl (fun f v => setFn f v true) g.isVariable }

/-- `addRule` for a pair (Grammar.cpp:42-51). -/
def addRule (g : G) (v x y : UInt8) : G :=
  { g with
    rules := g.rules ++ [⟨.one v, [x, y]⟩]
    freqs := inc (inc (inc g.freqs x) y) v
    newRules := g.newRules + 1 }

/-- The variables of the first loop of `expandAlphabet` (Grammar.cpp:56-62). -/
structure Exp where
  isSpecial : UInt8 → Bool
  isVariable : UInt8 → Bool
  specials : List UInt8
  spr : List (Bool × UInt8)
  isNew : UInt8 → Bool
  repl : UInt8 → UInt8 × UInt8
  next : List (UInt8 × UInt8)

/-- Taking a new special symbol (Grammar.cpp:65-73). -/
def takeSpecial (st : Exp) (n : UInt8) : Exp :=
  { st with
    spr := st.spr ++ [(false, n)]
    specials := st.specials ++ [n]
    isSpecial := setFn st.isSpecial n true
    isNew := setFn st.isNew n true
    repl := setFn st.repl n (n, n) }

/-- The special pair computed for the next freed symbol (Grammar.cpp:76-79, 84, 91, 98, 102).
`none`: wrap-around of an unsigned value or access outside of the special symbols. -/
def nextPair (specials : List UInt8) (count : Nat) : Option (UInt8 × UInt8) := do
  let n := specials.length
  if n = 0 then none
  else
    let offset := (n - 1) * (n - 1) + 1
    if count < offset then none
    else
      let index := count - offset
      let back ← specials.getLast?
      if index < n - 1 then
        let a ← specials[index]?
        return (a, back)
      else
        let b ← specials[index + 1 - n]?
        return (back, b)

/-- Freeing one symbol (Grammar.cpp:75-107). -/
def freeSymbol (st : Exp) (c : UInt8) : Option Exp := do
  let p ← nextPair st.specials st.spr.length
  return { st with
    isVariable := setFn st.isVariable c true
    spr := st.spr ++ [(st.isVariable c, c)]
    isNew := setFn st.isNew c true
    repl := setFn st.repl c p
    next := st.next ++ [p] }

/-- The first loop of `expandAlphabet` (Grammar.cpp:63-109).  `specialPairsLeft` always equals
`specialSymbolPairsLeft()` at the head of the loop, so its test for zero compares the two sizes.
`none`: not enough new special symbols are given. -/
def expandLoop : List UInt8 → List UInt8 → Exp → Option Exp
  | [], _, st => some st
  | c :: freed, news, st =>
    if st.specials.length * st.specials.length = st.spr.length then
      match news with
      | [] => none
      | n :: news => expandLoop (c :: freed) news (takeSpecial st n)
    else do
      let st ← freeSymbol st c
      expandLoop freed news st
termination_by freed news => freed.length + news.length

/-- One symbol of a right-hand side (Grammar.cpp:130-139). -/
def renameByte (isNew : UInt8 → Bool) (repl : UInt8 → UInt8 × UInt8)
    (acc : (UInt8 → Nat) × List UInt8) (c : UInt8) : Option ((UInt8 → Nat) × List UInt8) := do
  if isNew c then
    let f ← dec acc.1 c
    return (inc (inc f (repl c).1) (repl c).2, acc.2 ++ [(repl c).1, (repl c).2])
  else return (acc.1, acc.2 ++ [c])

/-- The left side of a rule (Grammar.cpp:116-127); `upd`: the rule is not one of the new ones. -/
def renameLhs (isNew : UInt8 → Bool) (repl : UInt8 → UInt8 × UInt8) (upd : Bool)
    (f : UInt8 → Nat) (k : Key) : Option ((UInt8 → Nat) × Key) := do
  match k with
  | .one v =>
    if upd && isNew v then
      let f ← dec f v
      return (inc (inc f (repl v).1) (repl v).2, .two (repl v).1 (repl v).2)
    else return (f, k)
  | .two _ _ => return (f, k)

/-- One rule in the second loop of `expandAlphabet` (Grammar.cpp:115-142). -/
def renameRule (isNew : UInt8 → Bool) (repl : UInt8 → UInt8 × UInt8) (upd : Nat)
    (acc : (UInt8 → Nat) × List Rule) (ri : Rule × Nat) :
    Option ((UInt8 → Nat) × List Rule) := do
  let (f, lhs) ← renameLhs isNew repl (decide (ri.2 < upd)) acc.1 ri.1.lhs
  let (f, rhs) ← ri.1.rhs.foldlM (renameByte isNew repl) (f, [])
  return (f, acc.2 ++ [⟨lhs, rhs⟩])

/-- `Grammar::expandAlphabet` (Grammar.cpp:53-144): the new grammar and `nextSpecialPairs`. -/
def expandAlphabet (g : G) (freed news : List UInt8) : Option (G × List (UInt8 × UInt8)) := do
  let st ← expandLoop freed news
    ⟨g.isSpecial, g.isVariable, g.specials, g.spr, fun _ => false, fun _ => (0, 0), []⟩
  if g.rules.length < g.newRules then none
  else
    let (f, rules) ← g.rules.zipIdx.foldlM
      (renameRule st.isNew st.repl (g.rules.length - g.newRules)) (g.freqs, [])
    return (⟨f, st.isSpecial, st.isVariable, st.specials, st.spr, rules, g.newRules⟩, st.next)

/-- `Grammar::freedSymbols` (Grammar.cpp:190-200). -/
def freedSymbols (g : G) : Option (List ((UInt8 × UInt8) × UInt8)) :=
  (g.spr.zipIdx.filter fun e => !e.1.1).mapM fun e =>
    (specialPair g.specials e.2).map fun p => (p, e.1.2)

/-! ## Postprocessor -/

/-- `m_replacements` of the postprocessor (Postprocessor.hpp:58). -/
abbrev Table := Key → List UInt8

/-- Replacing one entry. -/
def setKey (t : Table) (k : Key) (v : List UInt8) : Table := fun j => if j = k then v else t j

/-- `Postprocessor::uncompress` (Postprocessor.cpp:98-110, and 121-130 for the version writing to a
stream).  `none`: a special symbol is the last byte, the code then reads behind the data. -/
def uncompress (isSpecial : UInt8 → Bool) (t : Table) : List UInt8 → Option (List UInt8)
  | [] => some []
  | [c] => if isSpecial c then none else some (t (.one c))
  | c :: d :: rest =>
    if isSpecial c then do
      let r ← uncompress isSpecial t rest
      return t (.two c d) ++ r
    else do
      let r ← uncompress isSpecial t (d :: rest)
      return t (.one c) ++ r
termination_by l => l.length

/-- Every byte stands for itself (Postprocessor.cpp:64-66). -/
def baseTable : Table
  | .one c => [c]
  | .two _ _ => []

/-- The table before the rules are added (Postprocessor.cpp:64-66, 73-83). -/
def initTable (g : G) : Option Table := do
  let fs ← freedSymbols g
  return fs.foldl (fun t e => setKey t (.two e.1.1 e.1.2) (t (.two e.1.1 e.1.2) ++ [e.2]))
    baseTable

/-- The constructor of `Postprocessor` (Postprocessor.cpp:62-94). -/
def postTable (g : G) : Option Table := do
  let t ← initTable g
  g.rules.foldlM (fun t r => do
    let e ← uncompress g.isSpecial t r.rhs
    return setKey t r.lhs e) t

/-- Constructing a postprocessor and `uncompress(data, length, to)` (Postprocessor.cpp:112-132). -/
def postprocess (g : G) (data : List UInt8) : Option (List UInt8) := do
  let t ← postTable g
  if g.rules.length = 0 then return data
  else uncompress g.isSpecial t data

end Bwtc.Grammar
