import Verif.GrammarFreed
import Verif.FreqTable
import Verif.CircBuf

/-!
# Replacing pairs of bytes

Model of `PairReplacer` (preprocessors/PairReplacer.{hpp,cpp}) and of `Precompressor::precompress`
(preprocessors/Precompressor.cpp).  A `uint16` made of two bytes is a pair of bytes (high byte
first).  Output to `std::clog` is left out.
-/

set_option autoImplicit false

namespace Bwtc.PairReplace
open Grammar FreqTable CircBuf

/-! ## Analysing the data -/

/-- `m_prev`, `m_frequencies`, `m_pairFrequencies` (PairReplacer.hpp:110-125). -/
structure An where
  prev : UInt8 × UInt8
  freqs : UInt8 → Nat
  pairs : UInt8 → UInt8 → Nat

/-- `array[a][b] += n`. -/
def addPair (p : UInt8 → UInt8 → Nat) (a b : UInt8) (n : Nat) : UInt8 → UInt8 → Nat :=
  fun x y => if x = a ∧ y = b then p x y + n else p x y

/-- `beginAnalysing(first, true)` (PairReplacer.cpp:67-85); `freqs` are those of the grammar. -/
def beginAnalysing (freqs : UInt8 → Nat) (first : UInt8) : An :=
  ⟨(0, first), fun c => inc (fun _ => 0) first c + freqs c, fun _ _ => 0⟩

/-- `analyseData(next)` (PairReplacer.hpp:47-55). -/
def analyse1 (st : An) (next : UInt8) : An :=
  ⟨(st.prev.2, next), inc st.freqs next, addPair st.pairs st.prev.2 next 1⟩

/-- `analyseData0(next)` (PairReplacer.hpp:57-67); `min` is 0 if the pair equals the one before. -/
def analyse0 (st : An) (next : UInt8) : An :=
  ⟨(st.prev.2, next), inc st.freqs next,
    addPair st.pairs st.prev.2 next (if st.prev = (st.prev.2, next) then 0 else 1)⟩

/-- The loop of `analyseData` (PairReplacer.cpp:58-61), `k` times, on the bytes from `data[i]`. -/
def analyseLoop : Nat → List UInt8 → An → Option (An × List UInt8)
  | 0, rest, st => some (st, rest)
  | k + 1, a :: b :: rest, st => analyseLoop k rest (analyse1 (analyse0 st a) b)
  | _ + 1, _, _ => none

/-- `analyseData(data, length, true)` (PairReplacer.cpp:53-63).  The constant 0xfffffffe has 32 bits,
so the upper half of the length is masked away; the loop runs for `i = 1, 3, ..`.  `none`: read
outside of the data. -/
def analyseData (freqs : UInt8 → Nat) : List UInt8 → Option An
  | [] => none
  | first :: rest => do
    let (st, rest') ← analyseLoop ((rest.length % 2 ^ 32) / 2) rest (beginAnalysing freqs first)
    if (rest.length + 1) % 2 = 0 then
      match rest' with
      | [] => none
      | x :: _ => return analyse0 st x
    else return st

/-! ## Choosing the pairs -/

/-- A pair with its frequency (`std::pair<size_t, uint16>`). -/
abbrev P := Nat × (UInt8 × UInt8)

/-- The order of `std::pair<size_t, uint16>`, descending. -/
def pairGe (x y : P) : Bool :=
  y.1 < x.1 || (x.1 == y.1 && (y.2.1.toNat * 256 + y.2.2.toNat ≤ x.2.1.toNat * 256 + x.2.2.toNat))

/-- `makePairList` (PairReplacer.cpp:87-94). -/
def makePairList (pairs : UInt8 → UInt8 → Nat) : List P :=
  (List.range (2 ^ 16)).map fun i =>
    (pairs (UInt8.ofNat (i / 256)) (UInt8.ofNat i), (UInt8.ofNat (i / 256), UInt8.ofNat i))

/-- The sorted list (PairReplacer.cpp:102). -/
def sortedPairs (pairs : UInt8 → UInt8 → Nat) : List P :=
  (makePairList pairs).mergeSort pairGe

/-- Local variables of `findReplaceables` (PairReplacer.cpp:133-143). -/
structure St where
  repl : List P
  usedFst : UInt8 → Bool
  usedSnd : UInt8 → Bool
  cs : Nat
  vars : Nat
  specs : Nat
  forFree : Nat
  utility : Int

/-- The condition for passing over a pair (PairReplacer.cpp:151, 216). -/
def skip (g : G) (st : St) (a b : UInt8) : Bool :=
  st.usedFst b || st.usedSnd a || g.isSpecial b || g.isSpecial a

/-- `freqs.getFrequency(i)` as `uint32` (FrequencyTable.cpp:78-81). -/
def freq32 (t : FT) (i : Nat) : Option Nat := (getFrequency t i).map (· % 2 ^ 32)

/-- `while(freqs.getFrequency(freeSymbols) == 0) ++freeSymbols` (PairReplacer.cpp:140-141), from index
`i`; `fr` is the rest of the table.  `none`: read behind the table. -/
def countFree : List (UInt8 × Nat) → Nat → Option Nat
  | [], _ => none
  | e :: fr, i => if e.2 % 2 ^ 32 = 0 then countFree fr (i + 1) else some i

/-- A pair is taken (PairReplacer.cpp:170-176, 233-239). -/
def St.take (st : St) (p : P) : St :=
  { st with
    repl := st.repl ++ [p]
    usedFst := setFn st.usedFst p.2.1 true
    usedSnd := setFn st.usedSnd p.2.2 true
    cs := st.cs + 1 }

/-- The first loop of `findReplaceables` (PairReplacer.cpp:147-178), entered with `hope`.  The list is
the rest of `pairs` from `currentPair` on; the result contains `withoutNew` and the rest.
`none`: read behind the list or the table. -/
def loop1 (g : G) (t : FT) : List P → Nat → St → Option (St × Nat × List P)
  | [], _, _ => none
  | p :: ps, withoutNew, st =>
    if skip g st p.2.1 p.2.2 then loop1 g t ps withoutNew st
    else
      match freq32 t st.cs with
      | none => none
      | some fr =>
        if (fr + 1003) % 2 ^ 32 ≥ p.1 ∨ withoutNew = 0 then some (st, withoutNew, p :: ps)
        else
          let st' := { st.take p with
            vars := st.vars + 1
            forFree := if fr = 0 then st.forFree + 1 else st.forFree
            utility := st.utility + p.1 - fr }
          if ps ≠ [] ∧ st'.cs < t.last then loop1 g t ps (withoutNew - 1) st'
          else some (st', withoutNew - 1, ps)

/-- The inner loop for the pairs after a new special symbol (PairReplacer.cpp:211-242), entered with
`hope`; `k` is `limit - pairsAfterSpecial`, `ut` is `utilityAfterNewSpecials`.  The result contains
`hope`, the number of taken pairs, the utility and the rest of the pairs. -/
def loop2 (g : G) (t : FT) : List P → Nat → Nat → Int → St → Option (St × Bool × Nat × Int × List P)
  | ps, 0, pas, ut, st => some (st, true, pas, ut, ps)
  | [], _ + 1, _, _, _ => none
  | p :: ps, k + 1, pas, ut, st =>
    if skip g st p.2.1 p.2.2 then loop2 g t ps (k + 1) pas ut st
    else
      match freq32 t st.cs with
      | none => none
      | some fr =>
        if (fr + 1003) % 2 ^ 32 ≥ p.1 then some (st, false, pas, ut, p :: ps)
        else
          if ps ≠ [] ∧ st.cs + 1 < t.last then
            loop2 g t ps k (pas + 1) (ut + p.1 - fr) (st.take p)
          else some (st.take p, false, pas + 1, ut + p.1 - fr, ps)

/-- The second loop of `findReplaceables` (PairReplacer.cpp:185-268), entered with `hope`;
`tSpecials` as in the code.  `freeVars`, `freeVarsBeg`, `utilityFromFrees`, `utilityFromFreesBeg` and
`unusedSpecials` are zero throughout, so the second branch (252-260) is never taken.  The recursion
is guarded by a test that always holds, because an accepted round takes at least one pair. -/
def loop3 (g : G) (t : FT) (ps : List P) (tSpecials : Nat) (st : St) : Option St :=
  match freq32 t st.cs with
  | none => none
  | some f1 =>
    match (if tSpecials = 0 then freq32 t (st.cs + 1) else some 0) with
    | none => none
    | some f2 =>
      let nSpecials := if tSpecials = 0 then 2 else 1
      let limit := if tSpecials = 0 then 2 else 2 * tSpecials
      match loop2 g t ps limit 0 (0 - f1 - f2) { st with cs := st.cs + nSpecials } with
      | none => none
      | some (st', hope, pas, ut, ps') =>
        if ut > 1000 ∧ pas > 0 then
          let st'' := { st' with
            utility := st'.utility + ut
            vars := st'.vars + pas
            specs := st'.specs + nSpecials }
          if hope then
            if _ : ps'.length < ps.length then loop3 g t ps' (tSpecials + nSpecials) st'' else none
          else some st''
        else if st'.repl.length < pas then none
        else some { st' with repl := st'.repl.take (st'.repl.length - pas) }
termination_by ps.length

/-- `findReplaceables` (PairReplacer.cpp:126-273); `usedSnd[256] = {true}` sets the first cell only.
The value of `maxRepl` (254) is compared with the size of an empty vector. -/
def findReplaceables (g : G) (t : FT) (start : Nat) (pairs : List P) : Option St := do
  let free ← countFree t.fr 0
  if g.specials.length * g.specials.length < g.spr.length then none
  else
    let withoutNew := g.specials.length * g.specials.length - g.spr.length + free
    let st : St := ⟨[], fun _ => false, fun c => decide (c = 0), 0, 0, 0, 0, 0⟩
    let ps := pairs.drop start
    let (st, withoutNew, ps) ← if ps ≠ [] ∧ 0 < t.last then loop1 g t ps withoutNew st
      else some (st, withoutNew, ps)
    if ps ≠ [] ∧ st.cs < t.last ∧ withoutNew = 0 then loop3 g t ps g.specials.length st
    else some st

/-- What `findReplaceablePairs` returns (PairReplacer.cpp:98-100, 114-122). -/
structure Best where
  utility : Int
  repl : List P
  vars : Nat
  specs : Nat
  forFree : Nat

/-- `findReplaceablePairs` (PairReplacer.cpp:96-124) after sorting; five starts. -/
def findReplaceablePairs (g : G) (t : FT) (pairs : List P) : Option Best :=
  (List.range 5).foldlM (fun best i => do
    let st ← findReplaceables g t i pairs
    if st.utility > best.utility then
      return ⟨st.utility, st.repl, st.vars, st.specs, st.forFree⟩
    else return best) ⟨0, [], 0, 0, 0⟩

/-- `getKey(i)`, ..., `getKey(i + n - 1)` (PairReplacer.cpp:440-459). -/
def keysAt (t : FT) (i n : Nat) : Option (List UInt8) :=
  (List.range n).mapM fun k => getKey t (i + k)

/-- What `decideReplacements` computes before the replacement table is made
(PairReplacer.cpp:403-477): pairs with their replacements, freed symbols, new special symbols, free
symbols, and `m_commonByte`. -/
structure Plan where
  prs : List ((UInt8 × UInt8) × UInt8)
  freed : List UInt8
  news : List UInt8
  frees : List UInt8
  common : UInt8

/-- The special symbols in ascending order, as the loop visits them (PairReplacer.cpp:411-415). -/
def specialKeys (g : G) : List UInt8 :=
  ((List.range 256).map UInt8.ofNat).filter fun c => g.isSpecial c

/-- The first part of `decideReplacements` (PairReplacer.cpp:403-477).  `mk` stands for the
constructor of `FrequencyTable` (its sort is not stable, so the order of keys with equal frequencies
is open), `beyond` for the word behind its array (see `FreqTable`).
`none`: one of the reads is out of range, or `replaceablePairs` and `replacements` have different
lengths (then the loop at 285 reads behind one of them or drops some). -/
def choose (mk : (UInt8 → Nat) → FT) (beyond : Option Nat) (g : G) (an : An) : Option Plan := do
  let t ← removeAll beyond (mk an.freqs) (specialKeys g)
  let best ← findReplaceablePairs g t (sortedPairs an.pairs)
  let nFreed := if best.forFree > best.vars then 0 else best.vars - best.forFree
  let nFree := min best.forFree best.vars
  let frees ← keysAt t 0 nFree
  let news ← keysAt t nFree best.specs
  let freed ← keysAt t (nFree + best.specs) nFreed
  if t.last = 0 then none
  else
    let common ← getKey t (t.last - 1)
    if best.repl.length = (freed ++ frees).length then
      return ⟨(best.repl.map (·.2)).zip (freed ++ frees), freed, news, frees, common⟩
    else none

/-! ## The replacement table -/

/-- `m_replacements` (PairReplacer.hpp:116-122). -/
abbrev Repl := UInt8 → UInt8 → UInt8 × UInt8

/-- `m_replacements[pair] = v`. -/
def setCell (R : Repl) (a b : UInt8) (v : UInt8 × UInt8) : Repl :=
  fun x y => if x = a ∧ y = b then v else R x y

/-- The loops over a row of the table (PairReplacer.cpp:305-308, 314-317). -/
def setRow (common : UInt8) (R : Repl) (c : UInt8) (v : UInt8 × UInt8) : Repl :=
  fun x y => if x = c ∧ (R x y).1 = common then v else R x y

/-- The table filled by `decideReplacements` and `constructReplacementTable`
(PairReplacer.cpp:292, 300-318, 478-479). -/
def replTable (common : UInt8) (prs : List ((UInt8 × UInt8) × UInt8)) (freed news : List UInt8)
    (next : List (UInt8 × UInt8)) : Repl :=
  let R : Repl := prs.foldl (fun R e => setCell R e.1.1 e.1.2 (e.2, common))
    fun _ _ => (common, common)
  let R := (freed.zip next).foldl (fun R e => setRow common R e.1 e.2) R
  news.foldl (fun R n => setRow common R n (n, n)) R

/-- `decideReplacements` after the choice (PairReplacer.cpp:478-483) with
`constructReplacementTable` (275-320): the updated grammar and the table. -/
def apply (g : G) (pl : Plan) : Option (G × Repl) :=
  if pl.prs = [] then some (g, fun _ _ => (pl.common, pl.common))
  else do
    let (g', next) ← updateGrammar g pl.prs pl.freed pl.news
    return (g', replTable pl.common pl.prs pl.freed pl.news next)

/-! ## Writing the replaced version -/

/-- The loop of `writeReplacedVersion(src, length, dst)` (PairReplacer.cpp:373-398): `cur` is the low
byte of `pair` and `rest` the bytes from `src[i]` on.  With `rest` empty, `cur` is the last byte and
only lines 388-394 are run. -/
def writeGo (R : Repl) (common : UInt8) : UInt8 → List UInt8 → List UInt8
  | cur, [] =>
    let r := R cur 0
    if r.2 ≠ common then [r.1, r.2] else [cur]
  | cur, d :: rest =>
    let r := R cur d
    if r = (common, common) then cur :: writeGo R common d rest
    else if r.2 = common then
      r.1 :: (match rest with
        | [] => []
        | e :: rest' => writeGo R common e rest')
    else r.1 :: r.2 :: writeGo R common d rest

/-- `writeReplacedVersion(src, length, dst)` (PairReplacer.cpp:366-400): the bytes written to `dst`.
`none`: with a length below two the code reads behind the data. -/
def writeOut (R : Repl) (common : UInt8) : List UInt8 → Option (List UInt8)
  | a :: d :: rest => some (writeGo R common a (d :: rest))
  | _ => none

/-- `std::copy` of `l` to `mem[at..]`; `none`: outside of the array. -/
def store (mem : List UInt8) (pos : Nat) (l : List UInt8) : Option (List UInt8) :=
  if pos + l.length ≤ mem.length then some (mem.take pos ++ l ++ mem.drop (pos + l.length)) else none

/-- Variables of the in-place writer (PairReplacer.cpp:326-331); `mem` is the whole array. -/
structure W where
  mem : List UInt8
  filled : Nat
  buf : CB UInt8

/-- `filled += buffer.consume(src + filled, n)`. -/
def W.consume (w : W) (n : Nat) : Option W := do
  let (l, buf) ← CircBuf.consume n w.buf
  let mem ← store w.mem w.filled l
  return ⟨mem, w.filled + l.length, buf⟩

/-- `buffer.push(c)`. -/
def W.push (w : W) (c : UInt8) : Option W := do
  let buf ← CircBuf.push c w.buf
  return { w with buf := buf }

/-- `if(buffer.full()) filled += buffer.consume(src + filled, i - filled - 1)`
(PairReplacer.cpp:345, 348).  `none`: the subtraction wraps around. -/
def W.flush (w : W) (i : Nat) : Option W :=
  if full w.buf then if i < w.filled + 1 then none else w.consume (i - w.filled - 1) else some w

/-- The end of the in-place writer (PairReplacer.cpp:362-363). -/
def W.finish (w : W) (i : Nat) : Option (List UInt8 × Nat) := do
  let w ← w.consume i
  return (w.mem, w.filled)

/-- Lines 351-357 and the end. -/
def writeLast (R : Repl) (common : UInt8) (w : W) (i : Nat) : Option (List UInt8 × Nat) := do
  let c ← w.mem[i]?
  let r := R c 0
  if r.2 ≠ common then
    let w ← w.push r.1
    let w ← w.push r.2
    w.finish i
  else
    let w ← w.push c
    w.finish i

/-- The loop of the in-place `writeReplacedVersion` (PairReplacer.cpp:334-361), up to the end of the
function.  `cur` is the low byte of `pair`. -/
def writeLoop (R : Repl) (common : UInt8) (n : Nat) (w : W) (cur : UInt8) (i : Nat) :
    Option (List UInt8 × Nat) :=
  if _ : i < n then
    match w.mem[i]?, w.mem[i - 1]? with
    | some d, some b =>
      let r := R cur d
      if r = (common, common) then do
        let w ← w.push b
        let w ← w.flush i
        if i = n - 1 then writeLast R common w i else writeLoop R common n w d (i + 1)
      else if r.2 = common then do
        let w ← w.push r.1
        if i = n - 1 then w.finish i
        else do
          let e ← w.mem[i + 1]?
          let w ← w.flush (i + 1)
          if i + 1 = n - 1 then writeLast R common w (i + 1)
          else writeLoop R common n w e (i + 2)
      else do
        let w ← w.push r.1
        let w ← w.flush i
        let w ← w.push r.2
        let w ← w.flush i
        if i = n - 1 then writeLast R common w i else writeLoop R common n w d (i + 1)
    | _, _ => none
  else none
termination_by n - i

/-- The size of the circular buffer (PairReplacer.cpp:326), computed exactly. -/
def capacity (n : Nat) : Nat := n * 333334 / 1000000 + 3

/-- `writeReplacedVersion(src, length)` (PairReplacer.cpp:322-364) on an array `mem`: the new array
and the new length.  For a length of one the loop runs past the end (`none`). -/
def writeInPlace (R : Repl) (common : UInt8) (mem : List UInt8) (n : Nat) :
    Option (List UInt8 × Nat) := do
  let c ← mem[0]?
  writeLoop R common n ⟨mem, 0, CB.new (capacity n)⟩ c 1

/-! ## Rounds -/

/-- What a round decides (lines 48-53 and 55-60 of Precompressor.cpp before the writing). -/
def round (mk : (UInt8 → Nat) → FT) (beyond : Option Nat) (g : G) (data : List UInt8) :
    Option (G × Repl × UInt8) := do
  let an ← analyseData g.freqs data
  let pl ← choose mk beyond g an
  let (g', R) ← apply g pl
  return (g', R, pl.common)

/-- Variables of `precompress` (Precompressor.cpp:64-74): the array of the block, the temporary array
once it exists, which of the two `src` points to, and the number of rounds with both. -/
structure Pre where
  block : List UInt8
  tmp : Option (List UInt8)
  srcTmp : Bool
  length : Nat
  rounds : Nat
  g : G

/-- The loop over the options, all of which are `'p'` (Precompressor.cpp:76-106); `small length`
stands for the test of the ratio (78-79). -/
def rounds (mk : (UInt8 → Nat) → FT) (beyond : Option Nat) (small : Nat → Bool) (oldLength : Nat) :
    Nat → Pre → Option Pre
  | 0, s => some s
  | k + 1, s => do
    let tmp := if s.tmp.isNone && small s.length then some (List.replicate (s.length + 1) 0) else s.tmp
    match tmp with
    | none =>
      let (g, R, common) ← round mk beyond s.g (s.block.take s.length)
      let (block, length) ← writeInPlace R common s.block s.length
      let s := { s with block := block, length := length, g := g }
      if length = oldLength then return s else rounds mk beyond small oldLength k s
    | some tmp =>
      let src := if s.srcTmp then tmp else s.block
      let dst := if s.srcTmp then s.block else tmp
      let (g, R, common) ← round mk beyond s.g (src.take s.length)
      let out ← writeOut R common (src.take s.length)
      let dst ← store dst 0 out
      let s := if s.srcTmp then { s with block := dst, tmp := some tmp, length := out.length, g := g }
        else { s with tmp := some dst, length := out.length, g := g }
      if s.length = oldLength then return s
      else
        let s := { s with srcTmp := !s.srcTmp, rounds := s.rounds + 1 }
        rounds mk beyond small oldLength k s

/-- `Precompressor::precompress` (Precompressor.cpp:62-121) with `k` rounds of pair replacing on a
block of `n` bytes in the array `mem`: the contents of the block and its grammar. -/
def precompress (mk : (UInt8 → Nat) → FT) (beyond : Option Nat) (small : Nat → Bool) (k : Nat)
    (mem : List UInt8) (n : Nat) : Option (List UInt8 × G) := do
  let s ← rounds mk beyond small n k ⟨mem, none, false, n, 0, empty⟩
  if s.rounds % 2 ≠ 0 then
    let tmp ← s.tmp
    let src := if s.srcTmp then tmp else s.block
    let dst := if s.srcTmp then s.block else tmp
    if src.length < s.length then none
    else
      let dst ← store dst 0 (src.take s.length)
      let block := if s.srcTmp then dst else s.block
      return (block.take s.length, s.g)
  else return (s.block.take s.length, s.g)

end Bwtc.PairReplace
