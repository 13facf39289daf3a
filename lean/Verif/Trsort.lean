import Verif.Sssort

/-!
# `trsort.c`: sorting the suffixes of the sequence of ranks

The procedures of `trsort.c` (libdivsufsort 2) without `BUILD_DIVSUFSORT64`: `TR_INSERTIONSORT_THRESHOLD` 8, `TR_STACKSIZE` 64
(divsufsort_private.h:140-145).  The size of the stack is an argument of the model.

All pointers are indices into the one array `SA` of divsufsort.c; `isa` is the index of `ISA` and `isad` the one of `ISAd`.  An access outside of
the array is `none`, and so is a push to a full stack and a loop that does not end (`partial_fixpoint`).  `saidx_t` is modelled by unbounded
numbers.  Forming a pointer to the cell in front of the array is not treated as an error, only using it is.
-/

set_option autoImplicit false

namespace Bwtc.Tr
open Sais (put inv loopUp loopDown)
open Divsuf (getI putI)
open Ss (swap flip lgTable blockswap pop)

/-- `ISAd[v]`. -/
def keyAt (sa : List Int) (isad : Nat) (v : Int) : Option Int := getI sa (isad + v)

/-- `ISAd[*v]`. -/
def keyCell (sa : List Int) (isad : Nat) (v : Nat) : Option Int := do
  let x ← sa[v]?
  keyAt sa isad x

/-- `tr_ilg` (trsort.c:47-76) for `n` below `2 ^ 32`; `lg_table` (trsort.c:33-42) is the same as that of sssort.c. -/
def ilg (n : Nat) : Option Int :=
  if n / 65536 % 65536 ≠ 0 then
    if n / 16777216 % 256 ≠ 0 then (lgTable[n / 16777216 % 256]?).map (24 + ·) else (lgTable[n / 65536 % 256]?).map (16 + ·)
  else
    if n / 256 % 256 ≠ 0 then (lgTable[n / 256 % 256]?).map (8 + ·) else lgTable[n % 256]?

/-! ## `tr_insertionsort` -/

/-- `do { *(b + 1) = *b; } while((first <= --b) && (*b < 0))` (trsort.c:90), the first argument is `b + 1`; the new `b + 1`. -/
def insShift (first : Nat) : Nat → List Int → Option (List Int × Nat)
  | 0, _ => none
  | b + 1, sa => do
    let x ← sa[b]?
    let sa ← put sa (b + 1) x
    if first < b then
      let y ← sa[b - 1]?
      if y < 0 then insShift first b sa else return (sa, b)
    else return (sa, b)

/-- The inner loop of `tr_insertionsort` (trsort.c:89-92) with `b + 1 = q`; `b + 1` and `r` at the end. -/
def insLoop (isad first : Nat) (t : Int) (sa : List Int) (q : Nat) : Option (List Int × Nat × Int) :=
  if q = 0 then none
  else do
    let x ← keyAt sa isad t
    let y ← keyCell sa isad (q - 1)
    if x - y < 0 then
      let (sa, q) ← insShift first q sa
      if q ≤ first then return (sa, q, x - y) else insLoop isad first t sa q
    else return (sa, q, x - y)
partial_fixpoint

/-- Lines 89-94 of trsort.c for one `a`. -/
def insOne (isad first : Nat) (sa : List Int) (a : Nat) : Option (List Int) := do
  let t ← sa[a]?
  let (sa, q, r) ← insLoop isad first t sa a
  let sa ← (if r = 0 then (if q = 0 then none else flip sa (q - 1)) else some sa : Option _)
  put sa q t

/-- `tr_insertionsort` (trsort.c:84-96). -/
def insertionsort (sa : List Int) (isad first last : Nat) : Option (List Int) :=
  loopUp (insOne isad first) (last - first - 1) (first + 1) sa

/-! ## `tr_heapsort` -/

/-- The loop of `tr_fixdown` (trsort.c:108-112) and line 113; `base` is the index of `SA[0]`. -/
def fixLoop (isad base size : Nat) (v : Int) (c : Int) (sa : List Int) (i : Nat) : Option (List Int) := do
  let j := 2 * i + 1
  if j < size then
    let x ← sa[base + j]?
    let d ← keyAt sa isad x
    let y ← sa[base + j + 1]?
    let e ← keyAt sa isad y
    let k := if d < e then j + 1 else j
    let d := if d < e then e else d
    if d ≤ c then put sa (base + i) v
    else
      let z ← sa[base + k]?
      let sa ← put sa (base + i) z
      fixLoop isad base size v c sa k
  else put sa (base + i) v
partial_fixpoint

/-- `tr_fixdown` (trsort.c:101-114). -/
def fixdown (isad base size : Nat) (sa : List Int) (i : Nat) : Option (List Int) := do
  let v ← sa[base + i]?
  let c ← keyAt sa isad v
  fixLoop isad base size v c sa i

/-- Lines 132-134 of trsort.c, for one `i`. -/
def heapOne (isad base : Nat) (sa : List Int) (i : Nat) : Option (List Int) := do
  let t ← sa[base]?
  let x ← sa[base + i]?
  let sa ← put sa base x
  let sa ← fixdown isad base i sa 0
  put sa (base + i) t

/-- Lines 123-127 of trsort.c: `m` and the array. -/
def heapEven (isad base size : Nat) (sa : List Int) : Option (Nat × List Int) :=
  if size % 2 = 0 then
    if size = 0 then none
    else do
      let x ← sa[base + (size - 1) / 2]?
      let c ← keyAt sa isad x
      let y ← sa[base + (size - 1)]?
      let d ← keyAt sa isad y
      let sa ← (if c < d then swap sa (base + (size - 1)) (base + (size - 1) / 2) else some sa : Option _)
      return (size - 1, sa)
  else some (size, sa)

/-- Line 130 of trsort.c. -/
def heapTop (isad base size m : Nat) (sa : List Int) : Option (List Int) :=
  if size % 2 = 0 then do
    let sa ← swap sa base (base + m)
    fixdown isad base m sa 0
  else some sa

/-- `tr_heapsort` (trsort.c:117-136). -/
def heapsort (isad base size : Nat) (sa : List Int) : Option (List Int) := do
  let (m, sa) ← heapEven isad base size sa
  let sa ← loopDown (fixdown isad base m) (m / 2) sa
  let sa ← heapTop isad base size m sa
  loopDown (fun sa i => heapOne isad base sa (i + 1)) (m - 1) sa

/-! ## The pivot -/

/-- `if(ISAd[*v1] > ISAd[*v2]) { SWAP(v1, v2); }`, a swap of the pointers. -/
def order (sa : List Int) (isad : Nat) (v1 v2 : Nat) : Option (Nat × Nat) := do
  let x ← keyCell sa isad v1
  let y ← keyCell sa isad v2
  return if x > y then (v2, v1) else (v1, v2)

/-- `tr_median3` (trsort.c:142-153). -/
def median3 (sa : List Int) (isad : Nat) (v1 v2 v3 : Nat) : Option Nat := do
  let (v1, v2) ← order sa isad v1 v2
  let y ← keyCell sa isad v2
  let z ← keyCell sa isad v3
  if y > z then
    let x ← keyCell sa isad v1
    return if x > z then v1 else v3
  else return v2

/-- `if(ISAd[*v1] > ISAd[*v2]) { SWAP(v1, v2); SWAP(w1, w2); }`. -/
def order2 (sa : List Int) (isad : Nat) (v1 v2 w1 w2 : Nat) : Option ((Nat × Nat) × (Nat × Nat)) := do
  let x ← keyCell sa isad v1
  let y ← keyCell sa isad v2
  return if x > y then ((v2, v1), (w2, w1)) else ((v1, v2), (w1, w2))

/-- `tr_median5` (trsort.c:156-169). -/
def median5 (sa : List Int) (isad : Nat) (v1 v2 v3 v4 v5 : Nat) : Option Nat := do
  let (v2, v3) ← order sa isad v2 v3
  let (v4, v5) ← order sa isad v4 v5
  let ((_, v4), (v3, v5)) ← order2 sa isad v2 v4 v3 v5
  let (v1, v3) ← order sa isad v1 v3
  let ((_, v4), (v3, _)) ← order2 sa isad v1 v4 v3 v5
  let x ← keyCell sa isad v3
  let y ← keyCell sa isad v4
  return if x > y then v4 else v3

/-- `tr_pivot` (trsort.c:172-194). -/
def pivot (sa : List Int) (isad : Nat) (first last : Nat) : Option Nat := do
  let t := last - first
  let middle := first + t / 2
  if t ≤ 512 then
    if t ≤ 32 then median3 sa isad first middle (last - 1)
    else
      let t := t / 4
      median5 sa isad first (first + t) middle (last - 1 - t) (last - 1)
  else
    let t := t / 8
    let first ← median3 sa isad first (first + t) (first + t * 2)
    let middle ← median3 sa isad (middle - t) middle (middle + t)
    let last ← median3 sa isad (last - 1 - t * 2) (last - 1 - t) (last - 1)
    median3 sa isad first middle last

/-! ## The budget -/

/-- `trbudget_t` (trsort.c:199-205). -/
structure Budget where
  chance : Int
  remain : Int
  incval : Int
  count : Int

/-- `trbudget_check` (trsort.c:214-222): the result and the budget. -/
def check (b : Budget) (size : Nat) : Bool × Budget :=
  if size ≤ b.remain then (true, { b with remain := b.remain - size })
  else if b.chance = 0 then (false, { b with count := b.count + size })
  else (true, { b with remain := b.remain + (b.incval - size), chance := b.chance - 1 })

/-! ## `tr_partition` -/

/-- `for(...; (++b < last) && ((x = ISAd[*b]) == v);) { }` (trsort.c:235) from the new `b` on: `b` and `x`. -/
def scanEq (sa : List Int) (isad last : Nat) (v : Int) (b : Nat) (x : Int) : Option (Nat × Int) :=
  if b < last then do
    let x ← keyCell sa isad b
    if x = v then scanEq sa isad last v (b + 1) x else return (b, x)
  else some (b, x)
partial_fixpoint

/-- `for(; (++b < last) && ((x = ISAd[*b]) <= v);) { if(x == v) { SWAP(*b, *a); ++a; } }` (trsort.c:237-239, 249-251) from the new
`b` on. -/
def scanLe (isad last : Nat) (v : Int) (sa : List Int) (a b : Nat) : Option (List Int × Nat × Nat) :=
  if b < last then do
    let x ← keyCell sa isad b
    if x ≤ v then
      if x = v then
        let sa ← swap sa b a
        scanLe isad last v sa (a + 1) (b + 1)
      else scanLe isad last v sa a (b + 1)
    else return (sa, a, b)
  else some (sa, a, b)
partial_fixpoint

/-- `for(...; (b < --c) && ((x = ISAd[*c]) == v);) { }` (trsort.c:241): `c` and `x`. -/
def scanEqDown (sa : List Int) (isad b : Nat) (v : Int) : Nat → Int → Option (Nat × Int)
  | 0, _ => none
  | c + 1, x => if b < c then do
      let x ← keyCell sa isad c
      if x = v then scanEqDown sa isad b v c x else return (c, x)
    else some (c, x)

/-- `for(; (b < --c) && ((x = ISAd[*c]) >= v);) { if(x == v) { SWAP(*c, *d); --d; } }` (trsort.c:243-245, 252-254). -/
def scanGe (isad b : Nat) (v : Int) : List Int → Nat → Nat → Option (List Int × Nat × Nat)
  | _, 0, _ => none
  | sa, c + 1, d => if b < c then do
      let x ← keyCell sa isad c
      if v ≤ x then
        if x = v then
          let sa ← swap sa c d
          if d = 0 then none else scanGe isad b v sa c (d - 1)
        else scanGe isad b v sa c d
      else return (sa, c, d)
    else some (sa, c, d)

/-- The array and the pointers `a`, `b`, `c`, `d` while partitioning. -/
structure Part where
  sa : List Int
  a : Nat
  b : Nat
  c : Nat
  d : Nat

/-- Lines 247-255 of trsort.c. -/
def crossLoop (isad : Nat) (v : Int) (s : Part) : Option Part :=
  if s.b < s.c then do
    let sa ← swap s.sa s.b s.c
    let (sa, a, b) ← scanLe isad s.c v sa s.a (s.b + 1)
    let (sa, c, d) ← scanGe isad b v sa s.c s.d
    crossLoop isad v ⟨sa, a, b, c, d⟩
  else some s
partial_fixpoint

/-- Lines 235-240 of trsort.c. -/
def partLow (isad middle last : Nat) (v : Int) (sa : List Int) : Option (List Int × Nat × Nat) := do
  let (b, x) ← scanEq sa isad last v middle 0
  if b < last ∧ x < v then scanLe isad last v sa b (b + 1) else return (sa, b, b)

/-- Lines 241-246 of trsort.c; if `b` is not below `last - 1`, then `x` keeps its value, which is not used. -/
def partHigh (isad last : Nat) (v : Int) (sa : List Int) (b : Nat) : Option (List Int × Nat × Nat) := do
  let (c, x) ← scanEqDown sa isad b v last 0
  if b < c ∧ v < x then scanGe isad b v sa c c else return (sa, c, c)

/-- Lines 235-255 of trsort.c. -/
def threeWay (isad middle last : Nat) (v : Int) (sa : List Int) : Option Part := do
  let (sa, a, b) ← partLow isad middle last v sa
  let (sa, c, d) ← partHigh isad last v sa b
  crossLoop isad v ⟨sa, a, b, c, d⟩

/-- Lines 257-265 of trsort.c: the array, `*pa` and `*pb`. -/
def gather (first last : Nat) (s : Part) : Option (List Int × Nat × Nat) :=
  if s.a ≤ s.d then do
    let n := min (s.a - first) (s.b - s.a)
    let sa ← blockswap s.sa first (s.b - n) n
    let n := min (s.d + 1 - s.b) (last - s.d - 1)
    let sa ← blockswap sa s.b (last - n) n
    return (sa, first + (s.b - s.a), last - (s.d + 1 - s.b))
  else some (s.sa, first, last)

/-- `tr_partition` (trsort.c:227-267): the array, `*pa` and `*pb`. -/
def partition (sa : List Int) (isad first middle last : Nat) (v : Int) : Option (List Int × Nat × Nat) := do
  let s ← threeWay isad middle last v sa
  gather first last s

/-! ## `tr_copy` and `tr_partialcopy` -/

/-- Lines 279-284 of trsort.c with `d + 1 = e`; the array and `d + 1`. -/
def copyUp (isa depth : Nat) (v : Int) (sa : List Int) (c e : Nat) : Option (List Int × Nat) :=
  if c < e then do
    let x ← sa[c]?
    let s := x - (depth : Int)
    if 0 ≤ s then
      let y ← getI sa (isa + s)
      if y = v then
        let sa ← put sa e s
        let sa ← putI sa (isa + s) e
        copyUp isa depth v sa (c + 1) (e + 1)
      else copyUp isa depth v sa (c + 1) e
    else copyUp isa depth v sa (c + 1) e
  else some (sa, e)
partial_fixpoint

/-- Lines 285-290 of trsort.c; the first argument is `c + 1`. -/
def copyDown (isa depth : Nat) (v : Int) (e : Nat) : Nat → List Int → Nat → Option (List Int)
  | 0, sa, d => if e < d then none else some sa
  | c + 1, sa, d =>
    if e < d then do
      let x ← sa[c]?
      let s := x - (depth : Int)
      if 0 ≤ s then
        let y ← getI sa (isa + s)
        if y = v then
          let sa ← put sa (d - 1) s
          let sa ← putI sa (isa + s) ((d : Int) - 1)
          copyDown isa depth v e c sa (d - 1)
        else copyDown isa depth v e c sa d
      else copyDown isa depth v e c sa d
    else some sa

/-- `tr_copy` (trsort.c:269-291). -/
def copy (isa : Nat) (sa : List Int) (first a b last depth : Nat) : Option (List Int) := do
  let v : Int := (b : Int) - 1
  let (sa, e) ← copyUp isa depth v sa first a
  copyDown isa depth v e last sa b

/-- Lines 303-310 of trsort.c with `d + 1 = e`, `lastrank`, `newrank`; the array, `d + 1` and `newrank`. -/
def pcopyUp (isa depth : Nat) (v : Int) (sa : List Int) (c e : Nat) (lr nr : Int) : Option (List Int × Nat × Int) :=
  if c < e then do
    let x ← sa[c]?
    let s := x - (depth : Int)
    if 0 ≤ s then
      let y ← getI sa (isa + s)
      if y = v then
        let sa ← put sa e s
        let rank ← getI sa (isa + (s + depth))
        let nr := if lr ≠ rank then (e : Int) else nr
        let sa ← putI sa (isa + s) nr
        pcopyUp isa depth v sa (c + 1) (e + 1) rank nr
      else pcopyUp isa depth v sa (c + 1) e lr nr
    else pcopyUp isa depth v sa (c + 1) e lr nr
  else some (sa, e, nr)
partial_fixpoint

/-- Lines 313-317 of trsort.c; the first argument is `e + 1`. -/
def pcopyFix (isa first : Nat) : Nat → List Int → Int → Int → Option (List Int × Int)
  | 0, sa, _, nr => some (sa, nr)
  | e + 1, sa, lr, nr =>
    if first ≤ e then do
      let x ← sa[e]?
      let rank ← getI sa (isa + x)
      let nr := if lr ≠ rank then (e : Int) else nr
      let sa ← (if nr ≠ rank then putI sa (isa + x) nr else some sa : Option _)
      pcopyFix isa first e sa rank nr
    else some (sa, nr)

/-- Lines 320-327 of trsort.c; the first argument is `c + 1`. -/
def pcopyDown (isa depth : Nat) (v : Int) (e : Nat) : Nat → List Int → Nat → Int → Int → Option (List Int)
  | 0, sa, d, _, _ => if e < d then none else some sa
  | c + 1, sa, d, lr, nr =>
    if e < d then do
      let x ← sa[c]?
      let s := x - (depth : Int)
      if 0 ≤ s then
        let y ← getI sa (isa + s)
        if y = v then
          let sa ← put sa (d - 1) s
          let rank ← getI sa (isa + (s + depth))
          let nr := if lr ≠ rank then (d : Int) - 1 else nr
          let sa ← putI sa (isa + s) nr
          pcopyDown isa depth v e c sa (d - 1) rank nr
        else pcopyDown isa depth v e c sa d lr nr
      else pcopyDown isa depth v e c sa d lr nr
    else some sa

/-- `tr_partialcopy` (trsort.c:293-328). -/
def partialcopy (isa : Nat) (sa : List Int) (first a b last depth : Nat) : Option (List Int) := do
  let v : Int := (b : Int) - 1
  let (sa, e, nr) ← pcopyUp isa depth v sa first a (-1) (-1)
  let (sa, nr) ← pcopyFix isa first e sa (-1) nr
  pcopyDown isa depth v e last sa b (-1) nr

/-! ## `tr_introsort` -/

/-- An entry of the stack of `tr_introsort` (trsort.c:335): `ISAd`, `first`, `last`, `limit`, `trlink`.  The entry that is pushed together with a
tandem repeat has `NULL` for `ISAd`, represented by 0; it is never used. -/
structure Frame where
  isad : Nat
  first : Nat
  last : Nat
  limit : Int
  trlink : Int

/-- `STACK_PUSH5` (divsufsort_private.h:164-169); the stack has room for `cap` entries. -/
def push (cap : Nat) (st : List Frame) (f : Frame) : Option (List Frame) := if st.length < cap then some (f :: st) else none

/-- `if(0 <= trlink) { stack[trlink].d = -1; }` (trsort.c:389, 421, 522, 547); the head of the list is the top of the stack. -/
def mark (st : List Frame) (k : Int) : Option (List Frame) :=
  if 0 ≤ k then
    if k.toNat < st.length then do
      let f ← st[st.length - 1 - k.toNat]?
      return st.set (st.length - 1 - k.toNat) { f with limit := -1 }
    else none
  else some st

/-- `for(c = a, ...; c < b; ++c) { ISA[*c] = v; }` (trsort.c:355, 358, 406, 470, 471). -/
def setRanks (isa a b : Nat) (v : Int) (sa : List Int) : Option (List Int) :=
  loopUp (fun sa c => do
    let x ← sa[c]?
    putI sa (isa + x) v) (b - a) a sa

/-- What a round of the loop leaves: the array, the budget, and the stack and the frame to go on with unless the procedure returns. -/
abbrev Round := List Int × Budget × Option (List Frame × Frame)

/-- Lines 367-383 of trsort.c: the parts `[first, a)` and `[b, last)`. -/
def tandemGo (cap isad first a b last : Nat) (trlink : Int) (st : List Frame) : Option (Option (List Frame × Frame)) := do
  let l ← ilg (a - first)
  let r ← ilg (last - b)
  let low : Frame := ⟨isad, first, a, l, trlink⟩
  let high : Frame := ⟨isad, b, last, r, trlink⟩
  if a - first ≤ last - b then
    if 1 < a - first then
      let st ← push cap st high
      return some (st, low)
    else if 1 < last - b then return some (st, high)
    else return pop st
  else
    if 1 < last - b then
      let st ← push cap st low
      return some (st, high)
    else if 1 < a - first then return some (st, low)
    else return pop st

/-- Lines 361-366 of trsort.c: the stack and `trlink`. -/
def tandemPush (cap isad first a b last : Nat) (trlink : Int) (st : List Frame) : Option (List Frame × Int) :=
  if 1 < b - a then do
    let st ← push cap st ⟨0, a, b, 0, 0⟩
    let st ← push cap st ⟨isad, first, last, -2, trlink⟩
    return (st, (st.length : Int) - 2)
  else some (st, trlink)

/-- Lines 350-384 of trsort.c: tandem repeat partition. -/
def tandemStep (cap isa incr : Nat) (sa : List Int) (bud : Budget) (st : List Frame) (f : Frame) : Option Round :=
  if f.isad < incr then none
  else do
    let (sa, a, b) ← partition sa (f.isad - incr) f.first f.first f.last ((f.last : Int) - 1)
    let sa ← (if a < f.last then setRanks isa f.first a ((a : Int) - 1) sa else some sa : Option _)
    let sa ← (if b < f.last then setRanks isa a b ((b : Int) - 1) sa else some sa : Option _)
    let (st, trlink) ← tandemPush cap (f.isad - incr) f.first a b f.last f.trlink st
    let o ← tandemGo cap f.isad f.first a b f.last trlink st
    return (sa, bud, o)

/-- Lines 386-393 of trsort.c: tandem repeat copy. -/
def copyStep (isa : Nat) (sa : List Int) (bud : Budget) (st : List Frame) (f : Frame) : Option Round :=
  match st with
  | [] => none
  | g :: st =>
    if f.isad < isa then none
    else if g.limit = 0 then do
      let sa ← copy isa sa f.first g.first g.last f.last (f.isad - isa)
      return (sa, bud, pop st)
    else do
      let st ← mark st f.trlink
      let sa ← partialcopy isa sa f.first g.first g.last f.last (f.isad - isa)
      return (sa, bud, pop st)

/-- `do { ISA[*a] = a - SA; } while((++a < last) && (0 <= *a))` (trsort.c:398): the array and `a`. -/
def singles (isa last : Nat) (sa : List Int) (a : Nat) : Option (List Int × Nat) := do
  let x ← sa[a]?
  let sa ← putI sa (isa + x) a
  if a + 1 < last then
    let y ← sa[a + 1]?
    if 0 ≤ y then singles isa last sa (a + 1) else return (sa, a + 1)
  else return (sa, a + 1)
partial_fixpoint

/-- `do { *a = ~*a; } while(*++a < 0)` (trsort.c:402): the array and `a`. -/
def unmark (sa : List Int) (a : Nat) : Option (List Int × Nat) := do
  let sa ← flip sa a
  let y ← sa[a + 1]?
  if y < 0 then unmark sa (a + 1) else return (sa, a + 1)
partial_fixpoint

/-- Lines 407-427 of trsort.c. -/
def sortedGo (cap isad incr first a last : Nat) (next trlink : Int) (bud : Budget) (st : List Frame) :
    Option (Budget × Option (List Frame × Frame)) :=
  let (ok, bud) := check bud (a - first)
  if ok then
    if a - first ≤ last - a then do
      let st ← push cap st ⟨isad, a, last, -3, trlink⟩
      return (bud, some (st, ⟨isad + incr, first, a, next, trlink⟩))
    else if 1 < last - a then do
      let st ← push cap st ⟨isad + incr, first, a, next, trlink⟩
      return (bud, some (st, ⟨isad, a, last, -3, trlink⟩))
    else return (bud, some (st, ⟨isad + incr, first, a, next, trlink⟩))
  else do
    let st ← mark st trlink
    if 1 < last - a then return (bud, some (st, ⟨isad, a, last, -3, trlink⟩))
    else return (bud, pop st)

/-- Lines 395-431 of trsort.c: sorted partition. -/
def sortedStep (cap isa incr : Nat) (sa : List Int) (bud : Budget) (st : List Frame) (f : Frame) : Option Round := do
  let x ← sa[f.first]?
  let (sa, first) ← (if 0 ≤ x then singles isa f.last sa f.first else some (sa, f.first) : Option _)
  if first < f.last then
    let (sa, a) ← unmark sa first
    let p ← keyCell sa isa a
    let q ← keyCell sa f.isad a
    let next ← (if p ≠ q then ilg (a + 1 - first) else some (-1) : Option _)
    let sa ← (if a + 1 < f.last then setRanks isa first (a + 1) a sa else some sa : Option _)
    let (bud, o) ← sortedGo cap f.isad incr first (a + 1) f.last next f.trlink bud st
    return (sa, bud, o)
  else return (sa, bud, pop st)

/-- The inner loop of line 446 of trsort.c; the first argument is `b + 1`. -/
def markRun (isad first : Nat) (x : Int) : Nat → List Int → Option (List Int × Nat)
  | 0, sa => some (sa, 0)
  | b + 1, sa =>
    if first ≤ b then do
      let y ← sa[b]?
      let k ← keyAt sa isad y
      if k = x then
        let sa ← put sa b (inv y)
        markRun isad first x b sa
      else return (sa, b + 1)
    else some (sa, b + 1)

/-- Lines 445-447 of trsort.c with `a + 1 = k`. -/
def markRuns (isad first : Nat) (sa : List Int) (k : Nat) : Option (List Int) :=
  if first + 1 < k then do
    let x ← keyCell sa isad (k - 1)
    let (sa, k) ← markRun isad first x (k - 1) sa
    markRuns isad first sa k
  else some sa
partial_fixpoint

/-- Lines 474-518 of trsort.c: the parts `[first, a)`, `[a, b)` and `[b, last)`. -/
def chooseAll (cap isad incr first a b last : Nat) (limit next trlink : Int) (st : List Frame) : Option (List Frame × Frame) :=
  let low : Frame := ⟨isad, first, a, limit, trlink⟩
  let mid : Frame := ⟨isad + incr, a, b, next, trlink⟩
  let high : Frame := ⟨isad, b, last, limit, trlink⟩
  if a - first ≤ last - b then
    if last - b ≤ b - a then
      if 1 < a - first then do
        let st ← push cap st mid
        let st ← push cap st high
        return (st, low)
      else if 1 < last - b then do
        let st ← push cap st mid
        return (st, high)
      else some (st, mid)
    else if a - first ≤ b - a then
      if 1 < a - first then do
        let st ← push cap st high
        let st ← push cap st mid
        return (st, low)
      else do
        let st ← push cap st high
        return (st, mid)
    else do
      let st ← push cap st high
      let st ← push cap st low
      return (st, mid)
  else
    if a - first ≤ b - a then
      if 1 < last - b then do
        let st ← push cap st mid
        let st ← push cap st low
        return (st, high)
      else if 1 < a - first then do
        let st ← push cap st mid
        return (st, low)
      else some (st, mid)
    else if last - b ≤ b - a then
      if 1 < last - b then do
        let st ← push cap st low
        let st ← push cap st mid
        return (st, high)
      else do
        let st ← push cap st low
        return (st, mid)
    else do
      let st ← push cap st low
      let st ← push cap st high
      return (st, mid)

/-- Lines 523-539 of trsort.c: the parts `[first, a)` and `[b, last)`. -/
def chooseTwo (cap isad first a b last : Nat) (limit trlink : Int) (st : List Frame) : Option (Option (List Frame × Frame)) :=
  let low : Frame := ⟨isad, first, a, limit, trlink⟩
  let high : Frame := ⟨isad, b, last, limit, trlink⟩
  if a - first ≤ last - b then
    if 1 < a - first then do
      let st ← push cap st high
      return some (st, low)
    else if 1 < last - b then return some (st, high)
    else return pop st
  else
    if 1 < last - b then do
      let st ← push cap st low
      return some (st, high)
    else if 1 < a - first then return some (st, low)
    else return pop st

/-- Lines 473-540 of trsort.c. -/
def partGo (cap isad incr first a b last : Nat) (limit next trlink : Int) (bud : Budget) (st : List Frame) :
    Option (Budget × Option (List Frame × Frame)) :=
  if 1 < b - a then
    let (ok, bud) := check bud (b - a)
    if ok then do
      let o ← chooseAll cap isad incr first a b last limit next trlink st
      return (bud, some o)
    else do
      let st ← mark st trlink
      let o ← chooseTwo cap isad first a b last limit trlink st
      return (bud, o)
  else do
    let o ← chooseTwo cap isad first a b last limit trlink st
    return (bud, o)

/-- Lines 452-550 of trsort.c; `limit` has been decreased. -/
def partStep (cap isa incr : Nat) (sa : List Int) (bud : Budget) (st : List Frame) (f : Frame) : Option Round := do
  let a ← pivot sa f.isad f.first f.last
  let sa ← swap sa f.first a
  let v ← keyCell sa f.isad f.first
  let (sa, a, b) ← partition sa f.isad f.first (f.first + 1) f.last v
  if f.last - f.first ≠ b - a then
    let p ← keyCell sa isa a
    let next ← (if p ≠ v then ilg (b - a) else some (-1) : Option _)
    let sa ← setRanks isa f.first a ((a : Int) - 1) sa
    let sa ← (if b < f.last then setRanks isa a b ((b : Int) - 1) sa else some sa : Option _)
    let (bud, o) ← partGo cap f.isad incr f.first a b f.last (f.limit - 1) next f.trlink bud st
    return (sa, bud, o)
  else
    let (ok, bud) := check bud (f.last - f.first)
    if ok then
      let l ← ilg (f.last - f.first)
      return (sa, bud, some (st, { f with isad := f.isad + incr, limit := l }))
    else
      let st ← mark st f.trlink
      return (sa, bud, pop st)

/-- One round of the loop of `tr_introsort` (trsort.c:344-552). -/
def step (cap isa incr : Nat) (sa : List Int) (bud : Budget) (st : List Frame) (f : Frame) : Option Round :=
  if f.limit < 0 then
    if f.limit = -1 then tandemStep cap isa incr sa bud st f
    else if f.limit = -2 then copyStep isa sa bud st f
    else sortedStep cap isa incr sa bud st f
  else if f.last - f.first ≤ 8 then do
    let sa ← insertionsort sa f.isad f.first f.last
    return (sa, bud, some (st, { f with limit := -3 }))
  else if f.limit = 0 then do
    let sa ← heapsort f.isad f.first (f.last - f.first) sa
    let sa ← markRuns f.isad f.first sa f.last
    return (sa, bud, some (st, { f with limit := -3 }))
  else partStep cap isa incr sa bud st f

/-- The loop of `tr_introsort` (trsort.c:344-552). -/
def loop (cap isa incr : Nat) (sa : List Int) (bud : Budget) (st : List Frame) (f : Frame) : Option (List Int × Budget) := do
  let (sa, bud, o) ← step cap isa incr sa bud st f
  match o with
  | none => return (sa, bud)
  | some (st, f) => loop cap isa incr sa bud st f
partial_fixpoint

/-- `tr_introsort` (trsort.c:330-554). -/
def introsort (cap isa incr : Nat) (sa : List Int) (bud : Budget) (first last : Nat) : Option (List Int × Budget) := do
  let l ← ilg (last - first)
  loop cap isa incr sa bud [] ⟨isa + incr, first, last, l, -1⟩

/-! ## `trsort` -/

/-- The array, the budget, `skip` and `unsorted`. -/
structure Pass where
  sa : List Int
  bud : Budget
  skip : Int
  unsorted : Int

/-- `if(skip != 0) { *(first + skip) = skip; }` (trsort.c:572, 584). -/
def flush (sa : List Int) (first : Nat) (skip : Int) : Option (List Int) :=
  if skip ≠ 0 then putI sa (first + skip) skip else some sa

/-- Lines 573-580 of trsort.c for the group `[first, last)`. -/
def group (cap isa incr : Nat) (p : Pass) (first last : Nat) : Option Pass :=
  if 1 < last - first then do
    let (sa, bud) ← introsort cap isa incr p.sa { p.bud with count := 0 } first last
    if bud.count ≠ 0 then return ⟨sa, bud, p.skip, p.unsorted + bud.count⟩
    else return ⟨sa, bud, (first : Int) - last, p.unsorted⟩
  else if last = first + 1 then return { p with skip := -1 }
  else return p

/-- Lines 570-582 of trsort.c: the new `first`. -/
def passStep (cap isa incr : Nat) (p : Pass) (first : Nat) : Option (Pass × Nat) := do
  let t ← p.sa[first]?
  if t < 0 then return ({ p with skip := p.skip + t }, ((first : Int) - t).toNat)
  else
    let sa ← flush p.sa first p.skip
    let r ← getI sa (isa + t)
    if r + 1 < 0 then none
    else
      let p ← group cap isa incr { p with sa := sa, skip := 0 } first (r + 1).toNat
      return (p, (r + 1).toNat)

/-- Lines 569-583 of trsort.c. -/
def pass (cap isa incr n : Nat) (p : Pass) (first : Nat) : Option (Pass × Nat) := do
  let (p, first) ← passStep cap isa incr p first
  if first < n then pass cap isa incr n p first else return (p, first)
partial_fixpoint

/-- Lines 566-586 of trsort.c with `ISAd = ISA + depth`. -/
def passes (cap isa n : Nat) (sa : List Int) (bud : Budget) (depth : Nat) : Option (List Int) := do
  let t ← sa[0]?
  if -(n : Int) < t then
    let (p, first) ← pass cap isa depth n ⟨sa, bud, 0, 0⟩ 0
    let sa ← flush p.sa first p.skip
    if p.unsorted = 0 then return sa else passes cap isa n sa p.bud (2 * depth)
  else return sa
partial_fixpoint

/-- `trsort` (trsort.c:557-587) with a stack of `cap` entries in `tr_introsort`. -/
def trsort (cap : Nat) (sa : List Int) (isa n depth : Nat) : Option (List Int) := do
  let l ← ilg n
  passes cap isa n sa ⟨l * 2 / 3, n, n, 0⟩ depth

/-- `TR_STACKSIZE` (divsufsort_private.h:144). -/
def stackSize : Nat := 64

end Bwtc.Tr
