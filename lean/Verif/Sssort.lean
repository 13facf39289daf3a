import Verif.Divsuf

/-!
# `sssort.c`: sorting the B* substrings

The procedures of `sssort.c` (libdivsufsort 2) as they are compiled for the transform: `SS_BLOCKSIZE` 1024,
`SS_INSERTIONSORT_THRESHOLD` 8, `SS_MISORT_STACKSIZE` 16, `SS_SMERGE_STACKSIZE` 32 (divsufsort_private.h:103-138, without
`BUILD_DIVSUFSORT64`).

All pointers are indices into the one array `SA` of divsufsort.c; `pa` is the index of `PA`.  An access outside of the array or of the text
is `none`, and so is a push to a full stack and a loop that does not end (`partial_fixpoint`).  `saidx_t` is modelled by unbounded numbers.
-/

set_option autoImplicit false

namespace Bwtc.Ss
open Sais (put inv loopDown)
open Divsuf (getI)

/-- `PA[v]`, a position of the text. -/
def paAt (sa : List Int) (pa : Nat) (v : Int) : Option Nat := do
  let x ← getI sa (pa + v)
  if x < 0 then none else return x.toNat

/-- `Td[PA[v]]` with `Td = T + depth`. -/
def tdAt (T : List Nat) (sa : List Int) (pa depth : Nat) (v : Int) : Option Nat := do
  let p ← paAt sa pa v
  T[p + depth]?

/-- `Td[PA[v] - 1]` with `Td = T + depth`. -/
def tdPrev (T : List Nat) (sa : List Int) (pa depth : Nat) (v : Int) : Option Nat := do
  let p ← paAt sa pa v
  if p + depth = 0 then none else T[p + depth - 1]?

/-- `SWAP(SA[i], SA[j])` (divsufsort_private.h:150). -/
def swap (sa : List Int) (i j : Nat) : Option (List Int) := do
  let t ← sa[i]?
  let y ← sa[j]?
  let sa ← put sa i y
  put sa j t

/-- `SA[i] = ~SA[i]`. -/
def flip (sa : List Int) (i : Nat) : Option (List Int) := do
  let x ← sa[i]?
  put sa i (inv x)

/-- `(0 <= v) ? v : ~v` (sssort.c:658). -/
def idx (v : Int) : Int := if 0 ≤ v then v else inv v

/-- `lg_table` (sssort.c:32-41). -/
def lgTable : List Int :=
  [-1,0,1,1,2,2,2,2,3,3,3,3,3,3,3,3,4,4,4,4,4,4,4,4,4,4,4,4,4,4,4,4,
   5,5,5,5,5,5,5,5,5,5,5,5,5,5,5,5,5,5,5,5,5,5,5,5,5,5,5,5,5,5,5,5,
   6,6,6,6,6,6,6,6,6,6,6,6,6,6,6,6,6,6,6,6,6,6,6,6,6,6,6,6,6,6,6,6,
   6,6,6,6,6,6,6,6,6,6,6,6,6,6,6,6,6,6,6,6,6,6,6,6,6,6,6,6,6,6,6,6,
   7,7,7,7,7,7,7,7,7,7,7,7,7,7,7,7,7,7,7,7,7,7,7,7,7,7,7,7,7,7,7,7,
   7,7,7,7,7,7,7,7,7,7,7,7,7,7,7,7,7,7,7,7,7,7,7,7,7,7,7,7,7,7,7,7,
   7,7,7,7,7,7,7,7,7,7,7,7,7,7,7,7,7,7,7,7,7,7,7,7,7,7,7,7,7,7,7,7,
   7,7,7,7,7,7,7,7,7,7,7,7,7,7,7,7,7,7,7,7,7,7,7,7,7,7,7,7,7,7,7,7]

/-- `ss_ilg` (sssort.c:45-77) for `SS_BLOCKSIZE` 1024. -/
def ilg (n : Nat) : Option Int :=
  if n / 256 % 256 ≠ 0 then (lgTable[n / 256 % 256]?).map (8 + ·) else lgTable[n % 256]?

/-- `sqq_table` (sssort.c:83-100). -/
def sqqTable : List Nat :=
  [0,  16,  22,  27,  32,  35,  39,  42,  45,  48,  50,  53,  55,  57,  59,  61,
  64,  65,  67,  69,  71,  73,  75,  76,  78,  80,  81,  83,  84,  86,  87,  89,
  90,  91,  93,  94,  96,  97,  98,  99, 101, 102, 103, 104, 106, 107, 108, 109,
 110, 112, 113, 114, 115, 116, 117, 118, 119, 120, 121, 122, 123, 124, 125, 126,
 128, 128, 129, 130, 131, 132, 133, 134, 135, 136, 137, 138, 139, 140, 141, 142,
 143, 144, 144, 145, 146, 147, 148, 149, 150, 150, 151, 152, 153, 154, 155, 155,
 156, 157, 158, 159, 160, 160, 161, 162, 163, 163, 164, 165, 166, 167, 167, 168,
 169, 170, 170, 171, 172, 173, 173, 174, 175, 176, 176, 177, 178, 178, 179, 180,
 181, 181, 182, 183, 183, 184, 185, 185, 186, 187, 187, 188, 189, 189, 190, 191,
 192, 192, 193, 193, 194, 195, 195, 196, 197, 197, 198, 199, 199, 200, 201, 201,
 202, 203, 203, 204, 204, 205, 206, 206, 207, 208, 208, 209, 209, 210, 211, 211,
 212, 212, 213, 214, 214, 215, 215, 216, 217, 217, 218, 218, 219, 219, 220, 221,
 221, 222, 222, 223, 224, 224, 225, 225, 226, 226, 227, 227, 228, 229, 229, 230,
 230, 231, 231, 232, 232, 233, 234, 234, 235, 235, 236, 236, 237, 237, 238, 238,
 239, 240, 240, 241, 241, 242, 242, 243, 243, 244, 244, 245, 245, 246, 246, 247,
 247, 248, 248, 249, 249, 250, 250, 251, 251, 252, 252, 253, 253, 254, 254, 255]

/-- The number of the highest bit of `x` as computed in lines 112-118 of sssort.c, for `x` below `2 ^ 32`. -/
def hiBit (x : Nat) : Option Int :=
  if x / 65536 % 65536 ≠ 0 then
    if x / 16777216 % 256 ≠ 0 then (lgTable[x / 16777216 % 256]?).map (24 + ·) else (lgTable[x / 65536 % 256]?).map (16 + ·)
  else
    if x / 256 % 256 ≠ 0 then (lgTable[x / 256 % 256]?).map (8 + ·) else lgTable[x % 256]?

/-- A step of Newton's method (sssort.c:122, 123). -/
def newton (x y : Nat) : Option Nat := if y = 0 then none else some ((y + 1 + x / y) / 2)

/-- The last line of `ss_isqrt` (sssort.c:130). -/
def sqrtEnd (x y : Nat) : Option Nat :=
  if x < y * y then (if y = 0 then none else some (y - 1)) else some y

/-- `ss_isqrt` (sssort.c:106-131). -/
def isqrt (x : Nat) : Option Nat :=
  if 1048576 ≤ x then some 1024
  else do
    let e ← hiBit x
    if 16 ≤ e then
      let s ← sqqTable[x / 2 ^ ((e - 6) - e % 2).toNat]?
      let y := s * 2 ^ (e / 2 - 7).toNat
      let y ← (if 24 ≤ e then newton x y else some y : Option _)
      let y ← newton x y
      sqrtEnd x y
    else if 8 ≤ e then
      let s ← sqqTable[x / 2 ^ ((e - 6) - e % 2).toNat]?
      sqrtEnd x (s / 2 ^ (7 - e / 2).toNat + 1)
    else
      let s ← sqqTable[x]?
      return s / 16

/-- `ss_compare` (sssort.c:139-158) from `U1`, `U1n`, `U2`, `U2n` on. -/
def compareAt (T : List Nat) (u1 e1 u2 e2 : Nat) : Option Int :=
  if u1 < e1 then
    if u2 < e2 then do
      let x ← T[u1]?
      let y ← T[u2]?
      if x = y then compareAt T (u1 + 1) e1 (u2 + 1) e2 else return (x : Int) - y
    else some 1
  else if u2 < e2 then some (-1) else some 0
partial_fixpoint

/-- `ss_compare(T, PA + i, PA + j, depth)` (sssort.c:139-158). -/
def compare (T : List Nat) (sa : List Int) (pa : Nat) (i j : Int) (depth : Nat) : Option Int := do
  let p1 ← paAt sa pa i
  let p2 ← paAt sa pa j
  let n1 ← paAt sa pa (i + 1)
  let n2 ← paAt sa pa (j + 1)
  compareAt T (depth + p1) (n1 + 2) (depth + p2) (n2 + 2)

/-! ## `ss_insertionsort` -/

/-- `do { *(j - 1) = *j; } while((++j < last) && (*j < 0))` (sssort.c:175) with `j = q + 1`; the new `j - 1`. -/
def insShift (last : Nat) (sa : List Int) (q : Nat) : Option (List Int × Nat) := do
  let x ← sa[q + 1]?
  let sa ← put sa q x
  if q + 2 < last then
    let y ← sa[q + 2]?
    if y < 0 then insShift last sa (q + 1) else return (sa, q + 1)
  else return (sa, q + 1)
partial_fixpoint

/-- The inner loop of `ss_insertionsort` (sssort.c:174-177) with `j = q + 1`; `j - 1` and `r` at the end. -/
def insLoop (T : List Nat) (pa depth last : Nat) (t : Int) (sa : List Int) (q : Nat) : Option (List Int × Nat × Int) := do
  let x ← sa[q + 1]?
  let r ← compare T sa pa t x depth
  if 0 < r then
    let (sa, q) ← insShift last sa q
    if last ≤ q + 1 then return (sa, q, r) else insLoop T pa depth last t sa q
  else return (sa, q, r)
partial_fixpoint

/-- Lines 174-179 of sssort.c for one `i`. -/
def insOne (T : List Nat) (pa depth last : Nat) (sa : List Int) (i : Nat) : Option (List Int) := do
  let t ← sa[i]?
  let (sa, q, r) ← insLoop T pa depth last t sa i
  let sa ← (if r = 0 then flip sa (q + 1) else some sa : Option _)
  put sa q t

/-- `ss_insertionsort` (sssort.c:165-181); it is called for two cells or more. -/
def insertionsort (T : List Nat) (pa : Nat) (sa : List Int) (first last depth : Nat) : Option (List Int) :=
  loopDown (fun sa i => insOne T pa depth last sa (first + i)) (last - first - 1) sa

/-! ## `ss_heapsort` -/

/-- The loop of `ss_fixdown` (sssort.c:198-202) and line 203; `base` is the index of `SA[0]`. -/
def fixLoop (T : List Nat) (pa depth base size : Nat) (v : Int) (c : Nat) (sa : List Int) (i : Nat) : Option (List Int) := do
  let j := 2 * i + 1
  if j < size then
    let x ← sa[base + j]?
    let d ← tdAt T sa pa depth x
    let y ← sa[base + j + 1]?
    let e ← tdAt T sa pa depth y
    let k := if d < e then j + 1 else j
    let d := if d < e then e else d
    if d ≤ c then put sa (base + i) v
    else
      let z ← sa[base + k]?
      let sa ← put sa (base + i) z
      fixLoop T pa depth base size v c sa k
  else put sa (base + i) v
partial_fixpoint

/-- `ss_fixdown` (sssort.c:190-204). -/
def fixdown (T : List Nat) (pa depth base size : Nat) (sa : List Int) (i : Nat) : Option (List Int) := do
  let v ← sa[base + i]?
  let c ← tdAt T sa pa depth v
  fixLoop T pa depth base size v c sa i

/-- Lines 222-224 of sssort.c, for one `i`. -/
def heapOne (T : List Nat) (pa depth base : Nat) (sa : List Int) (i : Nat) : Option (List Int) := do
  let t ← sa[base]?
  let x ← sa[base + i]?
  let sa ← put sa base x
  let sa ← fixdown T pa depth base i sa 0
  put sa (base + i) t

/-- Lines 213-217 of sssort.c: `m` and the array. -/
def heapEven (T : List Nat) (pa depth base size : Nat) (sa : List Int) : Option (Nat × List Int) :=
  if size % 2 = 0 then
    if size = 0 then none
    else do
      let x ← sa[base + (size - 1) / 2]?
      let c ← tdAt T sa pa depth x
      let y ← sa[base + (size - 1)]?
      let d ← tdAt T sa pa depth y
      let sa ← (if c < d then swap sa (base + (size - 1)) (base + (size - 1) / 2) else some sa : Option _)
      return (size - 1, sa)
  else some (size, sa)

/-- Line 220 of sssort.c. -/
def heapTop (T : List Nat) (pa depth base size m : Nat) (sa : List Int) : Option (List Int) :=
  if size % 2 = 0 then do
    let sa ← swap sa base (base + m)
    fixdown T pa depth base m sa 0
  else some sa

/-- `ss_heapsort` (sssort.c:207-226). -/
def heapsort (T : List Nat) (pa depth base size : Nat) (sa : List Int) : Option (List Int) := do
  let (m, sa) ← heapEven T pa depth base size sa
  let sa ← loopDown (fixdown T pa depth base m) (m / 2) sa
  let sa ← heapTop T pa depth base size m sa
  loopDown (fun sa i => heapOne T pa depth base sa (i + 1)) (m - 1) sa

/-! ## The pivot -/

/-- `Td[PA[*v]]`. -/
def tdCell (T : List Nat) (sa : List Int) (pa depth : Nat) (v : Nat) : Option Nat := do
  let x ← sa[v]?
  tdAt T sa pa depth x

/-- `if(Td[PA[*v1]] > Td[PA[*v2]]) { SWAP(v1, v2); }`, a swap of the pointers. -/
def order (T : List Nat) (sa : List Int) (pa depth : Nat) (v1 v2 : Nat) : Option (Nat × Nat) := do
  let x ← tdCell T sa pa depth v1
  let y ← tdCell T sa pa depth v2
  return if x > y then (v2, v1) else (v1, v2)

/-- `ss_median3` (sssort.c:232-243). -/
def median3 (T : List Nat) (sa : List Int) (pa depth : Nat) (v1 v2 v3 : Nat) : Option Nat := do
  let (v1, v2) ← order T sa pa depth v1 v2
  let y ← tdCell T sa pa depth v2
  let z ← tdCell T sa pa depth v3
  if y > z then
    let x ← tdCell T sa pa depth v1
    return if x > z then v1 else v3
  else return v2

/-- `if(Td[PA[*v1]] > Td[PA[*v2]]) { SWAP(v1, v2); SWAP(w1, w2); }`. -/
def order2 (T : List Nat) (sa : List Int) (pa depth : Nat) (v1 v2 w1 w2 : Nat) : Option ((Nat × Nat) × (Nat × Nat)) := do
  let x ← tdCell T sa pa depth v1
  let y ← tdCell T sa pa depth v2
  return if x > y then ((v2, v1), (w2, w1)) else ((v1, v2), (w1, w2))

/-- `ss_median5` (sssort.c:246-258). -/
def median5 (T : List Nat) (sa : List Int) (pa depth : Nat) (v1 v2 v3 v4 v5 : Nat) : Option Nat := do
  let (v2, v3) ← order T sa pa depth v2 v3
  let (v4, v5) ← order T sa pa depth v4 v5
  let ((_, v4), (v3, v5)) ← order2 T sa pa depth v2 v4 v3 v5
  let (v1, v3) ← order T sa pa depth v1 v3
  let ((_, v4), (v3, _)) ← order2 T sa pa depth v1 v4 v3 v5
  let x ← tdCell T sa pa depth v3
  let y ← tdCell T sa pa depth v4
  return if x > y then v4 else v3

/-- `ss_pivot` (sssort.c:261-283). -/
def pivot (T : List Nat) (sa : List Int) (pa depth : Nat) (first last : Nat) : Option Nat := do
  let t := last - first
  let middle := first + t / 2
  if t ≤ 512 then
    if t ≤ 32 then median3 T sa pa depth first middle (last - 1)
    else
      let t := t / 4
      median5 T sa pa depth first (first + t) middle (last - 1 - t) (last - 1)
  else
    let t := t / 8
    let first ← median3 T sa pa depth first (first + t) (first + t * 2)
    let middle ← median3 T sa pa depth (middle - t) middle (middle + t)
    let last ← median3 T sa pa depth (last - 1 - t * 2) (last - 1 - t) (last - 1)
    median3 T sa pa depth first middle last

/-! ## `ss_partition` -/

/-- `PA[v] + depth >= PA[v + 1] + 1`: the character at `depth` is the last one of the substring. -/
def atEnd (sa : List Int) (pa depth : Nat) (v : Int) : Option Bool := do
  let p ← paAt sa pa v
  let q ← paAt sa pa (v + 1)
  return decide (q + 1 ≤ p + depth)

/-- `for(; (++a < b) && ...;) { *a = ~*a; }` (sssort.c:295) from the new `a` on. -/
def partUp (pa depth b : Nat) (sa : List Int) (a : Nat) : Option (List Int × Nat) :=
  if a < b then do
    let x ← sa[a]?
    let e ← atEnd sa pa depth x
    if e then
      let sa ← put sa a (inv x)
      partUp pa depth b sa (a + 1)
    else return (sa, a)
  else some (sa, a)
partial_fixpoint

/-- `for(; (a < --b) && ...;) { }` (sssort.c:296). -/
def partDown (pa depth a : Nat) (sa : List Int) : Nat → Option Nat
  | 0 => none
  | b + 1 => if a < b then do
      let x ← sa[b]?
      let e ← atEnd sa pa depth x
      if e then return b else partDown pa depth a sa b
    else some b

/-- The loop of `ss_partition` (sssort.c:294-301) from the new `a` on. -/
def partLoop (pa depth : Nat) (sa : List Int) (a b : Nat) : Option (List Int × Nat) := do
  let (sa, a) ← partUp pa depth b sa a
  let b ← partDown pa depth a sa b
  if b ≤ a then return (sa, a)
  else
    let x ← sa[b]?
    let y ← sa[a]?
    let sa ← put sa b y
    let sa ← put sa a (inv x)
    partLoop pa depth sa (a + 1) b
partial_fixpoint

/-- `ss_partition` (sssort.c:288-305). -/
def partition (pa : Nat) (sa : List Int) (first last depth : Nat) : Option (List Int × Nat) := do
  let (sa, a) ← partLoop pa depth sa first last
  let sa ← (if first < a then flip sa first else some sa : Option _)
  return (sa, a)

/-! ## `ss_mintrosort` -/

/-- `for(...; (++b < last) && ((x = Td[PA[*b]]) == v);) { }` (sssort.c:369) from the new `b` on: `b` and `x`. -/
def scanEq (T : List Nat) (sa : List Int) (pa depth last v : Nat) (b x : Nat) : Option (Nat × Nat) :=
  if b < last then do
    let x ← tdCell T sa pa depth b
    if x = v then scanEq T sa pa depth last v (b + 1) x else return (b, x)
  else some (b, x)
partial_fixpoint

/-- `for(; (++b < last) && ((x = Td[PA[*b]]) <= v);) { if(x == v) { SWAP(*b, *a); ++a; } }` (sssort.c:371-373, 383-385) from the new
`b` on. -/
def scanLe (T : List Nat) (pa depth last v : Nat) (sa : List Int) (a b : Nat) : Option (List Int × Nat × Nat) :=
  if b < last then do
    let x ← tdCell T sa pa depth b
    if x ≤ v then
      if x = v then
        let sa ← swap sa b a
        scanLe T pa depth last v sa (a + 1) (b + 1)
      else scanLe T pa depth last v sa a (b + 1)
    else return (sa, a, b)
  else some (sa, a, b)
partial_fixpoint

/-- `for(...; (b < --c) && ((x = Td[PA[*c]]) == v);) { }` (sssort.c:375): `c` and `x`. -/
def scanEqDown (T : List Nat) (sa : List Int) (pa depth b v : Nat) : Nat → Nat → Option (Nat × Nat)
  | 0, _ => none
  | c + 1, x => if b < c then do
      let x ← tdCell T sa pa depth c
      if x = v then scanEqDown T sa pa depth b v c x else return (c, x)
    else some (c, x)

/-- `for(; (b < --c) && ((x = Td[PA[*c]]) >= v);) { if(x == v) { SWAP(*c, *d); --d; } }` (sssort.c:377-379, 386-388). -/
def scanGe (T : List Nat) (pa depth b v : Nat) : List Int → Nat → Nat → Option (List Int × Nat × Nat)
  | _, 0, _ => none
  | sa, c + 1, d => if b < c then do
      let x ← tdCell T sa pa depth c
      if v ≤ x then
        if x = v then
          let sa ← swap sa c d
          if d = 0 then none else scanGe T pa depth b v sa c (d - 1)
        else scanGe T pa depth b v sa c d
      else return (sa, c, d)
    else some (sa, c, d)

/-- The array and the pointers `a`, `b`, `c`, `d` while partitioning. -/
structure Part where
  sa : List Int
  a : Nat
  b : Nat
  c : Nat
  d : Nat

/-- Lines 381-389 of sssort.c. -/
def crossLoop (T : List Nat) (pa depth v : Nat) (s : Part) : Option Part :=
  if s.b < s.c then do
    let sa ← swap s.sa s.b s.c
    let (sa, a, b) ← scanLe T pa depth s.c v sa s.a (s.b + 1)
    let (sa, c, d) ← scanGe T pa depth b v sa s.c s.d
    crossLoop T pa depth v ⟨sa, a, b, c, d⟩
  else some s
partial_fixpoint

/-- Lines 369-374 of sssort.c. -/
def partLow (T : List Nat) (pa depth first last v : Nat) (sa : List Int) : Option (List Int × Nat × Nat) := do
  let (b, x) ← scanEq T sa pa depth last v (first + 1) v
  if b < last ∧ x < v then scanLe T pa depth last v sa b (b + 1) else return (sa, b, b)

/-- Lines 375-380 of sssort.c. -/
def partHigh (T : List Nat) (pa depth last v : Nat) (sa : List Int) (b : Nat) : Option (List Int × Nat × Nat) := do
  let (c, x) ← scanEqDown T sa pa depth b v last v
  if b < c ∧ v < x then scanGe T pa depth b v sa c c else return (sa, c, c)

/-- Lines 369-389 of sssort.c. -/
def threeWay (T : List Nat) (pa depth first last v : Nat) (sa : List Int) : Option Part := do
  let (sa, a, b) ← partLow T pa depth first last v sa
  let (sa, c, d) ← partHigh T pa depth last v sa b
  crossLoop T pa depth v ⟨sa, a, b, c, d⟩

/-- `for(; 0 < n; --n, ++a, ++b) { t = *a, *a = *b, *b = t; }` (sssort.c:450-457, also 395, 397). -/
def blockswap (sa : List Int) : Nat → Nat → Nat → Option (List Int)
  | _, _, 0 => some sa
  | a, b, n + 1 => do
    let sa ← swap sa a b
    blockswap sa (a + 1) (b + 1) n

/-- Lines 392-399 of sssort.c: the array, `a` and `c`. -/
def gather (first last : Nat) (s : Part) : Option (List Int × Nat × Nat) :=
  if s.b = 0 then none
  else do
    let c := s.b - 1
    let n := min (s.a - first) (s.b - s.a)
    let sa ← blockswap s.sa first (s.b - n) n
    let n := min (s.d - c) (last - s.d - 1)
    let sa ← blockswap sa s.b (last - n) n
    return (sa, first + (s.b - s.a), last - (s.d - c))

/-- The group of lines 335-341 of sssort.c: `first`, `a` and `v`. -/
def runOf (T : List Nat) (sa : List Int) (pa depth last : Nat) (first v a : Nat) : Option (Nat × Nat × Nat) :=
  if a < last then do
    let x ← tdCell T sa pa depth a
    if x ≠ v then
      if 1 < a - first then return (first, a, v) else runOf T sa pa depth last a x (a + 1)
    else runOf T sa pa depth last first v (a + 1)
  else some (first, a, v)
partial_fixpoint

/-- An entry of the stack of `ss_mintrosort`: `first`, `last`, `depth`, `limit`. -/
structure Frame where
  first : Nat
  last : Nat
  depth : Nat
  limit : Int

/-- `STACK_PUSH` (divsufsort_private.h:158-163) with `SS_MISORT_STACKSIZE`. -/
def push (st : List Frame) (f : Frame) : Option (List Frame) := if st.length < 16 then some (f :: st) else none

/-- Lines 335-359 of sssort.c: the array, the stack and the frame to go on with. -/
def runStep (T : List Nat) (pa : Nat) (sa : List Int) (st : List Frame) (first last depth : Nat) :
    Option (List Int × List Frame × Frame) := do
  let v ← tdCell T sa pa depth first
  let (first, a, v) ← runOf T sa pa depth last first v (first + 1)
  let x ← sa[first]?
  let y ← tdPrev T sa pa depth x
  let (sa, first) ← (if y < v then partition pa sa first a depth else some (sa, first) : Option _)
  if a - first ≤ last - a then
    if 1 < a - first then
      let st ← push st ⟨a, last, depth, -1⟩
      let limit ← ilg (a - first)
      return (sa, st, ⟨first, a, depth + 1, limit⟩)
    else return (sa, st, ⟨a, last, depth, -1⟩)
  else
    let limit ← ilg (a - first)
    if 1 < last - a then
      let st ← push st ⟨first, a, depth + 1, limit⟩
      return (sa, st, ⟨a, last, depth, -1⟩)
    else return (sa, st, ⟨first, a, depth + 1, limit⟩)

/-- Lines 402-431 of sssort.c: the stack and the frame to go on with, from `[first, a)`, `[b, c)` and `[c, last)`. -/
def choose (st : List Frame) (first a b c last depth : Nat) (limit : Int) : Option (List Frame × Frame) := do
  let l ← ilg (c - b)
  let low : Frame := ⟨first, a, depth, limit⟩
  let mid : Frame := ⟨b, c, depth + 1, l⟩
  let high : Frame := ⟨c, last, depth, limit⟩
  if a - first ≤ last - c then
    if last - c ≤ c - b then
      let st ← push st mid
      let st ← push st high
      return (st, low)
    else if a - first ≤ c - b then
      let st ← push st high
      let st ← push st mid
      return (st, low)
    else
      let st ← push st high
      let st ← push st low
      return (st, mid)
  else
    if a - first ≤ c - b then
      let st ← push st mid
      let st ← push st low
      return (st, high)
    else if last - c ≤ c - b then
      let st ← push st low
      let st ← push st mid
      return (st, high)
    else
      let st ← push st low
      let st ← push st high
      return (st, mid)

/-- Lines 364-438 of sssort.c. -/
def partStep (T : List Nat) (pa : Nat) (sa : List Int) (st : List Frame) (first last depth : Nat) (limit : Int) :
    Option (List Int × List Frame × Frame) := do
  let a ← pivot T sa pa depth first last
  let v ← tdCell T sa pa depth a
  let sa ← swap sa first a
  let s ← threeWay T pa depth first last v sa
  if s.a ≤ s.d then
    let (sa, a, c) ← gather first last s
    let x ← sa[a]?
    let y ← tdPrev T sa pa depth x
    let (sa, b) ← (if v ≤ y then some (sa, a) else partition pa sa a c depth : Option _)
    let (st, f) ← choose st first a b c last depth limit
    return (sa, st, f)
  else
    let x ← s.sa[first]?
    let y ← tdPrev T s.sa pa depth x
    if y < v then
      let (sa, first) ← partition pa s.sa first last depth
      let limit ← ilg (last - first)
      return (sa, st, ⟨first, last, depth + 1, limit⟩)
    else return (s.sa, st, ⟨first, last, depth + 1, limit + 1⟩)

/-- `STACK_POP` (divsufsort_private.h:170-176): the stack and the frame, unless the procedure returns. -/
def pop {α : Type} : List α → Option (List α × α)
  | [] => none
  | f :: st => some (st, f)

/-- One round of the loop of `ss_mintrosort` (sssort.c:322-440): the array, and the stack and the frame to go on with unless the procedure returns. -/
def mintroStep (T : List Nat) (pa : Nat) (sa : List Int) (st : List Frame) (f : Frame) :
    Option (List Int × Option (List Frame × Frame)) :=
  if f.last - f.first ≤ 8 then do
    let sa ← (if 1 < f.last - f.first then insertionsort T pa sa f.first f.last f.depth else some sa : Option _)
    return (sa, pop st)
  else do
    let sa ← (if f.limit = 0 then heapsort T pa f.depth f.first (f.last - f.first) sa else some sa : Option _)
    let (sa, st, f) ← (if f.limit - 1 < 0 then runStep T pa sa st f.first f.last f.depth
      else partStep T pa sa st f.first f.last f.depth (f.limit - 1) : Option _)
    return (sa, some (st, f))

/-- The loop of `ss_mintrosort` (sssort.c:322-440). -/
def mintroLoop (T : List Nat) (pa : Nat) (sa : List Int) (st : List Frame) (f : Frame) : Option (List Int) := do
  let (sa, o) ← mintroStep T pa sa st f
  match o with
  | none => return sa
  | some (st, f) => mintroLoop T pa sa st f
partial_fixpoint

/-- `ss_mintrosort` (sssort.c:307-442). -/
def mintrosort (T : List Nat) (pa : Nat) (sa : List Int) (first last depth : Nat) : Option (List Int) := do
  let limit ← ilg (last - first)
  mintroLoop T pa sa [] ⟨first, last, depth, limit⟩

/-! ## Merging -/

/-- The inner loop for `l < r` of `ss_rotate` (sssort.c:470-479); `b` is the index one above the pointer.  The array, `last` and `r`. -/
def rotDown (first middle l : Nat) (t : Int) (sa : List Int) (a b r : Nat) : Option (List Int × Nat × Nat) :=
  match a, b with
  | a + 1, b + 1 => do
    let x ← sa[b]?
    let sa ← put sa (a + 1) x
    let y ← sa[a]?
    let sa ← put sa b y
    if b ≤ first then
      let sa ← put sa a t
      if r < l + 1 then none
      else if r - (l + 1) ≤ l then return (sa, a, r - (l + 1))
      else if a = 0 then none
      else
        let t ← sa[a - 1]?
        rotDown first middle l t sa (a - 1) middle (r - (l + 1))
    else rotDown first middle l t sa a b r
  | _, _ => none
partial_fixpoint

/-- The inner loop for `r < l` of `ss_rotate` (sssort.c:483-492).  The array, `first` and `l`. -/
def rotUp (middle last r : Nat) (t : Int) (sa : List Int) (a b l : Nat) : Option (List Int × Nat × Nat) := do
  let x ← sa[b]?
  let sa ← put sa a x
  let y ← sa[a + 1]?
  let sa ← put sa b y
  if last ≤ b + 1 then
    let sa ← put sa (a + 1) t
    if l < r + 1 then none
    else if l - (r + 1) ≤ r then return (sa, a + 2, l - (r + 1))
    else
      let t ← sa[a + 2]?
      rotUp middle last r t sa (a + 2) middle (l - (r + 1))
  else rotUp middle last r t sa (a + 1) (b + 1) l
partial_fixpoint

/-- The loop of `ss_rotate` (sssort.c:465-494). -/
def rotLoop (middle : Nat) (sa : List Int) (first last l r : Nat) : Option (List Int) :=
  if 0 < l ∧ 0 < r then
    if l = r then blockswap sa first middle l
    else if l < r then
      if last = 0 then none
      else do
        let t ← sa[last - 1]?
        let (sa, last, r) ← rotDown first middle l t sa (last - 1) middle r
        rotLoop middle sa first last l r
    else do
      let t ← sa[first]?
      let (sa, first, l) ← rotUp middle last r t sa first middle l
      rotLoop middle sa first last l r
  else some sa
partial_fixpoint

/-- `ss_rotate` (sssort.c:459-495). -/
def rotate (sa : List Int) (first middle last : Nat) : Option (List Int) :=
  rotLoop middle sa first last (middle - first) (last - middle)

/-- The search of `ss_inplacemerge` (sssort.c:514-525) for the place of substring `p`: `a` and `r`. -/
def inplaceSearch (T : List Nat) (sa : List Int) (pa depth : Nat) (p : Int) (a len half : Nat) (r : Int) : Option (Nat × Int) :=
  if 0 < len then do
    let x ← sa[a + half]?
    let q ← compare T sa pa (idx x) p depth
    if q < 0 then
      if len % 2 = 0 ∧ half = 0 then none
      else
        let h := half - (if len % 2 = 1 then 0 else 1)
        inplaceSearch T sa pa depth p (a + half + 1) h (h / 2) r
    else inplaceSearch T sa pa depth p a half (half / 2) q
  else some (a, r)
partial_fixpoint

/-- `while(*--last < 0) { }` (sssort.c:534, 711). -/
def backUp (sa : List Int) : Nat → Option Nat
  | 0 => none
  | l + 1 => do
    let x ← sa[l]?
    if x < 0 then backUp sa l else return l

/-- `ss_inplacemerge` (sssort.c:500-537). -/
def inplacemerge (T : List Nat) (pa : Nat) (sa : List Int) (first middle last depth : Nat) : Option (List Int) :=
  if last = 0 then none
  else do
    let x ← sa[last - 1]?
    let (a, r) ← inplaceSearch T sa pa depth (idx x) first (middle - first) ((middle - first) / 2) (-1)
    if a < middle then
      let sa ← (if r = 0 then flip sa a else some sa : Option _)
      let sa ← rotate sa a middle last
      if first = a then return sa
      else if last - (middle - a) = 0 then none
      else
        let last := last - (middle - a) - 1
        let last ← (if x < 0 then backUp sa last else some last : Option _)
        if a = last then return sa else inplacemerge T pa sa first a last depth
    else
      let last := last - 1
      let last ← (if x < 0 then backUp sa last else some last : Option _)
      if middle = last then return sa else inplacemerge T pa sa first middle last depth
partial_fixpoint

/-- `*a++ = *b, *b++ = *a`: the array after it. -/
def shiftUp (sa : List Int) (a b : Nat) : Option (List Int) := do
  let x ← sa[b]?
  let sa ← put sa a x
  let y ← sa[a + 1]?
  put sa b y

/-- `do { *a++ = *b; if(bufend <= b) { *bufend = t; return; } *b++ = *a; } while(*b < 0);` (sssort.c:558-562, 574-578): the array, and
`a` and `b` unless the procedure returns. -/
def mfLeft (bufend : Nat) (t : Int) (sa : List Int) (a b : Nat) : Option (List Int × Option (Nat × Nat)) := do
  let x ← sa[b]?
  let sa ← put sa a x
  if bufend ≤ b then
    let sa ← put sa bufend t
    return (sa, none)
  else
    let y ← sa[a + 1]?
    let sa ← put sa b y
    let z ← sa[b + 1]?
    if z < 0 then mfLeft bufend t sa (a + 1) (b + 1) else return (sa, some (a + 1, b + 1))
partial_fixpoint

/-- `while(b < bufend) { *a++ = *b, *b++ = *a; } *a = *b, *b = t;` (sssort.c:567-568, 583-584). -/
def mfRest (bufend : Nat) (t : Int) (sa : List Int) (a b : Nat) : Option (List Int) :=
  if b < bufend then do
    let sa ← shiftUp sa a b
    mfRest bufend t sa (a + 1) (b + 1)
  else do
    let x ← sa[b]?
    let sa ← put sa a x
    put sa b t
partial_fixpoint

/-- `do { *a++ = *c, *c++ = *a; if(last <= c) { ... return; } } while(*c < 0);` (sssort.c:564-571, 580-587). -/
def mfRight (bufend last : Nat) (t : Int) (b : Nat) (sa : List Int) (a c : Nat) : Option (List Int × Option (Nat × Nat)) := do
  let sa ← shiftUp sa a c
  if last ≤ c + 1 then
    let sa ← mfRest bufend t sa (a + 1) b
    return (sa, none)
  else
    let z ← sa[c + 1]?
    if z < 0 then mfRight bufend last t b sa (a + 1) (c + 1) else return (sa, some (a + 1, c + 1))
partial_fixpoint

/-- The loop of `ss_mergeforward` (sssort.c:555-589). -/
def mfLoop (T : List Nat) (pa depth bufend last : Nat) (t : Int) (sa : List Int) (a b c : Nat) : Option (List Int) := do
  let x ← sa[b]?
  let y ← sa[c]?
  let r ← compare T sa pa x y depth
  if r < 0 then
    let (sa, o) ← mfLeft bufend t sa a b
    match o with
    | none => return sa
    | some (a, b) => mfLoop T pa depth bufend last t sa a b c
  else if 0 < r then
    let (sa, o) ← mfRight bufend last t b sa a c
    match o with
    | none => return sa
    | some (a, c) => mfLoop T pa depth bufend last t sa a b c
  else
    let sa ← put sa c (inv y)
    let (sa, o) ← mfLeft bufend t sa a b
    match o with
    | none => return sa
    | some (a, b) =>
      let (sa, o) ← mfRight bufend last t b sa a c
      match o with
      | none => return sa
      | some (a, c) => mfLoop T pa depth bufend last t sa a b c
partial_fixpoint

/-- `ss_mergeforward` (sssort.c:543-590). -/
def mergeforward (T : List Nat) (pa : Nat) (sa : List Int) (first middle last buf depth : Nat) : Option (List Int) := do
  let sa ← blockswap sa buf first (middle - first)
  let t ← sa[first]?
  if buf + (middle - first) = 0 then none
  else mfLoop T pa depth (buf + (middle - first) - 1) last t sa first buf middle

/-- `*a-- = *b, *b-- = *a`: the array after it. -/
def shiftDown (sa : List Int) (a b : Nat) : Option (List Int) :=
  if a = 0 then none
  else do
    let x ← sa[b]?
    let sa ← put sa a x
    let y ← sa[a - 1]?
    put sa b y

/-- `do { *a-- = *b, *b-- = *a; } while(*b < 0);` (sssort.c:615, 622, 632, 636); the array, `a` and `b`. -/
def mbMarked (sa : List Int) : Nat → Nat → Option (List Int × Nat × Nat)
  | a + 1, b + 1 => do
    let sa ← shiftDown sa (a + 1) (b + 1)
    let x ← sa[b]?
    if x < 0 then mbMarked sa a b else return (sa, a, b)
  | _, _ => none

/-- `while(buf < b) { *a-- = *b, *b-- = *a; } *a = *b, *b = t;` (sssort.c:625-626, 639-640). -/
def mbRest (buf : Nat) (t : Int) (sa : List Int) (a b : Nat) : Option (List Int) :=
  if buf < b then do
    let sa ← shiftDown sa a b
    mbRest buf t sa (a - 1) (b - 1)
  else do
    let x ← sa[b]?
    let sa ← put sa a x
    put sa b t
partial_fixpoint

/-- The lines 615-618 (with `~*b`: 632-635) of sssort.c: the array, and `a` and `b` unless the loop ends; `neg` is `x & 1`. -/
def mbBuf (buf : Nat) (t : Int) (neg equal : Bool) (sa : List Int) (a b : Nat) : Option (List Int × Option (Nat × Nat)) := do
  let (sa, a, b) ← (if neg then mbMarked sa a b else some (sa, a, b) : Option _)
  let x ← sa[b]?
  let sa ← put sa a (if equal then inv x else x)
  if b ≤ buf then
    let sa ← put sa buf t
    return (sa, none)
  else if a = 0 then none
  else
    let y ← sa[a - 1]?
    let sa ← put sa b y
    return (sa, some (a - 1, b - 1))

/-- The lines 622-628 (also 636-642) of sssort.c: the array, and `a` and `c` unless the loop ends; `neg` is `x & 2`; `c < first` after the decrement is
`c ≤ first` before it. -/
def mbMid (first buf : Nat) (t : Int) (neg : Bool) (b : Nat) (sa : List Int) (a c : Nat) : Option (List Int × Option (Nat × Nat)) := do
  let (sa, a, c) ← (if neg then mbMarked sa a c else some (sa, a, c) : Option _)
  let sa ← shiftDown sa a c
  if c ≤ first then
    let sa ← mbRest buf t sa (a - 1) b
    return (sa, none)
  else return (sa, some (a - 1, c - 1))

/-- The loop of `ss_mergebackward` (sssort.c:612-648); `x & 1` and `p1` are those of the cell `b`, `x & 2` and `p2` those of the cell `c`. -/
def mbLoop (T : List Nat) (pa depth first buf : Nat) (t : Int) (sa : List Int) (a b c : Nat) : Option (List Int) := do
  let x ← sa[b]?
  let y ← sa[c]?
  let r ← compare T sa pa (idx x) (idx y) depth
  if 0 < r then
    let (sa, o) ← mbBuf buf t (x < 0) false sa a b
    match o with
    | none => return sa
    | some (a, b) => mbLoop T pa depth first buf t sa a b c
  else if r < 0 then
    let (sa, o) ← mbMid first buf t (y < 0) b sa a c
    match o with
    | none => return sa
    | some (a, c) => mbLoop T pa depth first buf t sa a b c
  else
    let (sa, o) ← mbBuf buf t (x < 0) true sa a b
    match o with
    | none => return sa
    | some (a, b) =>
      let (sa, o) ← mbMid first buf t (y < 0) b sa a c
      match o with
      | none => return sa
      | some (a, c) => mbLoop T pa depth first buf t sa a b c
partial_fixpoint

/-- `ss_mergebackward` (sssort.c:593-649). -/
def mergebackward (T : List Nat) (pa : Nat) (sa : List Int) (first middle last buf depth : Nat) : Option (List Int) := do
  let sa ← blockswap sa buf middle (last - middle)
  if last = 0 ∨ middle = 0 ∨ buf + (last - middle) = 0 then none
  else
    let t ← sa[last - 1]?
    mbLoop T pa depth first buf t sa (last - 1) (buf + (last - middle) - 1) (middle - 1)

/-- The bits 1, 2 and 4 of `check` and `next` (sssort.c:673). -/
structure Flags where
  one : Bool
  two : Bool
  four : Bool

/-- `ss_compare(T, PA + GETIDX(*(a - 1)), PA + *(a), depth) == 0` (sssort.c:662). -/
def eqPrev (T : List Nat) (pa depth : Nat) (sa : List Int) (a : Nat) : Option Bool :=
  if a = 0 then none
  else do
    let x ← sa[a - 1]?
    let y ← sa[a]?
    let r ← compare T sa pa (idx x) y depth
    return decide (r = 0)

/-- The first half of `MERGE_CHECK(a, b, c)` (sssort.c:661-664). -/
def checkA (T : List Nat) (pa depth : Nat) (sa : List Int) (a : Nat) (f : Flags) : Option (List Int) :=
  if f.one then flip sa a
  else if f.two then do
    let e ← eqPrev T pa depth sa a
    if e then flip sa a else return sa
  else some sa

/-- The second half of `MERGE_CHECK(a, b, c)` (sssort.c:665-667). -/
def checkB (T : List Nat) (pa depth : Nat) (sa : List Int) (b : Nat) (f : Flags) : Option (List Int) :=
  if f.four then do
    let e ← eqPrev T pa depth sa b
    if e then flip sa b else return sa
  else some sa

/-- The search of `ss_swapmerge` (sssort.c:694-702). -/
def swapSearch (T : List Nat) (pa depth middle : Nat) (sa : List Int) (m len half : Nat) : Option Nat :=
  if 0 < len then
    if middle < m + half + 1 then none
    else do
      let x ← sa[middle + m + half]?
      let y ← sa[middle - (m + half + 1)]?
      let q ← compare T sa pa (idx x) (idx y) depth
      if q < 0 then
        if len % 2 = 0 ∧ half = 0 then none
        else
          let h := half - (if len % 2 = 1 then 0 else 1)
          swapSearch T pa depth middle sa (m + half + 1) h (h / 2)
      else swapSearch T pa depth middle sa m half (half / 2)
  else some m
partial_fixpoint

/-- `for(; *r < 0; ++r) { }` (sssort.c:714). -/
def forward (sa : List Int) (r : Nat) : Option Nat := do
  let x ← sa[r]?
  if x < 0 then forward sa (r + 1) else return r
partial_fixpoint

/-- Lines 707-717 of sssort.c: the array, `l`, `r` and `next`. -/
def swapMarks (sa : List Int) (first lm middle rm last : Nat) : Option (List Int × Nat × Nat × Flags) :=
  if rm < last then do
    let x ← sa[rm]?
    if x < 0 then
      let sa ← put sa rm (inv x)
      if first < lm then
        let l ← backUp sa middle
        return (sa, l, middle, ⟨true, false, true⟩)
      else return (sa, middle, middle, ⟨true, false, false⟩)
    else if first < lm then
      let r ← forward sa middle
      return (sa, middle, r, ⟨false, true, false⟩)
    else return (sa, middle, middle, ⟨false, false, false⟩)
  else some (sa, middle, middle, ⟨false, false, false⟩)

/-- An entry of the stack of `ss_swapmerge`: `first`, `middle`, `last`, `check`. -/
structure MFrame where
  first : Nat
  middle : Nat
  last : Nat
  check : Flags

/-- `STACK_PUSH` (divsufsort_private.h:158-163) with `SS_SMERGE_STACKSIZE`. -/
def mpush (st : List MFrame) (f : MFrame) : Option (List MFrame) := if st.length < 32 then some (f :: st) else none

/-- Lines 705-726 of sssort.c: the array, the stack and the frame to go on with. -/
def swapSplit (sa : List Int) (st : List MFrame) (f : MFrame) (m : Nat) : Option (List Int × List MFrame × MFrame) :=
  if f.middle < m then none
  else do
    let lm := f.middle - m
    let rm := f.middle + m
    let sa ← blockswap sa lm f.middle m
    let (sa, l, r, next) ← swapMarks sa f.first lm f.middle rm f.last
    if l - f.first ≤ f.last - r then
      let st ← mpush st ⟨r, rm, f.last, ⟨next.one, next.two, f.check.four⟩⟩
      return (sa, st, ⟨f.first, lm, l, ⟨f.check.one, f.check.two, next.four⟩⟩)
    else
      let next : Flags := if next.two ∧ r = f.middle then ⟨next.one, !next.two, !next.four⟩ else next
      let st ← mpush st ⟨f.first, lm, l, ⟨f.check.one, f.check.two, next.four⟩⟩
      return (sa, st, ⟨r, rm, f.last, ⟨next.one, next.two, f.check.four⟩⟩)

/-- A merge that does not need a further division (sssort.c:676-679, 685-688), without `MERGE_CHECK`. -/
def swapDirect (T : List Nat) (pa depth buf bufsize : Nat) (sa : List Int) (f : MFrame) : Option (List Int) :=
  if f.last - f.middle ≤ bufsize then
    if f.first < f.middle ∧ f.middle < f.last then mergebackward T pa sa f.first f.middle f.last buf depth else some sa
  else
    if f.first < f.middle then mergeforward T pa sa f.first f.middle f.last buf depth else some sa

/-- `MERGE_CHECK(first, last, check)` and `STACK_POP` (sssort.c:680-681, 689-690, 731-732). -/
def swapDone (T : List Nat) (pa depth : Nat) (sa : List Int) (st : List MFrame) (f : MFrame) :
    Option (List Int × Option (List MFrame × MFrame)) := do
  let sa ← checkA T pa depth sa f.first f.check
  let sa ← checkB T pa depth sa f.last f.check
  return (sa, pop st)

/-- One round of the loop of `ss_swapmerge` (sssort.c:675-734): the array, and the stack and the frame to go on with unless the procedure returns. -/
def swapStep (T : List Nat) (pa depth buf bufsize : Nat) (sa : List Int) (st : List MFrame) (f : MFrame) :
    Option (List Int × Option (List MFrame × MFrame)) :=
  if f.last - f.middle ≤ bufsize ∨ f.middle - f.first ≤ bufsize then do
    let sa ← swapDirect T pa depth buf bufsize sa f
    swapDone T pa depth sa st f
  else do
    let len := min (f.middle - f.first) (f.last - f.middle)
    let m ← swapSearch T pa depth f.middle sa 0 len (len / 2)
    if 0 < m then
      let (sa, st, g) ← swapSplit sa st f m
      return (sa, some (st, g))
    else
      let e ← eqPrev T pa depth sa f.middle
      let sa ← (if e then flip sa f.middle else some sa : Option _)
      swapDone T pa depth sa st f

/-- The loop of `ss_swapmerge` (sssort.c:675-734). -/
def swapLoop (T : List Nat) (pa depth buf bufsize : Nat) (sa : List Int) (st : List MFrame) (f : MFrame) : Option (List Int) := do
  let (sa, o) ← swapStep T pa depth buf bufsize sa st f
  match o with
  | none => return sa
  | some (st, f) => swapLoop T pa depth buf bufsize sa st f
partial_fixpoint

/-- `ss_swapmerge` (sssort.c:652-736). -/
def swapmerge (T : List Nat) (pa : Nat) (sa : List Int) (first middle last buf bufsize depth : Nat) : Option (List Int) :=
  swapLoop T pa depth buf bufsize sa [] ⟨first, middle, last, ⟨false, false, false⟩⟩

/-! ## `sssort` -/

/-- Lines 780-782 of sssort.c. -/
def mergeUp (T : List Nat) (pa depth curbuf curbufsize : Nat) (sa : List Int) (b k j : Nat) : Option (List Int) :=
  if j % 2 = 1 then
    if b < k then none
    else do
      let sa ← swapmerge T pa sa (b - k) b (b + k) curbuf curbufsize depth
      mergeUp T pa depth curbuf curbufsize sa (b - k) (2 * k) (j / 2)
  else some sa
partial_fixpoint

/-- Lines 771-783 of sssort.c: the array, `a` and `i`. -/
def blocks (T : List Nat) (pa depth middle last buf bufsize : Nat) (sa : List Int) (a i : Nat) : Option (List Int × Nat × Nat) :=
  if 1024 < middle - a then do
    let sa ← mintrosort T pa sa a (a + 1024) depth
    let curbufsize := last - (a + 1024)
    let sa ← (if curbufsize ≤ bufsize then mergeUp T pa depth buf bufsize sa a 1024 i
      else mergeUp T pa depth (a + 1024) curbufsize sa a 1024 i : Option _)
    blocks T pa depth middle last buf bufsize sa (a + 1024) (i + 1)
  else some (sa, a, i)
partial_fixpoint

/-- Lines 789-794 of sssort.c. -/
def mergeAll (T : List Nat) (pa depth middle buf bufsize : Nat) (sa : List Int) (a k i : Nat) : Option (List Int) :=
  if i ≠ 0 then
    if i % 2 = 1 then
      if a < k then none
      else do
        let sa ← swapmerge T pa sa (a - k) a middle buf bufsize depth
        mergeAll T pa depth middle buf bufsize sa (a - k) (2 * k) (i / 2)
    else mergeAll T pa depth middle buf bufsize sa a (2 * k) (i / 2)
  else some sa
partial_fixpoint

/-- Lines 763-770 of sssort.c: `middle`, `limit`, `buf` and `bufsize`. -/
def plan (first last buf bufsize : Nat) : Option (Nat × Nat × Nat × Nat) :=
  if bufsize < 1024 ∧ bufsize < last - first then do
    let limit ← isqrt (last - first)
    if bufsize < limit then
      let limit := min limit 1024
      if last < limit then none else return (last - limit, limit, last - limit, limit)
    else return (last, 0, buf, bufsize)
  else some (last, 0, buf, bufsize)

/-- Lines 763-802 of sssort.c. -/
def sortRange (T : List Nat) (pa : Nat) (sa : List Int) (first last buf bufsize depth : Nat) : Option (List Int) := do
  let (middle, limit, buf, bufsize) ← plan first last buf bufsize
  let (sa, a, i) ← blocks T pa depth middle last buf bufsize sa first 0
  let sa ← mintrosort T pa sa a middle depth
  let sa ← mergeAll T pa depth middle buf bufsize sa a 1024 i
  if limit ≠ 0 then
    let sa ← mintrosort T pa sa middle last depth
    inplacemerge T pa sa first middle last depth
  else return sa

/-- `ss_compare(T, &(PAi[0]), PA + v, depth)` (sssort.c:809), where `PAi[0]` is `p` and `PAi[1]` is `n - 2`. -/
def compareLast (T : List Nat) (sa : List Int) (pa p : Nat) (v : Int) (depth : Nat) : Option Int := do
  let p2 ← paAt sa pa v
  let n2 ← paAt sa pa (v + 1)
  if T.length < 2 then none else compareAt T (depth + p) (T.length - 2 + 2) (depth + p2) (n2 + 2)

/-- The loop of lines 808-812 of sssort.c, and line 813; `a` is `q + 1`. -/
def insertLast (T : List Nat) (pa depth last p : Nat) (i : Int) (sa : List Int) (q : Nat) : Option (List Int) :=
  if q + 1 < last then do
    let x ← sa[q + 1]?
    let go ← (if x < 0 then some true else (compareLast T sa pa p x depth).map (fun r => decide (0 < r)) : Option _)
    if go then
      let sa ← put sa q x
      insertLast T pa depth last p i sa (q + 1)
    else put sa q i
  else put sa q i
partial_fixpoint

/-- `sssort` (sssort.c:745-815). -/
def sssort (T : List Nat) (sa : List Int) (pa first last buf bufsize depth : Nat) (lastsuffix : Bool) : Option (List Int) := do
  if lastsuffix then
    let sa ← sortRange T pa sa (first + 1) last buf bufsize depth
    let i ← sa[first]?
    let p ← paAt sa pa i
    insertLast T pa depth last p i sa first
  else sortRange T pa sa first last buf bufsize depth

end Bwtc.Ss
