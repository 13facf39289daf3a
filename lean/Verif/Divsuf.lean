import Verif.SaisSort

/-!
# Suffix sorting by `divsufsort.c`

The parts of `divsufsort.c` (libdivsufsort 2) that are used by `divbwt` and `divbwtf`: counting of the types A, B and B*,
the buckets, the sorted order of the B* suffixes, and `construct_BWT`.  The two sorting procedures of the other files,
`sssort` (sssort.c) and `trsort` (trsort.c), are arguments of the model.

Texts are lists of numbers below the alphabet size `k` (`ALPHABET_SIZE`, 256).  The array `SA` has the `n` cells that belong
to the text; the cell `SA[n]` that `divbwt` also allocates is not part of the model, an access to it is an access outside of
the array.  Every access outside of an array is `none`.  `saidx_t` is modelled by unbounded integers.  Forming a pointer to
the cell in front of `SA` (divsufsort.c:274, 289, 346, 362) is not treated as an error, only using it is.

The code compiled without `_OPENMP` is modelled; an assertion that fails is `none`.
-/

set_option autoImplicit false

namespace Bwtc.Divsuf
open Sais (put inv loopUp loopDown)

/-- `*(A + i)`. -/
def getI (A : List Int) (i : Int) : Option Int := if 0 ≤ i then A[i.toNat]? else none

/-- `*(A + i) = v`. -/
def putI (A : List Int) (i v : Int) : Option (List Int) := if 0 ≤ i then put A i.toNat v else none

/-- `bucket_A` and `bucket_B` (divsufsort_private.h:185-192); `B hi lo` is `bucket_B[hi * ALPHABET_SIZE + lo]`.  All indices that
occur are characters, so that the tables can be functions.  -/
structure Buckets where
  A : Nat → Int
  B : Nat → Nat → Int

namespace Buckets

/-- `BUCKET_B(c0, c1)` (divsufsort_private.h:187). -/
def b (s : Buckets) (c0 c1 : Nat) : Int := s.B c1 c0

/-- `BUCKET_BSTAR(c0, c1)` (divsufsort_private.h:188). -/
def star (s : Buckets) (c0 c1 : Nat) : Int := s.B c0 c1

/-- `BUCKET_A(c) = v`. -/
def setA (s : Buckets) (c : Nat) (v : Int) : Buckets := { s with A := fun x => if x = c then v else s.A x }

/-- `bucket_B[hi * ALPHABET_SIZE + lo] = v`. -/
def set (s : Buckets) (hi lo : Nat) (v : Int) : Buckets :=
  { s with B := fun x y => if x = hi ∧ y = lo then v else s.B x y }

/-- `BUCKET_B(c0, c1) = v`. -/
def setB (s : Buckets) (c0 c1 : Nat) (v : Int) : Buckets := s.set c1 c0 v

/-- `BUCKET_BSTAR(c0, c1) = v`. -/
def setStar (s : Buckets) (c0 c1 : Nat) (v : Int) : Buckets := s.set c0 c1 v

end Buckets

/-- `for(i = i0; i < i0 + m; ++i)` without errors. -/
def forUp {σ : Type} (f : σ → Nat → σ) : Nat → Nat → σ → σ
  | 0, _, s => s
  | m + 1, i, s => forUp f m (i + 1) (f s i)

/-! ## `sort_typeBstar` -/

/-- The buckets, the array and `m` while counting. -/
structure Count where
  bk : Buckets
  sa : List Int
  m : Nat

/-- Lines 62-74 of divsufsort.c, after position `i` with character `c` has been counted as type A (`a`) or as type B or B*
(not `a`). -/
def count (T : List Nat) : Nat → Nat → Bool → Count → Option Count
  | 0, _, _, s => some s
  | i + 1, c, a, s => do
    let c0 ← T[i]?
    if a then
      if c ≤ c0 then
        -- type A suffix
        count T i c0 true { s with bk := s.bk.setA c0 (s.bk.A c0 + 1) }
      else if s.m = 0 then none
      else
        -- type B* suffix
        let sa ← put s.sa (s.m - 1) i
        count T i c0 false ⟨s.bk.setStar c0 c (s.bk.star c0 c + 1), sa, s.m - 1⟩
    else
      if c0 ≤ c then
        -- type B suffix
        count T i c0 false { s with bk := s.bk.setB c0 c (s.bk.b c0 c + 1) }
      else
        -- type A suffix
        count T i c0 true { s with bk := s.bk.setA c0 (s.bk.A c0 + 1) }

/-- Lines 56-75 of divsufsort.c. -/
def countAll (T : List Nat) (sa : List Int) : Option Count := do
  let n := T.length
  if n = 0 then none
  else
    let c ← T[n - 1]?
    let bk : Buckets := ⟨fun _ => 0, fun _ _ => 0⟩
    let s ← count T (n - 1) c true ⟨bk.setA c (bk.A c + 1), sa, n⟩
    return { s with m := n - s.m }

/-- Lines 88-90 of divsufsort.c: `i`, `j` and the buckets, for one `c1`. -/
def startsInner (c0 : Nat) (s : Int × Int × Buckets) (c1 : Nat) : Int × Int × Buckets :=
  let j := s.2.1 + s.2.2.star c0 c1
  let i := s.1 + s.2.2.b c0 c1
  (i, j, s.2.2.setStar c0 c1 j)

/-- Lines 84-91 of divsufsort.c, for one `c0`. -/
def startsOuter (k : Nat) (s : Int × Int × Buckets) (c0 : Nat) : Int × Int × Buckets :=
  let t := s.1 + s.2.2.A c0
  let bk := s.2.2.setA c0 (s.1 + s.2.1)
  let i := t + bk.b c0 c0
  forUp (startsInner c0) (k - 1 - c0) (c0 + 1) (i, s.2.1, bk)

/-- Lines 83-92 of divsufsort.c. -/
def starts (k : Nat) (bk : Buckets) : Buckets := (forUp (startsOuter k) k 0 (0, 0, bk)).2.2

/-- Lines 98-99 (and 101-102) of divsufsort.c. -/
def placeStar (T : List Nat) (m : Nat) (s : List Int × Buckets) (i : Nat) : Option (List Int × Buckets) := do
  let t ← getI s.1 (T.length - m + i : Nat)
  if t < 0 then none
  else
    let c0 ← T[t.toNat]?
    let c1 ← T[t.toNat + 1]?
    let r := s.2.star c0 c1 - 1
    let sa ← putI s.1 r i
    return (sa, s.2.setStar c0 c1 r)

/-- Lines 96-102 of divsufsort.c. -/
def placeStars (T : List Nat) (m : Nat) (sa : List Int) (bk : Buckets) : Option (List Int × Buckets) := do
  let s ← loopDown (placeStar T m) (m - 1) (sa, bk)
  placeStar T m s (m - 1)

/-- What `sssort(T, PAb, first, last, buf, bufsize, depth, n, lastsuffix)` does to the array: the text, the array, the indices
of `PAb`, `first`, `last` and `buf`, then `bufsize`, `depth` and `lastsuffix`. -/
abbrev SsSort := List Nat → List Int → Nat → Nat → Nat → Nat → Nat → Nat → Bool → Option (List Int)

/-- What `trsort(ISA, SA, n, depth)` does to the array: the array, the index of `ISA`, `n` and `depth`; `SA` is the array. -/
abbrev TrSort := List Int → Nat → Nat → Nat → Option (List Int)

/-- Lines 138-142 of divsufsort.c for one `c1 = c0 + 1 + d`; the state is `j` and the array. -/
def sortInner (ss : SsSort) (T : List Nat) (m : Nat) (bk : Buckets) (c0 : Nat) (s : Int × List Int) (d : Nat) :
    Option (Int × List Int) := do
  let i := bk.star c0 (c0 + 1 + d)
  if 1 < s.1 - i then
    let v ← getI s.2 i
    if i < 0 then none
    else
      let sa ← ss T s.2 (T.length - m) i.toNat s.1.toNat m (T.length - 2 * m) 2 (decide (v = (m : Int) - 1))
      return (i, sa)
  else return (i, s.2)

/-- Lines 136-144 of divsufsort.c, `c0 = c - 1`; `c0 = -1` would be an access outside of the table. -/
def sortOuter (ss : SsSort) (T : List Nat) (k m : Nat) (bk : Buckets) : Nat → Int × List Int → Option (Int × List Int)
  | c, s =>
    if 0 < s.1 then
      match c with
      | 0 => none
      | c0 + 1 => do
        let s ← loopDown (sortInner ss T m bk c0) (k - 1 - c0) s
        sortOuter ss T k m bk c0 s
    else some s

/-- Where the loops of lines 148-158 are: at the beginning of the outer loop, inside a run of single substrings or
inside a group of equal substrings, that end with cell `j`. -/
inductive Mode where
  | start
  | single (j : Nat)
  | group (j : Nat)

/-- `ISAb[v] = j`. -/
def putRank (m : Nat) (sa : List Int) (v : Int) (j : Nat) : Option (List Int) :=
  if 0 ≤ v then put sa (m + v.toNat) j else none

/-- Line 156 of divsufsort.c: `ISAb[SA[i] = ~SA[i]] = j`. -/
def flipRank (m : Nat) (sa : List Int) (i : Nat) (v : Int) (j : Nat) : Option (List Int) := do
  let sa ← put sa i (inv v)
  putRank m sa (inv v) j

/-- Lines 148-158 of divsufsort.c, before cell `i - 1` is looked at. -/
def ranks (m : Nat) : Nat → Mode → List Int → Option (List Int)
  | 0, .start, sa => some sa
  | 0, .single j, sa => put sa 0 (-1 - (j : Int))
  | 0, .group _, _ => none
  | i + 1, .start, sa => do
    let v ← sa[i]?
    if 0 ≤ v then
      let sa ← putRank m sa v i
      ranks m i (.single i) sa
    else
      let sa ← flipRank m sa i v i
      ranks m i (.group i) sa
  | i + 1, .single j, sa => do
    let v ← sa[i]?
    if 0 ≤ v then
      let sa ← putRank m sa v i
      ranks m i (.single j) sa
    else
      let sa ← put sa (i + 1) ((i : Int) - j)
      if i = 0 then some sa
      else
        let sa ← flipRank m sa i v i
        ranks m i (.group i) sa
  | i + 1, .group j, sa => do
    let v ← sa[i]?
    if v < 0 then
      let sa ← flipRank m sa i v j
      ranks m i (.group j) sa
    else
      let sa ← putRank m sa v j
      ranks m i .start sa

/-- Line 169 of divsufsort.c: `SA[ISAb[--j]] = ((t == 0) || (1 < (t - i))) ? t : ~t`; the state is the array and `j`. -/
def setOne (m t : Nat) (i : Int) (s : List Int × Nat) : Option (List Int × Nat) := do
  if s.2 = 0 then none
  else
    let r ← s.1[m + (s.2 - 1)]?
    let sa ← putI s.1 r (if t = 0 ∨ 1 < (t : Int) - i then (t : Int) else inv t)
    return (sa, s.2 - 1)

/-- Lines 164-171 of divsufsort.c, after position `i` with character `c`; `b`: the B* position before which the loop of
line 168 is, `none` in the loop of line 165. -/
def setOrder (T : List Nat) (m : Nat) : Nat → Nat → Option Nat → List Int × Nat → Option (List Int × Nat)
  | 0, _, none, s => some s
  | 0, _, some t, s => setOne m t (-1) s
  | i + 1, c, none, s => do
    let c0 ← T[i]?
    if c ≤ c0 then setOrder T m i c0 none s
    else setOrder T m i c0 (some i) s
  | i + 1, c, some t, s => do
    let c0 ← T[i]?
    if c0 ≤ c then setOrder T m i c0 (some t) s
    else
      let s ← setOne m t i s
      setOrder T m i c0 none s

/-- `for(; j <= k; --i, --k) { SA[i] = SA[k]; }` (lines 182-184 of divsufsort.c), `d` times; the result is `SA`, `i` and `k`. -/
def moveDown : Nat → List Int × Int × Int → Option (List Int × Int × Int)
  | 0, s => some s
  | d + 1, s => do
    let v ← getI s.1 s.2.2
    let sa ← putI s.1 s.2.1 v
    moveDown d (sa, s.2.1 - 1, s.2.2 - 1)

/-- The array, `i`, `k` and the buckets in lines 174-188. -/
structure Move where
  sa : List Int
  i : Int
  k : Int
  bk : Buckets

/-- Lines 178-184 of divsufsort.c for one `c1 = c0 + 1 + d`. -/
def moveInner (c0 : Nat) (s : Move) (d : Nat) : Option Move := do
  let c1 := c0 + 1 + d
  let t := s.i - s.bk.b c0 c1
  let bk := s.bk.setB c0 c1 s.i
  let (sa, i, k) ← moveDown (s.k - bk.star c0 c1 + 1).toNat (s.sa, t, s.k)
  return ⟨sa, i, k, bk⟩

/-- Lines 176-187 of divsufsort.c for one `c0`. -/
def moveOuter (k : Nat) (s : Move) (c0 : Nat) : Option Move := do
  let s ← loopDown (moveInner c0) (k - 1 - c0) { s with i := s.bk.A (c0 + 1) - 1 }
  let bk := s.bk.setStar c0 (c0 + 1) (s.i - s.bk.b c0 c0 + 1)
  return { s with bk := bk.setB c0 c0 s.i }

/-- Lines 174-188 of divsufsort.c. -/
def moveStars (n k m : Nat) (sa : List Int) (bk : Buckets) : Option (List Int × Buckets) := do
  let bk := bk.setB (k - 1) (k - 1) n
  let s ← loopDown (moveOuter k) (k - 1) ⟨sa, 0, (m : Int) - 1, bk⟩
  return (s.sa, s.bk)

/-- `sort_typeBstar` (divsufsort.c:37-192): the array, the buckets and `m`. -/
def sortTypeBstar (ss : SsSort) (tr : TrSort) (T : List Nat) (k : Nat) (sa : List Int) :
    Option (List Int × Buckets × Nat) := do
  let s ← countAll T sa
  let m := s.m
  let bk := starts k s.bk
  if 0 < m then
    let (sa, bk) ← placeStars T m s.sa bk
    let (_, sa) ← sortOuter ss T k m bk (k - 1) ((m : Int), sa)
    let sa ← ranks m m .start sa
    let sa ← tr sa m m 1
    let c ← T[T.length - 1]?
    let (sa, _) ← setOrder T m (T.length - 1) c none (sa, m)
    let (sa, bk) ← moveStars T.length k m sa bk
    return (sa, bk, m)
  else return (s.sa, bk, m)

/-! ## `construct_BWT` -/

/-- `if((n - s) % x == 0 && s >= y+1) LFpowers[(n-s)/x] = row` (divsufsort.c:350, 381 and 390) in `construct_BWT`, nothing in
`construct_BWT_orig`.  `none` also for the remainder by zero. -/
def note (n : Nat) (xy : Option (Nat × Nat)) (lf : List Nat) (row s : Nat) : Option (List Nat) :=
  match xy with
  | some (x, y) => if x = 0 then none else FwdBWT.record n x y lf row s
  | none => some lf

/-- `assert(b)`. -/
def assert (b : Bool) : Option Unit := if b then some () else none

/-- The array, the buckets, the pointer `k` with its character `c2` (`none` for -1), the starting points. -/
structure PassB where
  sa : List Int
  bk : Buckets
  c2 : Option Nat
  k : Int
  lf : List Nat

/-- `if(c0 != c2) { if(0 <= c2) { BUCKET_B(c2, c1) = k - SA; } k = SA + BUCKET_B(c2 = c0, c1); }` (divsufsort.c:357-360); the
buckets and `k`. -/
def switchB (bk : Buckets) (c2 : Option Nat) (k : Int) (c0 c1 : Nat) : Buckets × Int :=
  match c2 with
  | none => (bk, bk.b c0 c1)
  | some c => if c0 = c then (bk, k) else ((bk.setB c c1 k), (bk.setB c c1 k).b c0 c1)

/-- `((0 < s) && (T[s - 1] > c0)) ? ~s : s` (divsufsort.c:356). -/
def markB (T : List Nat) (s c0 : Nat) : Option Int :=
  if 0 < s then do
    let c ← T[s - 1]?
    return if c0 < c then inv s else s
  else some s

/-- Body of the loop over `j` (divsufsort.c:349-369, and 277-295 in `construct_BWT_orig`). -/
def stepB (T : List Nat) (xy : Option (Nat × Nat)) (c1 : Nat) (s : PassB) (j : Int) : Option PassB := do
  let v ← getI s.sa j
  if 0 < v then
    let p := v.toNat
    let lf ← note T.length xy s.lf j.toNat p
    let c ← T[p]?
    assert (c = c1)
    let d ← T[p + 1]?
    assert (c ≤ d)
    let c0 ← T[p - 1]?
    assert (c0 ≤ c)
    let sa ← putI s.sa j (inv c0)
    let w ← markB T (p - 1) c0
    let k := (switchB s.bk s.c2 s.k c0 c1).2
    assert (k < j)
    let sa ← putI sa k w
    return ⟨sa, (switchB s.bk s.c2 s.k c0 c1).1, some c0, k - 1, lf⟩
  else if v ≠ 0 then
    let sa ← putI s.sa j (inv v)
    return { s with sa := sa }
  else
    let c ← T[0]?
    assert (c = c1)
    return s

/-- The loop over `j`, `d` times from `j` downwards. -/
def loopB (T : List Nat) (xy : Option (Nat × Nat)) (c1 : Nat) : Nat → Int → PassB → Option PassB
  | 0, _, s => some s
  | d + 1, j, s => do
    let s ← stepB T xy c1 s j
    loopB T xy c1 d (j - 1) s

/-- Body of the loop over `c1` (divsufsort.c:343-371). -/
def rowB (T : List Nat) (xy : Option (Nat × Nat)) (s : PassB) (c1 : Nat) : Option PassB :=
  let i := s.bk.star c1 (c1 + 1)
  let j := s.bk.A (c1 + 1) - 1
  loopB T xy c1 (j - i + 1).toNat j { s with c2 := none, k := 0 }

/-- The array, the buckets, the pointer `k` with its character `c2`, the starting points and `orig`. -/
structure PassA where
  sa : List Int
  bk : Buckets
  c2 : Nat
  k : Int
  lf : List Nat
  orig : Nat

/-- `if(c0 != c2) { BUCKET_A(c2) = k - SA; k = SA + BUCKET_A(c2 = c0); }` (divsufsort.c:385-388). -/
def switchA (bk : Buckets) (c2 : Nat) (k : Int) (c0 : Nat) : Buckets × Int :=
  if c0 = c2 then (bk, k) else (bk.setA c2 k, (bk.setA c2 k).A c0)

/-- `if((0 < s) && (T[s - 1] < c0)) { ... s = ~((saidx_t)T[s - 1]); }` (divsufsort.c:389-392): the new `s` and the starting
points. -/
def markA (T : List Nat) (xy : Option (Nat × Nat)) (lf : List Nat) (k : Int) (s c0 : Nat) : Option (Int × List Nat) :=
  if 0 < s then do
    let c ← T[s - 1]?
    if c < c0 then
      let lf ← note T.length xy lf k.toNat s
      return (inv c, lf)
    else return ((s : Int), lf)
  else some ((s : Int), lf)

/-- Body of the loop over `i` (divsufsort.c:380-401, and 307-322 in `construct_BWT_orig`). -/
def stepA (T : List Nat) (xy : Option (Nat × Nat)) (s : PassA) (i : Nat) : Option PassA := do
  let v ← s.sa[i]?
  if 0 < v then
    let p := v.toNat
    let lf ← note T.length xy s.lf i p
    let c ← T[p]?
    let c0 ← T[p - 1]?
    assert (c ≤ c0)
    let sa ← put s.sa i c0
    let k := (switchA s.bk s.c2 s.k c0).2
    let (w, lf) ← markA T xy lf k (p - 1) c0
    assert (i < k)
    let sa ← putI sa k w
    return ⟨sa, (switchA s.bk s.c2 s.k c0).1, c0, k + 1, lf, s.orig⟩
  else if v ≠ 0 then
    let sa ← put s.sa i (inv v)
    return { s with sa := sa }
  else return { s with orig := i }

/-- The first pass, `if(0 < m)` (divsufsort.c:340-372, and 268-299 in `construct_BWT_orig`). -/
def passB (T : List Nat) (k : Nat) (xy : Option (Nat × Nat)) (sa : List Int) (bk : Buckets) (m : Nat) (lf : List Nat) :
    Option PassB :=
  if 0 < m then loopDown (rowB T xy) (k - 1) ⟨sa, bk, none, 0, lf⟩ else some ⟨sa, bk, none, 0, lf⟩

/-- `construct_BWT` (divsufsort.c:328-404) and `construct_BWT_orig` (258-326, `xy = none`): the array, the starting points and the
result. -/
def constructBWT (T : List Nat) (k : Nat) (xy : Option (Nat × Nat)) (sa : List Int) (bk : Buckets) (m : Nat)
    (lf : List Nat) : Option (List Int × List Nat × Nat) := do
  let n := T.length
  let s ← passB T k xy sa bk m lf
  if n < 2 then none
  else
    let c2 ← T[n - 1]?
    let c ← T[n - 2]?
    let p := s.bk.A c2
    let sa ← putI s.sa p (if c < c2 then inv c else (n - 1 : Nat))
    let s ← loopUp (stepA T xy) n 0 ⟨sa, s.bk, c2, p + 1, s.lf, 0⟩
    return (s.sa, s.lf, s.orig)

/-! ## `divbwtf` -/

/-- `divbwtf(T, T, 0, n, LFpowers, nLFpowers, freqs)` (divsufsort.c:480-522) with the allocated array holding `mem`; the first
`n` cells are used.  The allocations are assumed to succeed. -/
def divbwtf (ss : SsSort) (tr : TrSort) (T : List UInt8) (mem : List Int) (lf freqs : List Nat) :
    Option (List UInt8 × List Nat × List Nat) := do
  if T.length ≤ 1 then return (T, lf, freqs)
  else
    let n := T.length
    let t := T.map UInt8.toNat
    let (sa, bk, m) ← sortTypeBstar ss tr t 256 (mem.take n)
    let xy := if 1 < lf.length then some (n / lf.length, n - n / lf.length * lf.length) else none
    let (sa, lf, pidx) ← constructBWT t 256 xy sa bk m lf
    if lf.length = 0 then none
    else
      let (u, freqs) ← Sais.writeOut pidx 0 T sa freqs
      return (u, lf.set 0 pidx, freqs)

/-- `Divsufsorter::doTransform` called from `BWTransform::doTransform` (Divsufsorter.hpp:60-65, BWTransform.cpp:52-64) on the memory `mem`
holding the block at `[pos, pos + len)`, as in `FwdBWT.transform`; `cells` is what the allocated array holds. -/
def transform (ss : SsSort) (tr : TrSort) (cells : List Int) (mem : List UInt8) (pos len starts : Nat) (freqs : List Nat) :
    Option (List UInt8 × List Nat × List Nat) := do
  let block := (mem.drop pos).take len
  let mem := FwdBWT.blit mem pos block.reverse
  let next ← mem[pos + len]?
  let mem := mem.set (pos + len) 0
  let (u, lf, freqs) ← divbwtf ss tr ((mem.drop pos).take (len + 1)) cells (FwdBWT.prepare len starts) freqs
  let mem := FwdBWT.blit mem pos u
  let p0 ← lf[0]?
  let last ← mem[pos + len]?
  let _ ← mem[pos + p0]?
  let mem := mem.set (pos + p0) last
  return (mem.set (pos + len) next, lf, freqs)

end Bwtc.Divsuf
