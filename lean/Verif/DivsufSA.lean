import Verif.Divsuf

/-!
# The suffix array by divsufsort

Model of `construct_SA` and `divsufsort` (bwtransforms/divsufsort.c:194-256, 411-438; the declaration for users is in
divsufsort.h).  The types and the bucket macros are those of `Divsuf.lean`.
-/

set_option autoImplicit false

namespace Bwtc.Divsuf.SA
open Divsuf
open Sais (inv put loopDown loopUp)

/-- The array, the buckets, the pointer `k` with its character `c2` (`none` for -1): the variables of the first pass
(divsufsort.c:200-202). -/
structure First where
  sa : List Int
  bk : Buckets
  c2 : Option Nat
  k : Int

/-- Body of the loop over `j` (divsufsort.c:214-231). -/
def stepB (T : List Nat) (c1 : Nat) (s : First) (j : Int) : Option First := do
  let v ← getI s.sa j
  if 0 < v then
    let p := v.toNat
    let c ← T[p]?
    assert (c = c1)
    let d ← T[p + 1]?
    assert (c ≤ d)
    let c0 ← T[p - 1]?
    assert (c0 ≤ c)
    let sa ← putI s.sa j (inv v)
    let w ← markB T (p - 1) c0
    let k := (switchB s.bk s.c2 s.k c0 c1).2
    assert (k < j)
    let sa ← putI sa k w
    return ⟨sa, (switchB s.bk s.c2 s.k c0 c1).1, some c0, k - 1⟩
  else if v = 0 then
    let c ← T[0]?
    assert (c = c1)
    let sa ← putI s.sa j (inv v)
    return { s with sa := sa }
  else
    let sa ← putI s.sa j (inv v)
    return { s with sa := sa }

/-- The loop over `j`, `d` times from `j` downwards (divsufsort.c:210-232). -/
def loopB (T : List Nat) (c1 : Nat) : Nat → Int → First → Option First
  | 0, _, s => some s
  | d + 1, j, s => do
    let s ← stepB T c1 s j
    loopB T c1 d (j - 1) s

/-- Body of the loop over `c1` (divsufsort.c:208-233). -/
def rowB (T : List Nat) (s : First) (c1 : Nat) : Option First :=
  let i := s.bk.star c1 (c1 + 1)
  let j := s.bk.A (c1 + 1) - 1
  loopB T c1 (j - i + 1).toNat j { s with c2 := none, k := 0 }

/-- The array, the buckets, the pointer `k` with its character `c2`: the variables of the second pass. -/
structure Second where
  sa : List Int
  bk : Buckets
  c2 : Nat
  k : Int

/-- `if((s == 0) || (T[s - 1] < c0)) { s = ~s; }` (divsufsort.c:244). -/
def markA (T : List Nat) (s c0 : Nat) : Option Int :=
  if s = 0 then some (inv s)
  else do
    let c ← T[s - 1]?
    return if c < c0 then inv s else s

/-- Body of the loop over `i` (divsufsort.c:241-255). -/
def stepA (T : List Nat) (s : Second) (i : Nat) : Option Second := do
  let v ← s.sa[i]?
  if 0 < v then
    let p := v.toNat
    let c ← T[p]?
    let c0 ← T[p - 1]?
    assert (c ≤ c0)
    let w ← markA T (p - 1) c0
    let k := (switchA s.bk s.c2 s.k c0).2
    assert (i < k)
    let sa ← putI s.sa k w
    return ⟨sa, (switchA s.bk s.c2 s.k c0).1, c0, k + 1⟩
  else
    assert (v < 0)
    let sa ← put s.sa i (inv v)
    return { s with sa := sa }

/-- The first pass, `if(0 < m)` (divsufsort.c:204-234). -/
def passB (T : List Nat) (k : Nat) (sa : List Int) (bk : Buckets) (m : Nat) : Option First :=
  if 0 < m then loopDown (rowB T) (k - 1) ⟨sa, bk, none, 0⟩ else some ⟨sa, bk, none, 0⟩

/-- `construct_SA` (divsufsort.c:194-256) for an alphabet of `k` characters. -/
def constructSA (T : List Nat) (k : Nat) (sa : List Int) (bk : Buckets) (m : Nat) : Option (List Int) := do
  let n := T.length
  let s ← passB T k sa bk m
  if n < 2 then none
  else
    let c2 ← T[n - 1]?
    let c ← T[n - 2]?
    let p := s.bk.A c2
    let sa ← putI s.sa p (if c < c2 then inv (n - 1 : Nat) else (n - 1 : Nat))
    let s ← loopUp (stepA T) n 0 ⟨sa, s.bk, c2, p + 1⟩
    return s.sa

/-- `divsufsort(T, SA, n)` (divsufsort.c:411-438) with `mem` in the `n` cells of `SA`: what they hold in the end.  The pointers
are not null and the allocations are assumed to succeed. -/
def divsufsort (ss : SsSort) (tr : TrSort) (T : List UInt8) (mem : List Int) : Option (List Int) :=
  match T with
  | [] => some mem
  | [_] => put mem 0 0
  | [a, b] =>
    let m := if a < b then 1 else 0
    do
      let sa ← put mem (m ^^^ 1) 0
      put sa m 1
  | a :: b :: c :: t => do
    let T := a :: b :: c :: t
    if mem.length ≠ T.length then none
    else
      let (sa, bk, m) ← sortTypeBstar ss tr (T.map UInt8.toNat) 256 mem
      constructSA (T.map UInt8.toNat) 256 sa bk m

end Bwtc.Divsuf.SA
