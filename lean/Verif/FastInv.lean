import Verif.InvBWT

/-!
# Model of `FastInverseBWTransform`

The second inverse of the Burrows-Wheeler transform (bwtransforms/InverseBWT.cpp:53-115), which the program offers instead of
`MtlSaInverseBWTransform` in a comment (InverseBWT.cpp:42-45).  It keeps 24 bits of every rank; the rest is found with a list of
milestones per character.  All `uint32` operations wrap.  Reads and writes outside an array are `none`.
-/

set_option autoImplicit false

namespace Bwtc.FastInv

open Bwtc.InvBWT

/-- State of the scan over the rows (InverseBWT.cpp:63-86): `ranks` is the written part of `bwt_rank_low24`, `miles` the array
`rank_milestone_buffer`, `count` the array `count` (257 cells; all indices are formed from characters). -/
structure Scan where
  ranks : List Nat
  miles : Nat → List Nat
  count : Nat → Nat

/-- One row of the scan (InverseBWT.cpp:76-89).  The entry of the end-of-block row is 0 (InverseBWT.cpp:63, 73). -/
def scanRow (b : List UInt8) (e : Nat) (st : Scan) (p : Nat) : Option Scan := do
  if p ≠ e then
    let c ← b[p]?
    let rank := st.count (c.toNat + 1)
    let low := rank % 2 ^ 24
    return {
      ranks := st.ranks ++ [(c.toNat * 2 ^ 24 % 2 ^ 32 + low) % 2 ^ 32]
      miles := fun k => if k = c.toNat ∧ low = 0 then st.miles k ++ [p] else st.miles k
      count := fun k => if k = c.toNat + 1 then (st.count k + 1) % 2 ^ 32 else st.count k }
  else return { st with ranks := st.ranks ++ [0] }

/-- `std::partial_sum` on `uint32` (InverseBWT.cpp:90). -/
def psum32 (f : Nat → Nat) : Nat → Nat
  | 0 => f 0
  | k + 1 => (psum32 f k + f (k + 1)) % 2 ^ 32

/-- The loop `while (rank_milestone_buffer[ch][rank_hi8 + 1] <= position) ++rank_hi8` (InverseBWT.cpp:106-107); `none`: outside of
the list. -/
def hiRank (miles : List Nat) (p hi : Nat) : Option Nat :=
  if h : hi + 1 < miles.length then
    if miles[hi + 1] ≤ p then hiRank miles p (hi + 1) else some hi
  else none
termination_by miles.length - hi

/-- The output loop (InverseBWT.cpp:97-109).  `miles` are the completed lists, `fuel` bounds the number of rounds. -/
def walk (ranks : List Nat) (miles : Nat → List Nat) (count : Nat → Nat) (e : Nat) : Nat → Nat → Nat → List UInt8 → Option (List UInt8)
  | 0, _, _, _ => none
  | fuel + 1, p, index, buf => do
    if p ≠ e then
      let x ← ranks[p]?
      let ch := x / 2 ^ 24
      let buf ← put buf index (UInt8.ofNat ch)
      let low := x % 2 ^ 24
      let hi ← hiRank (miles ch) p 0
      walk ranks miles count e fuel ((count ch + hi * 2 ^ 24 + low) % 2 ^ 32) (index + 1) buf
    else return buf

/-- `FastInverseBWTransform::doTransform` (InverseBWT.cpp:58-115).  `b` is the transform with the end-of-block row, `lf` the
starting rows, of which only the first is used.  A violated assertion (InverseBWT.cpp:91) is `none`; so are more rounds of the output loop than
there are rows, with which the code would write outside of the block. -/
def inverse (b : List UInt8) (lf : List Nat) : Option (List UInt8) := do
  let e ← lf[0]?
  if b.length ≤ e then none
  else
    let st ← (List.range b.length).foldlM (scanRow b e) ⟨[], fun _ => [], fun k => if k = 0 then 1 else 0⟩
    let count := psum32 st.count
    if count 256 ≠ b.length then none
    else walk st.ranks (fun k => st.miles k ++ [b.length]) count e b.length 0 0 b

/-- `InverseBWTransform::doTransform(BWTBlock&)` (InverseBWT.cpp:47-51) with this transformer: as `InvBWT.inverseBlock`. -/
def inverseBlock (data : List UInt8) (next : UInt8) (lf : List Nat) : Option (List UInt8 × UInt8) := do
  let e ← lf[0]?
  let x ← (data ++ [next])[e]?
  let r ← inverse (data ++ [x]) lf
  let z ← r[data.length]?
  return (r.take data.length, z)

end Bwtc.FastInv
