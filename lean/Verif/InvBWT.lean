import Verif.BWT

/-!
# Model of the inverse Burrows-Wheeler transform

`MtlSaInverseBWTransform` (bwtransforms/MtlSaInverseBWT.cpp) on a little-endian
machine.  Simplifications: the `uint32` counters do not wrap (a block has fewer
than 2^32 bytes); the interleaved array `data` is split into the list of the LF²
values and the list of the character pairs (`layout_disjoint` below shows that the
interleaving keeps all entries apart); the unaligned two-byte stores through
`dest_ptr` are two byte stores.  Reads and writes outside an array are `none`.
-/

set_option autoImplicit false

namespace Bwtc.InvBWT

/-- `++array[k]` for an array of counters, seen as a function of its index.  Used
for `count` (257 cells), `rank` (257 cells) and `pairs_count` (65537 cells); all
indices are formed from one or two characters and therefore in range, except the
one of `advance`, which is checked there. -/
def bump (f : Nat → Nat) (k : Nat) : Nat → Nat := fun j => if j = k then f j + 1 else f j

/-- `std::partial_sum(first, last, first)` (MtlSaInverseBWT.cpp:76, 197). -/
def psum (f : Nat → Nat) : Nat → Nat
  | 0 => f 0
  | k + 1 => psum f k + f (k + 1)

/-- Counting the characters (MtlSaInverseBWT.cpp:55-56, 66-75). -/
def countRaw (b : List UInt8) (e : Nat) : Nat → Nat :=
  b.zipIdx.foldl (fun f cp => if cp.2 ≠ e then bump f (cp.1.toNat + 1) else f)
    (fun k => if k = 0 then 1 else 0)

/-- The loop `while (count_ptr[first_column_ch + 1] <= position)
++first_column_ch` (MtlSaInverseBWT.cpp:121-123, 138-140); `none`: outside of the
257 counters. -/
def advance (count : Nat → Nat) (p first : Nat) : Option Nat :=
  if first + 1 > 256 then none
  else if count (first + 1) ≤ p then advance count p (first + 1)
  else some first
termination_by 257 - first

/-- State of the scan over the rows (MtlSaInverseBWT.cpp:81-142): `pairs` holds the
two bytes of every stored pair in memory order. -/
structure Scan where
  rank : Nat → Nat
  pairs : List (UInt8 × UInt8)
  pcount : Nat → Nat
  first : Nat
  second : Nat

/-- One row of the scan (MtlSaInverseBWT.cpp:91-104 for row 0, 126-127 for the
end-of-block row, 108-125 and 128-142 for the others). -/
def scanRow (count : Nat → Nat) (b : List UInt8) (e : Nat) (st : Scan) (p : Nat) :
    Option Scan := do
  if p = e then
    let b0 ← b[0]?
    return { st with pairs := st.pairs ++ [(0, b0)] }
  else
    let cur ← b[p]?
    let lf := st.rank cur.toNat
    let prev ← b[lf]?
    let st := { st with rank := bump st.rank cur.toNat, pairs := st.pairs ++ [(cur, prev)] }
    if p = 0 then return st
    else
      let first ← advance count p st.first
      return { st with
        second := if lf = e then p else st.second
        first := first
        pcount := bump st.pcount (first * 256 + cur.toNat + 1) }

/-- `std::swap(array[i], array[j])`. -/
def swapAt (f : Nat → Nat) (i j : Nat) : Nat → Nat :=
  fun k => if k = i then f j else if k = j then f i else f k

/-- The index pairs of the two nested loops (MtlSaInverseBWT.cpp:144-145). -/
def swapPairs : List (Nat × Nat) :=
  (List.range 256).flatMap fun low =>
    ((List.range 256).filter fun high => decide (low < high)).map fun high => (low, high)

/-- Transposing `pairs_count` (MtlSaInverseBWT.cpp:143-149). -/
def transpose (f : Nat → Nat) : Nat → Nat :=
  swapPairs.foldl (fun f lh => swapAt f (lh.1 * 256 + lh.2 + 1) (lh.2 * 256 + lh.1 + 1)) f

/-- One row of the computation of LF² (MtlSaInverseBWT.cpp:208-215, 220-227,
235-242). -/
def fillRow (pairs : List (UInt8 × UInt8)) (e second lf0 : Nat)
    (st : (Nat → Nat) × List Nat) (p : Nat) : Option ((Nat → Nat) × List Nat) := do
  if p = e then return (st.1, st.2 ++ [lf0])
  else if p = second then return (st.1, st.2 ++ [0])
  else
    let pr ← pairs[p]?
    let q := pr.1.toNat + pr.2.toNat * 256
    return (bump st.1 q, st.2 ++ [st.1 q])

/-- `computeData` (MtlSaInverseBWT.cpp:41-244): the LF² values and the pairs of all
rows.  An end-of-block row 0 or outside of the data is `none`: then the code's
pair pointer is misplaced or it writes outside of the array. -/
def computeData (b : List UInt8) (e : Nat) : Option (List Nat × List (UInt8 × UInt8)) := do
  if e = 0 ∨ b.length ≤ e then none
  else
    let count := psum (countRaw b e)
    let b0 ← b[0]?
    let lf0 := count b0.toNat
    let st ← (List.range b.length).foldlM (scanRow count b e) ⟨count, [], fun _ => 0, 0, 0⟩
    let pc := bump (bump (transpose st.pcount) 0) (b0.toNat * 256)
    let fl ← (List.range b.length).foldlM (fillRow st.pairs e st.second lf0) (psum pc, [])
    return (fl.2, st.pairs)

/-- Storing one byte of the result; `none`: outside of the block. -/
def put (buf : List UInt8) (k : Nat) (v : UInt8) : Option (List UInt8) :=
  if k < buf.length then some (buf.set k v) else none

/-- Current rows, destinations and result buffer.  `dest` is the address plus one,
because `dest_ptr[0]` starts one byte before the block
(MtlSaInverseBWT.cpp:287-290). -/
structure Walk where
  pos : List Nat
  dest : List Nat
  buf : List UInt8

/-- Reading the entries of a row (MtlSaInverseBWT.cpp:294-298). -/
def fetch (t : List Nat × List (UInt8 × UInt8)) (p : Nat) : Option (Nat × UInt8 × UInt8) := do
  let nx ← t.1[p]?
  let pr ← t.2[p]?
  return (nx, pr.1, pr.2)

/-- Restoring one pair of block `id` (MtlSaInverseBWT.cpp:314-320, 342-348). -/
def emit (t : List Nat × List (UInt8 × UInt8)) (st : Walk) (id : Nat) : Option Walk := do
  let p ← st.pos[id]?
  let (nx, lo, hi) ← fetch t p
  let d ← st.dest[id]?
  if d = 0 then none
  else
    let buf ← put st.buf (d - 1) lo
    let buf ← put buf d hi
    return ⟨st.pos.set id nx, st.dest.set id (d + 2), buf⟩

/-- Restoring the first pair of block `id` (MtlSaInverseBWT.cpp:293-308). -/
def emitFirst (t : List Nat × List (UInt8 × UInt8)) (st : Walk) (id : Nat) : Option Walk := do
  if id = 0 then
    let p ← st.pos[0]?
    let (nx, _, hi) ← fetch t p
    let d ← st.dest[0]?
    let buf ← put st.buf 0 hi
    return ⟨st.pos.set 0 nx, st.dest.set 0 (d + 2), buf⟩
  else emit t st id

/-- The main loop (MtlSaInverseBWT.cpp:312-322). -/
def rounds (t : List Nat × List (UInt8 × UInt8)) (sp : Nat) : Nat → Walk → Option Walk
  | 0, st => some st
  | k + 1, st => do
    let st ← (List.range sp).foldlM (emit t) st
    rounds t sp k st

/-- The last character of an odd block (MtlSaInverseBWT.cpp:328-335). -/
def emitOdd (t : List Nat × List (UInt8 × UInt8)) (bs : Nat) (st : Walk) (id : Nat) :
    Option Walk := do
  let p ← st.pos[id]?
  let (_, lo, _) ← fetch t p
  if (id + 1) * bs < 2 then none
  else
    let buf ← put st.buf ((id + 1) * bs - 2) lo
    return { st with buf := buf }

/-- The rest of the last block (MtlSaInverseBWT.cpp:341-359). -/
def tail (t : List Nat × List (UInt8 × UInt8)) (id total : Nat) (index : Nat) (st : Walk) :
    Option Walk := do
  if index + 1 < total then
    let st ← emit t st id
    tail t id total (index + 2) st
  else if index ≠ total then
    let p ← st.pos[id]?
    let (_, lo, _) ← fetch t p
    let buf ← put st.buf (total - 1) lo
    return { st with buf := buf }
  else return st
termination_by total - index

/-- `MtlSaInverseBWTransform::doTransform` (MtlSaInverseBWT.cpp:246-362).  `b` is the
transform with the end-of-block row, `lf` the starting rows; the result has the
same length.  The two asserts are preconditions: `none`. -/
def inverse (b : List UInt8) (lf : List Nat) : Option (List UInt8) := do
  if b.length < 2 then none
  else
    let e ← lf[0]?
    let t ← computeData b e
    let bs0 := b.length / lf.length
    let (sp, bs) := if bs0 ≤ 1 then (1, b.length) else (lf.length, bs0)
    let st : Walk := ⟨lf, (List.range sp).map (fun i => i * bs), b⟩
    let st ← (List.range sp).foldlM (emitFirst t) st
    let st ← rounds t sp (bs / 2 - 1) st
    let st ← if bs % 2 = 1 then (List.range (sp - 1)).foldlM (emitOdd t bs) st else some st
    let st ← tail t (sp - 1) (b.length - 1) ((sp - 1) * bs + 2 * (bs / 2) - 1) st
    return st.buf

/-- `InverseBWTransform::doTransform(BWTBlock&)` (InverseBWT.cpp:47-51): the block
`data` followed by one more byte `next` of memory; the result is the new content
of the block and of that byte. -/
def inverseBlock (data : List UInt8) (next : UInt8) (lf : List Nat) :
    Option (List UInt8 × UInt8) := do
  let e ← lf[0]?
  let x ← (data ++ [next])[e]?
  let r ← inverse (data ++ [x]) lf
  let z ← r[data.length]?
  return (r.take data.length, z)

/-! ## Memory layout of `data` (MtlSaInverseBWT.cpp:262-267) -/

/-- The 32-bit cell holding LF²[i]. -/
def lfCell (i : Nat) : Nat := 3 * (i / 2) + 2 * (i % 2)

/-- The 16-bit cell holding pair `i`: half `i & 1` of the 32-bit cell
`3 * (i / 2) + 1`. -/
def pairCell (i : Nat) : Nat := 2 * (3 * (i / 2) + 1) + i % 2

theorem layout_disjoint (n : Nat) :
    (∀ i, i < n → lfCell i < 3 * ((n + 1) / 2) ∧ pairCell i / 2 < 3 * ((n + 1) / 2)) ∧
    (∀ i j, lfCell i = lfCell j → i = j) ∧ (∀ i j, pairCell i = pairCell j → i = j) ∧
    (∀ i j, lfCell i ≠ pairCell j / 2) ∧
    pairCell 0 = 2 ∧ (∀ i, pairCell (i + 1) = pairCell i + (1 + 4 * (i % 2))) ∧
    (∀ i, lfCell (i + 1) = lfCell i + (if i % 2 = 0 then 2 else 1)) := by
  refine ⟨?_, ?_, ?_, ?_, rfl, ?_, ?_⟩ <;> intros <;> (try split) <;>
    simp only [lfCell, pairCell] at * <;> omega

end Bwtc.InvBWT
