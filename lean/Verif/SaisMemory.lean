import Verif.MemoryProof
import Verif.SaisHeap

/-!
# The memory of the compressor with the other sorter

`--bwt s` (compress.cpp:123-125) makes the compressor sort with SA-IS instead of divsufsort (BWTransform.cpp:66-76).  This file is `Memory` with the arrays of that
sorter.  Every request is granted here; `SaisHeap` has the runs in which one is refused.
-/

set_option autoImplicit false

namespace Bwtc.SaisMemory
open Container PairReplace FreqTable Memory

/-- What SA-IS is given for a slice (BWTransform.cpp:52-57): the bytes from behind and a zero. -/
def sortedText (s : List UInt8) : List Nat := s.reverse.map UInt8.toNat ++ [0]

/-- `SAISBWTransform::doTransform` (SA-IS-bwt.cpp:47-54): the vector `SA`, then the heap of `saisxx_bwt` (sais.hxx:805-830), which is not
left early for a text of one byte (line 815 does not return).  `int` has 4 bytes.  The requests of `suffixsort` one by one are those of `sortHeap`; here they are one array of the size that all of them together reach. -/
def saisEvents (s : List UInt8) : Option (List Ev) := do
  let T := sortedText s
  let n := T.length
  let (_, h) ← Sais.sortHeap (fun _ => true) n T (List.replicate n 0) 256 Sais.Heap.empty
  return [.take (n * 4), .take (h.peak * 4), .give (h.peak * 4), .give (n * 4)]

/-- Transforming and encoding the slices (Compressor.cpp:108-111). -/
def sliceEvents (letter : UInt8) : List (List UInt8) → Option (List Ev)
  | [] => some []
  | s :: sl => do
    let a ← saisEvents s
    let r ← sliceEvents letter sl
    return a ++ coderEvents letter s.length ++ r

/-- A round of the loop of `compress` (Compressor.cpp:86-114), as `Memory.blockEvents`. -/
def blockEvents (o : Options) (e : Env) (bwt : Nat) (data : List UInt8) : Option (List Ev × Nat) := do
  let (b, bwt) ← frontBlock o e bwt data
  let pre ← preEvents o e data b.out.length
  let sl ← sliceEvents o.letter b.slices
  return (readEvents (pbBlock o) data.length ++ pre ++ sl ++ [.give (b.out.length + 1)], bwt)

/-- The loop of `compress` (Compressor.cpp:84-114), as `Memory.loopEvents`. -/
def loopEvents (o : Options) (e : Env) : Nat → Nat → List UInt8 → Option (List Ev)
  | 0, _, _ => none
  | f + 1, bwt, input =>
    if (input.take (pbBlock o)).length = 0 then some (readEvents (pbBlock o) 0 ++ [.give 1])
    else do
      let (a, bwt) ← blockEvents o e bwt (input.take (pbBlock o))
      let r ← loopEvents o e f bwt (input.drop (pbBlock o))
      return a ++ r

/-- The arrays allocated and released by `compress(1)` (Compressor.cpp:65-118) with `--bwt s`. -/
def events (o : Options) (e : Env) (input : List UInt8) : Option (List Ev) := loopEvents o e (input.length + 1) (bwtBlock0 o) input

end Bwtc.SaisMemory
