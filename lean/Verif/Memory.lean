import Verif.ContainerSort

/-!
# The memory of the compressor

The help text calls the option `mem` the "Maximum memory to use" (compress.cpp:113-114).  This file lists the arrays that the compressor allocates on the heap and
releases again, in order: the block, the circular buffer and the temporary array of the preprocessing, the suffix array and the buckets of
divsufsort, the runs of the Huffman coder.  Not counted: objects of a fixed size on the stack, vectors with at most 65536 entries, the two buffers of
the streams, the nodes of the wavelet tree.  The sorter is divsufsort (the default).
-/

set_option autoImplicit false

namespace Bwtc.Memory
open Container PairReplace FreqTable

/-- Allocating and releasing an array of so many bytes. -/
inductive Ev
  | take (bytes : Nat)
  | give (bytes : Nat)
deriving DecidableEq, Repr

/-! ## Model -/

/-- Reading a block: the constructor of `PrecompressorBlock` (PrecompressorBlock.cpp:41-49) reserves room for a whole block and
shrinks it (`realloc`) to what was read. -/
def readEvents (maxSize read : Nat) : List Ev := [.take (maxSize + 1), .give (maxSize + 1), .take (read + 1)]

/-- `setSize` (PrecompressorBlock.cpp:55-62): the array is resized (`realloc`) if the size changes. -/
def resizeEvents (used size : Nat) : List Ev := if used ≠ size then [.give (used + 1), .take (size + 1)] else []

/-- `divbwtf` (divsufsort.c:481-521) behind `BWTransform::doTransform` (BWTransform.cpp:52-57), which adds a byte to the slice: `saidx_t` has 4
bytes, the buckets 256 and 65536 entries (divsufsort_private.h). -/
def sortEvents (len : Nat) : List Ev :=
  let n := len + 1
  if n ≤ 1 then []
  else [.take ((n + 1) * 4), .take (256 * 4), .take (65536 * 4), .give (65536 * 4), .give (256 * 4), .give ((n + 1) * 4)]

/-- `HuffmanEncoder::encodeData` (HuffmanCoders.cpp:126-127, 255-256): `runseq` and `runlen`.  Nothing is counted for the other coders. -/
def coderEvents (letter : UInt8) (len : Nat) : List Ev :=
  if letter = 72 then [.take len, .take (len * 4), .give len, .give (len * 4)] else []

/-- The loop of `precompress` (Precompressor.cpp:76-106) as `PairReplace.rounds`, with its events: the temporary array (line 80), or the
circular buffer of `writeReplacedVersion` (PairReplacer.cpp:326, Utils.hpp:50-54). -/
def roundsLog (mk : (UInt8 → Nat) → FT) (beyond : Option Nat) (small : Nat → Bool) (oldLength : Nat) :
    Nat → Pre → Option (List Ev × Pre)
  | 0, s => some ([], s)
  | k + 1, s => do
    let made := s.tmp.isNone && small s.length
    let tmp := if made then some (List.replicate (s.length + 1) 0) else s.tmp
    match tmp with
    | none =>
      let (g, R, common) ← round mk beyond s.g (s.block.take s.length)
      let (block, length) ← writeInPlace R common s.block s.length
      let evs := [.take (capacity s.length), .give (capacity s.length)]
      let s := { s with block := block, length := length, g := g }
      if length = oldLength then return (evs, s)
      else
        let (r, s) ← roundsLog mk beyond small oldLength k s
        return (evs ++ r, s)
    | some tmp =>
      let src := if s.srcTmp then tmp else s.block
      let dst := if s.srcTmp then s.block else tmp
      let (g, R, common) ← round mk beyond s.g (src.take s.length)
      let out ← writeOut R common (src.take s.length)
      let dst ← store dst 0 out
      let evs := if made then [.take (s.length + 1)] else []
      let s := if s.srcTmp then { s with block := dst, tmp := some tmp, length := out.length, g := g }
        else { s with tmp := some dst, length := out.length, g := g }
      if s.length = oldLength then return (evs, s)
      else
        let s := { s with srcTmp := !s.srcTmp, rounds := s.rounds + 1 }
        let (r, s) ← roundsLog mk beyond small oldLength k s
        return (evs ++ r, s)

/-- The destructor of the temporary array (Precompressor.cpp:65, 121). -/
def tmpEnd : Option (List UInt8) → List Ev
  | none => []
  | some tmp => [.give tmp.length]

/-- `precompress` (Precompressor.cpp:62-121) on a block whose precompressed form has `size` bytes: the rounds, `setSize` (line 113), the
end of the temporary array. -/
def preEvents (o : Options) (e : Env) (data : List UInt8) (size : Nat) : Option (List Ev) := do
  let (evs, s) ← roundsLog e.table e.beyond (e.small data.length) data.length o.rounds ⟨data ++ [e.junk], none, false, data.length, 0, Grammar.empty⟩
  return evs ++ resizeEvents data.length size ++ tmpEnd s.tmp

/-- Transforming and encoding the slices (Compressor.cpp:108-111). -/
def sliceEvents (letter : UInt8) : List (List UInt8) → List Ev
  | [] => []
  | s :: sl => sortEvents s.length ++ coderEvents letter s.length ++ sliceEvents letter sl

/-- A round of the loop of `compress` (Compressor.cpp:86-114): the events and the new `bwtBlockSize`. -/
def blockEvents (o : Options) (e : Env) (bwt : Nat) (data : List UInt8) : Option (List Ev × Nat) := do
  let (b, bwt) ← frontBlock o e bwt data
  let pre ← preEvents o e data b.out.length
  return (readEvents (pbBlock o) data.length ++ pre ++ sliceEvents o.letter b.slices ++ [.give (b.out.length + 1)], bwt)

/-- The loop of `compress` (Compressor.cpp:84-114), as `compressBlocks`. -/
def loopEvents (o : Options) (e : Env) : Nat → Nat → List UInt8 → Option (List Ev)
  | 0, _, _ => none
  | f + 1, bwt, input =>
    if (input.take (pbBlock o)).length = 0 then some (readEvents (pbBlock o) 0 ++ [.give 1])
    else do
      let (a, bwt) ← blockEvents o e bwt (input.take (pbBlock o))
      let r ← loopEvents o e f bwt (input.drop (pbBlock o))
      return a ++ r

/-- The arrays allocated and released by `compress(1)` (Compressor.cpp:65-118). -/
def events (o : Options) (e : Env) (input : List UInt8) : Option (List Ev) := loopEvents o e (input.length + 1) (bwtBlock0 o) input

/-! ## Specification -/

/-- The bytes held after some events. -/
def held : List Ev → Int
  | [] => 0
  | .take n :: es => n + held es
  | .give n :: es => held es - n

/-- At some time `u` bytes are in use. -/
def InUse (evs : List Ev) (u : Int) : Prop := ∃ before after, evs = before ++ after ∧ u = held before

end Bwtc.Memory
