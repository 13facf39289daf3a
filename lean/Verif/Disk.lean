import Verif.Streams

/-!
# Writing to a full disk

`RawOutStream` looks at none of the results of `fwrite`, `fputc`, `fflush` and `fclose`.  Here the file lies on a device with room for
`cap` bytes.  What does not fit is dropped: the C library is taken to hand over every byte at once, so that nothing is kept for a
later attempt; the position stays behind the last byte stored.
-/

set_option autoImplicit false

namespace Bwtc.Disk
open Streams (OutSt bytes48)

/-! ## The stream -/

/-- `fwrite` where only the bytes in front of position `cap` can be stored (a short count is returned and not looked at). -/
def fwrite (cap : Nat) (data : List UInt8) (st : OutSt) : Option OutSt :=
  if st.pos ≤ st.file.length then
    let d := data.take (cap - st.pos)
    some { st with
      file := st.file.take st.pos ++ d ++ st.file.drop (st.pos + d.length)
      pos := st.pos + d.length }
  else none

/-- `RawOutStream::writeByte` (Streams.cpp:74-80). -/
def writeByte (cap K : Nat) (b : UInt8) (st : OutSt) : Option OutSt :=
  if st.buf.length < K then
    let st := { st with buf := st.buf ++ [b] }
    if st.buf.length = K then do
      let st ← fwrite cap st.buf st
      return { st with buf := [] }
    else some st
  else none

/-- `RawOutStream::flush` (Streams.cpp:82-88): the buffer is emptied whatever was stored. -/
def flush (cap : Nat) (st : OutSt) : Option OutSt :=
  if st.buf.length > 0 then do
    let st ← fwrite cap st.buf st
    return { st with buf := [] }
  else some st

/-- `RawOutStream::getPos` (Streams.cpp:90-93). -/
def getPos (cap : Nat) (st : OutSt) : Option (Nat × OutSt) := do
  let st ← flush cap st
  return (st.pos, st)

/-- `RawOutStream::writeBlock` (Streams.cpp:95-104). -/
def writeBlock (cap K : Nat) (data : List UInt8) (st : OutSt) : Option OutSt :=
  if st.buf.length + data.length < K then
    some { st with buf := st.buf ++ data }
  else do
    let st ← flush cap st
    fwrite cap data st

/-- `fputc` for each byte of a list. -/
def fputcs (cap : Nat) : List UInt8 → OutSt → Option OutSt
  | [], st => some st
  | b :: bs, st => do
    let st ← fwrite cap [b] st
    fputcs cap bs st

/-- `RawOutStream::write48bits` (Streams.cpp:106-117). -/
def write48 (cap v position : Nat) (st : OutSt) : Option OutSt := do
  let st ← flush cap st
  let current := st.pos
  let st ← fputcs cap (bytes48 v) { st with pos := position }
  return { st with pos := current }

/-- Destructor (Streams.cpp:63-72). -/
def close (cap : Nat) (st : OutSt) : Option (List UInt8) := do
  let st ← if st.buf.length > 0 then flush cap st else some st
  return st.file

/-! ## The programs -/

/-- The calls the programs make on their output.  `mark` is `m_headerPosition = out->getPos()` (HuffmanCoders.cpp:275,
WaveletCoders.cpp:177), `patch` is `out->write48bits(m_compressedBlockLength, m_headerPosition)` (HuffmanCoders.cpp:260, WaveletCoders.cpp:162). -/
inductive Call where
  | byte (b : UInt8)
  | block (data : List UInt8)
  | flush
  | mark
  | patch (v : Nat)

/-- A call; the second component is `m_headerPosition` (HuffmanCoders.hpp:63, WaveletCoders.hpp:68). -/
def step (cap K : Nat) : OutSt × Nat → Call → Option (OutSt × Nat)
  | (st, m), .byte b => do let st ← writeByte cap K b st; return (st, m)
  | (st, m), .block d => do let st ← writeBlock cap K d st; return (st, m)
  | (st, m), .flush => do let st ← flush cap st; return (st, m)
  | (st, _), .mark => do let (p, st) ← getPos cap st; return (st, p)
  | (st, m), .patch v => do let st ← write48 cap v m st; return (st, m)

/-- A sequence of calls. -/
def run (cap K : Nat) : OutSt × Nat → List Call → Option (OutSt × Nat)
  | s, [] => some s
  | s, c :: cs => do let s ← step cap K s c; run cap K s cs

/-- A stream opened on an empty file (Streams.cpp:43-61), used until it is destroyed (Streams.cpp:63-72) by an encoder with
`m_headerPosition` 0 (HuffmanCoders.cpp:47, WaveletCoders.cpp:48): the file in the end. -/
def output (cap K : Nat) (calls : List Call) : Option (List UInt8) := do
  let (st, _) ← run cap K (OutSt.open, 0) calls
  close cap st

/-- The calls of `finishBlock`, `writeBlockHeader` and `encodeData` for a block (HuffmanCoders.cpp:57-60, 259-276; WaveletCoders.cpp:82-86, 161-178). -/
def blockCalls (content : List UInt8) (len : Nat) : List Call :=
  .mark :: (List.replicate 6 (.byte 0) ++ content.map .byte ++ [.patch len])

/-! ## Specification -/

/-- What a call makes of the bytes written so far and the position marked; a field is filled in where six bytes have been written. -/
def adds : List UInt8 × Nat → Call → Option (List UInt8 × Nat)
  | (a, m), .byte b => some (a ++ [b], m)
  | (a, m), .block d => some (a ++ d, m)
  | (a, m), .flush => some (a, m)
  | (a, _), .mark => some (a, a.length)
  | (a, m), .patch v => if m + 6 ≤ a.length then some (a.take m ++ packBits (bitsOf 48 v) ++ a.drop (m + 6), m) else none

/-- All that is written by a sequence of calls, starting with `s`. -/
def written : List UInt8 × Nat → List Call → Option (List UInt8 × Nat)
  | s, [] => some s
  | s, c :: cs => do let s ← adds s c; written s cs

end Bwtc.Disk
