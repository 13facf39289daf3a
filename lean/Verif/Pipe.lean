import Verif.Sound
import Verif.Streams

/-!
# Writing to a pipe

With the option `stdout`, or without the name of an output file, `RawOutStream` writes to `stdout` (Streams.cpp:50-58,
compress.cpp:181).  If `stdout` is a pipe or a terminal, `ftell` and `fseek` fail and leave the stream as it is, and what
`write48bits` puts out comes behind everything written before.
-/

set_option autoImplicit false

namespace Bwtc.Pipe
open Streams (OutOp bytes48)

/-! ## The stream -/

/-- `RawOutStream` (Streams.hpp:98-104) on a pipe: the bytes handed to the C library, in the order in which they leave it, and
`m_buffer[0 .. m_filled)`. -/
structure St where
  sent : List UInt8
  buf : List UInt8
deriving DecidableEq, Repr

/-- The stream when opened (Streams.cpp:43-61 with `m_fileptr = stdout`). -/
def St.open : St := ⟨[], []⟩

/-- `fwrite` and `fputc` on a pipe. -/
def send (data : List UInt8) (st : St) : St := { st with sent := st.sent ++ data }

/-- `RawOutStream::writeByte` (Streams.cpp:74-80); storing beyond the buffer is `none`. -/
def writeByte (K : Nat) (b : UInt8) (st : St) : Option St :=
  if st.buf.length < K then
    let st := { st with buf := st.buf ++ [b] }
    if st.buf.length = K then some { send st.buf st with buf := [] }
    else some st
  else none

/-- `RawOutStream::flush` (Streams.cpp:82-88). -/
def flush (st : St) : St :=
  if st.buf.length > 0 then { send st.buf st with buf := [] } else st

/-- `RawOutStream::getPos` (Streams.cpp:90-93): `ftell` returns -1. -/
def getPos (st : St) : Int × St := (-1, flush st)

/-- `RawOutStream::writeBlock` (Streams.cpp:95-104). -/
def writeBlock (K : Nat) (data : List UInt8) (st : St) : St :=
  if st.buf.length + data.length < K then { st with buf := st.buf ++ data }
  else send data (flush st)

/-- `RawOutStream::write48bits` (Streams.cpp:106-117): both calls of `fseek` fail, their results are not looked at. -/
def write48 (v : Nat) (st : St) : St := (bytes48 v).foldl (fun st b => send [b] st) (flush st)

/-- Destructor (Streams.cpp:63-72): what the reader of the pipe gets. -/
def close (st : St) : List UInt8 := (if st.buf.length > 0 then flush st else st).sent

/-- Effect and output (only `getPos` has one) of a call. -/
def step (K : Nat) (st : St) : OutOp → Option (List Int × St)
  | .byte b => do let st ← writeByte K b st; return ([], st)
  | .block d => some ([], writeBlock K d st)
  | .flush => some ([], flush st)
  | .getPos => some ([(getPos st).1], (getPos st).2)
  | .put48 v _ => some ([], write48 v st)

/-- A sequence of calls. -/
def run (K : Nat) : St → List OutOp → Option (List Int × St)
  | st, [] => some ([], st)
  | st, op :: ops => do
    let (o, st) ← step K st op
    let (os, st) ← run K st ops
    return (o ++ os, st)

/-! ## Specification -/

/-- The bytes a call adds to what the reader gets. -/
def adds : OutOp → List UInt8
  | .byte b => [b]
  | .block d => d
  | .flush => []
  | .getPos => []
  | .put48 v _ => packBits (bitsOf 48 v)

/-- The calls of `writeBlockHeader`, `encodeData` and `finishBlock` for a block (HuffmanCoders.cpp:57-60, 259-276;
WaveletCoders.cpp:82-86, 161-178): the position, six zero bytes, the bytes of header and body, the length at the position asked for. -/
def blockCalls (content : List UInt8) (len position : Nat) : List OutOp :=
  .getPos :: (List.replicate 6 (.byte 0) ++ content.map .byte ++ [.put48 len position])

end Bwtc.Pipe

namespace Bwtc.Container
open Varint Grammar PairReplace ProbModels FreqTable

/-! ## The compressor -/

/-- `HuffmanEncoder::transformAndEncode` after the transform (HuffmanCoders.cpp:57-60) with a pipe as output: the calls on the stream are those
of `HuffBlock.encodeBlock`; the six zero bytes stay (line 276), the length comes last (line 260). -/
def huffmanPiped (powers stats : List Nat) (data : List UInt8) : Option (List UInt8 × Nat) := do
  let (h, k) ← Sections.writeHeader powers stats
  let (body, n) ← HuffBlock.encodeSections (Sections.sections stats) data
  return (List.replicate 6 0 ++ h ++ body ++ packBits (bitsOf 48 (k + n)), k + n + 6)

/-- `WaveletEncoder::transformAndEncode` after the transform (WaveletCoders.cpp:82-86, 159-219) with a pipe as output. -/
def waveletPiped {σ : Type} (P : Model σ) (cheap : List UInt8 → Nat → Nat → Nat × Nat → Bool) (fuel : Nat)
    (powers stats : List Nat) (st : WaveBlock.States σ) (data : List UInt8) : Option (List UInt8 × Nat × WaveBlock.States σ) := do
  let (h, k) ← Sections.writeHeader powers stats
  let (body, n, st) ← WaveBlock.encodeSections P cheap fuel (Sections.sections stats) st data
  return (List.replicate 6 0 ++ h ++ body ++ packBits (bitsOf 48 (k + n)), k + n + 6, st)

/-- `HuffmanEncoder` writing to a pipe, with its decoder. -/
def huffmanOnPipe : Coder where
  σ := Unit
  init := ()
  encode _ _ _ powers stats data := (huffmanPiped powers stats data).map fun r => (r.1, r.2, ())
  decode := huffman.decode

/-- `WaveletEncoder` writing to a pipe, with its decoder. -/
def waveletOnPipe {σ : Type} (P : Model σ) : Coder where
  σ := WaveBlock.States σ
  init := WaveBlock.initial P
  encode cheap fuel st powers stats data := waveletPiped P cheap fuel powers stats st data
  decode := (wavelet P).decode

/-- `giveEntropyEncoder` (EntropyCoders.cpp:38-51) for a compressor that writes to a pipe. -/
def pipedOf (letter : UInt8) : Coder :=
  if letter = 72 then huffmanOnPipe
  else if letter = 109 then waveletOnPipe modelm
  else if letter = 77 then waveletOnPipe modelM
  else if letter = 117 then waveletOnPipe modelU
  else if letter = 98 then waveletOnPipe modelb
  else waveletOnPipe modelB

/-- `compress(1)` (Compressor.cpp:65-118) with a pipe as output: what the reader of the pipe gets, and the returned size. -/
def compressPiped (o : Options) (e : Env) (fuel : Nat) (input : List UInt8) : Option (List UInt8 × Nat) := do
  let (w, n) ← compressBlocks (pipedOf o.letter) o e fuel (input.length + 1) (bwtBlock0 o) (pipedOf o.letter).init input
  return (o.letter :: (w ++ [0]), (1 + n + 1) % 2 ^ 64)

end Bwtc.Container
