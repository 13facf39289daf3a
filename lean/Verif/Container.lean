import Verif.FwdBWT
import Verif.Slicing
import Verif.PairReplace
import Verif.GrammarIO
import Verif.WaveBlock

/-!
# The container: compressor, decompressor and the stand-alone preprocessing tools

Model of `Compressor::compress`, `Decompressor::decompress`, `PrecompressorBlock`, and of the main functions of
`preprocess.cpp` and `postprocess.cpp`.  Files are lists of bytes; the buffered streams are treated in
`Verif.Streams`.
-/

set_option autoImplicit false

namespace Bwtc.Container
open Varint Grammar PairReplace ProbModels FreqTable

/-! ## Entropy coders -/

/-- An `EntropyEncoder` with the matching `EntropyDecoder` (EntropyCoders.hpp): the state that lives as
long as the objects, `transformAndEncode` behind the transform (starting points, character counts,
transformed block; bytes, returned size and new state) and `decodeBlock` behind the test for the end of the data. -/
structure Coder where
  σ : Type
  init : σ
  encode : (List UInt8 → Nat → Nat → Nat × Nat → Bool) → Nat → σ → List Nat → List Nat → List UInt8 →
    Option (List UInt8 × Nat × σ)
  decode : Nat → σ → List Bool → Option (HuffBlock.Decoded × σ × List Bool)

/-- `HuffmanEncoder` and `HuffmanDecoder`: nothing is kept between blocks (the member `m_headerPosition` and
`m_compressedBlockLength` are set anew, HuffmanCoders.cpp:213-214). -/
def huffman : Coder where
  σ := Unit
  init := ()
  encode _ _ _ powers stats data := (HuffBlock.encodeBlock powers stats data).map fun r => (r.1, r.2, ())
  decode _ _ s := (HuffBlock.decodeBlock s).map fun r => (r.1, (), r.2)

/-- `WaveletEncoder` and `WaveletDecoder` with the model `P` of the inner bits. -/
def wavelet {σ : Type} (P : Model σ) : Coder where
  σ := WaveBlock.States σ
  init := WaveBlock.initial P
  encode cheap fuel st powers stats data := WaveBlock.encodeBlock P cheap fuel powers stats st data
  decode fuel st s := WaveBlock.decodeBlock P fuel st s

/-- `giveEntropyEncoder`, `giveEntropyDecoder` (EntropyCoders.cpp:38-65) and `giveProbabilityModel`
(ProbabilityModel.cpp:48-75): the letters `H`, `m`, `M`, `u`, `b`; everything else is `B`. -/
def coderOf (letter : UInt8) : Coder :=
  if letter = 72 then huffman
  else if letter = 109 then wavelet modelm
  else if letter = 77 then wavelet modelM
  else if letter = 117 then wavelet modelU
  else if letter = 98 then wavelet modelb
  else wavelet modelB

/-! ## Options -/

/-- Options of the compressor: letter of the coder, number of starting points, number of `p` in the
preprocessing string (the validator accepts nothing else, compress.cpp:53-66) and `memLimit`. -/
structure Options where
  letter : UInt8
  starts : Nat
  rounds : Nat
  memLimit : Nat

/-- What the code leaves to the platform: the order of equal frequencies (`std::sort`), the word behind the sorted
frequencies that is read when there is no special symbol left, the outcome of the test of the ratio of the lengths for an original
size and a length, uninitialised bytes, and the outcomes of the floating-point comparisons in
the construction of the wavelet tree. -/
structure Env where
  table : (UInt8 → Nat) → FT
  beyond : Option Nat
  small : Nat → Nat → Bool
  junk : UInt8
  cheap : List UInt8 → Nat → Nat → Nat × Nat → Bool

/-- The option `mem` in megabytes as `memLimit` (compress.cpp:179, 193): `uint64` arithmetic. -/
def memLimitOf (mem : Nat) : Nat := (if mem = 0 then 1 else mem) * 1000000 % 2 ^ 64

/-- `setStartingPoints` (BWTManager.cpp:60-64). -/
def clampStarts (n : Nat) : Nat := if n < 1 then 1 else if 256 < n then 256 else n

/-- Rounding an integer to a `double` (53 bits, ties to even). -/
def round53 (n : Nat) : Nat :=
  if n < 2 ^ 53 then n
  else
    let s := n.log2 - 52
    let q := n / 2 ^ s
    let r := n % 2 ^ s
    (if 2 ^ s < 2 * r ∨ (2 * r = 2 ^ s ∧ q % 2 = 1) then q + 1 else q) * 2 ^ s

/-- `static_cast<size_t>(n*0.74)` (Compressor.cpp:76): the constant is `3332663724254167 * 2^-52`; the product of the
converted integer and the constant is rounded, then cut. -/
def times074 (n : Nat) : Nat := round53 (round53 n * 3332663724254167) / 2 ^ 52

/-- `static_cast<size_t>(n*0.185)` (Compressor.cpp:77); the constant is a quarter of the other one. -/
def times0185 (n : Nat) : Nat := round53 (round53 n * 3332663724254167) / 2 ^ 54

/-- `0x7fffffff - 1` (Compressor.cpp:78, 99). -/
def maxBlock : Nat := 0x7fffffff - 1

/-- The first `bwtBlockSize` (Compressor.cpp:77-78). -/
def bwtBlock0 (o : Options) : Nat := min (times0185 o.memLimit) maxBlock

/-- `pbBlockSize` (Compressor.cpp:76, 80). -/
def pbBlock (o : Options) : Nat := if o.rounds = 0 then bwtBlock0 o else times074 o.memLimit

/-- `min((memLimit - size)/4.5, 0x7fffffff - 1)` (Compressor.cpp:98-99): unsigned subtraction; the
quotient by 4.5 is exact enough: where it is below the maximum the numerator is below 2^53, and two different quotients
by 4.5 differ by at least 2/9, so rounding does not cross an integer. -/
def bwtBlockAfter (memLimit size : Nat) : Nat := min ((memLimit + (2 ^ 64 - size % 2 ^ 64)) % 2 ^ 64 * 2 / 9) maxBlock

/-! ## Compressor -/

/-- `Precompressor::precompress` on a block just read (Precompressor.cpp:41-46, 62-121): one uninitialised byte is allocated behind
the data (PrecompressorBlock.cpp:46-48). -/
def precompressBlock (o : Options) (e : Env) (data : List UInt8) : Option (List UInt8 × G) :=
  precompress e.table e.beyond (e.small data.length) o.rounds (data ++ [e.junk]) data.length

/-- A block as it is after `sliceIntoBlocks`: original bytes, precompressed bytes, grammar, slices. -/
structure Block where
  data : List UInt8
  out : List UInt8
  g : G
  slices : List (List UInt8)

/-- Reading, precompressing and slicing a block (Compressor.cpp:86, 95-102), for the current `bwtBlockSize`; the block and the new
`bwtBlockSize`.  The loop of `sliceIntoBlocks` takes at least one byte per round unless it runs forever, so
`none` here includes a slicing that does not end (`SlicesTo` in `Verif.Slicing` is without a bound). -/
def frontBlock (o : Options) (e : Env) (bwt : Nat) (data : List UInt8) : Option (Block × Nat) := do
  let (out, g) ← precompressBlock o e data
  let bwt := if pbBlock o ≠ bwt then bwtBlockAfter o.memLimit out.length else bwt
  let sl ← Slicing.run bwt (out.length + 1) ⟨out, []⟩
  return (⟨data, out, g, sl⟩, bwt)

/-- The packed integers of the headers (PrecompressorBlock.cpp:82-90): bytes and their number. -/
def packed (n : Nat) : Option (List UInt8 × Nat) := do
  let (p, k) ← packInteger n
  return (writeCounted k p, k)

/-- `writeBlockHeader` with `PRECOMP_ORIGINAL_SIZE` (PrecompressorBlock.cpp:67-94). -/
def writeBlockHeader (originalSize slices : Nat) (g : G) : Option (List UInt8 × Nat) := do
  let (a, x) ← packed originalSize
  let (b, y) ← packed slices
  let (c, z) ← writeGrammar g
  return (a ++ b ++ c, x + y + z)

/-- `transformAndEncode` for all slices (Compressor.cpp:108-111; HuffmanCoders.cpp:50-61, WaveletCoders.cpp:79-88): the slices
lie one behind the other in `mem` from `pos` on, every slice is transformed in place with new character
counts; bytes and returned sizes. -/
def encodeSlices (C : Coder) (cheap : List UInt8 → Nat → Nat → Nat × Nat → Bool) (fuel starts : Nat) :
    List Nat → List UInt8 → Nat → C.σ → Option (List UInt8 × Nat × C.σ)
  | [], _, _, st => some ([], 0, st)
  | len :: lens, mem, pos, st => do
    let (mem, lf, freqs) ← FwdBWT.transform mem pos len starts (List.replicate 256 0)
    let (a, x, st) ← C.encode cheap fuel st lf freqs ((mem.drop pos).take len)
    let (b, y, st) ← encodeSlices C cheap fuel starts lens mem (pos + len) st
    return (a ++ b, x + y, st)

/-- The loop of `compress` (Compressor.cpp:84-114); the first number bounds the rounds: every round but the last reads at least one byte. -/
def compressBlocks (C : Coder) (o : Options) (e : Env) (fuel : Nat) :
    Nat → Nat → C.σ → List UInt8 → Option (List UInt8 × Nat)
  | 0, _, _, _ => none
  | f + 1, bwt, st, input =>
    if (input.take (pbBlock o)).length = 0 then some ([], 0)
    else do
      let (b, bwt) ← frontBlock o e bwt (input.take (pbBlock o))
      let (h, x) ← writeBlockHeader b.data.length b.slices.length b.g
      let (w, y, st) ← encodeSlices C e.cheap fuel (clampStarts o.starts) (b.slices.map List.length)
        (b.out ++ [e.junk]) 0 st
      let (r, z) ← compressBlocks C o e fuel f bwt st (input.drop (pbBlock o))
      return (h ++ w ++ r, x + y + z)

/-- `compress(1)` (Compressor.cpp:65-118), `writeGlobalHeader` (55-58), `writeEmptyHeader` (PrecompressorBlock.cpp:96-99): the bytes
written and the returned size (a `size_t`). -/
def compress (o : Options) (e : Env) (fuel : Nat) (input : List UInt8) : Option (List UInt8 × Nat) := do
  let (w, n) ← compressBlocks (coderOf o.letter) o e fuel (input.length + 1) (bwtBlock0 o) (coderOf o.letter).init input
  return (o.letter :: (w ++ [0]), (1 + n + 1) % 2 ^ 64)

/-! ## Decompressor -/

/-- `readBlockHeader` with `PRECOMP_ORIGINAL_SIZE` (PrecompressorBlock.cpp:103-112): `none` in the first component at the end marker. -/
def readBlockHeader (s : List Bool) : Option (Option (Nat × Nat × G) × List Bool) := do
  let (originalSize, _, s) ← readVar s
  if originalSize = 0 then return (none, s)
  else
    let (slices, _, s) ← readVar s
    let (g, s) ← readGrammar s
    return (some (originalSize, slices, g), s)

/-- The loop over the slices (Decompressor.cpp:75-80); `acc` are the bytes from `pb->begin()` to `pb->end()`, `cap` the size the
block was allocated for (one more byte is allocated).  `none`: at most 15 bits are left (the decoder returns without a block, and the
inverse transform accesses the empty vector of starting points, Streams.hpp:143-153), the block is longer than the allocated memory, or its size
is not the number of bytes decoded. -/
def decodeSlices (C : Coder) (junk : UInt8) (fuel cap : Nat) :
    Nat → List UInt8 → C.σ → List Bool → Option (List UInt8 × C.σ × List Bool)
  | 0, acc, st, s => some (acc, st, s)
  | n + 1, acc, st, s =>
    if s.length < 16 then none
    else do
      let (d, st, s) ← C.decode fuel st s
      if cap < acc.length + d.size ∨ d.size ≠ d.data.length then none
      else
        let (b, _) ← InvBWT.inverseBlock d.data junk d.powers
        decodeSlices C junk fuel cap n (acc ++ b) st s

/-- The loop of `decompress` (Decompressor.cpp:66-90): the bytes written. -/
def decompressBlocks (C : Coder) (junk : UInt8) (fuel : Nat) :
    Nat → C.σ → List Bool → Option (List UInt8)
  | 0, _, _ => none
  | f + 1, st, s => do
    let (h, s) ← readBlockHeader s
    match h with
    | none => return []
    | some (originalSize, slices, g) =>
      let (data, st, s) ← decodeSlices C junk fuel originalSize slices [] st s
      let out ← postprocess g data
      let r ← decompressBlocks C junk fuel f st s
      return out ++ r

/-- `decompress(1)` (Decompressor.cpp:50-93) with `readGlobalHeader` (50-55).  Every round of the loop reads at least one byte. -/
def decompress (junk : UInt8) (fuel : Nat) (file : List UInt8) : Option (List UInt8) := do
  let (letter, s) ← readByte (bytesBits file)
  decompressBlocks (coderOf letter) junk fuel (file.length + 1) (coderOf letter).init s

/-! ## Tools -/

/-- `preprocess` (preprocess.cpp:57-90): the loop with blocks of `blockSize` bytes; header with `PRECOMP_COMPRESSED_SIZE`
(PrecompressorBlock.cpp:76-79), then the bytes of the block. -/
def preprocessBlocks (o : Options) (e : Env) (blockSize : Nat) : Nat → List UInt8 → Option (List UInt8)
  | 0, _ => none
  | f + 1, input =>
    if (input.take blockSize).length = 0 then some []
    else do
      let (out, g) ← precompressBlock o e (input.take blockSize)
      let (a, _) ← packed out.length
      let (b, _) ← writeGrammar g
      let r ← preprocessBlocks o e blockSize f (input.drop blockSize)
      return a ++ b ++ out ++ r

/-- `preprocess` (preprocess.cpp:57-97): the file written. -/
def preprocessTool (o : Options) (e : Env) (blockSize : Nat) (input : List UInt8) : Option (List UInt8) := do
  let w ← preprocessBlocks o e blockSize (input.length + 1) input
  return w ++ [0]

/-- The loop of `postprocess` (postprocess.cpp:79-100) with `readBlockHeader` for `PRECOMP_COMPRESSED_SIZE`
(PrecompressorBlock.cpp:113-124).  `none`: the file ends in a block (an assertion). -/
def postprocessBlocks : Nat → List Bool → Option (List UInt8)
  | 0, _ => none
  | f + 1, s => do
    let (size, _, s) ← readVar s
    if size = 0 then return []
    else
      let (g, s) ← readGrammar s
      let (data, s) ← readBytes size s
      let out ← postprocess g data
      let r ← postprocessBlocks f s
      return out ++ r

/-- `postprocess` (postprocess.cpp:64-104). -/
def postprocessTool (file : List UInt8) : Option (List UInt8) :=
  postprocessBlocks (file.length + 1) (bytesBits file)

end Bwtc.Container
