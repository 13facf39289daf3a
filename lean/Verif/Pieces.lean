import Verif.Basic

/-!
# Input that arrives in pieces

`RawInStream::readBlock` on a source whose calls of `fread` may deliver less than they are asked for: a pipe, a terminal, a device with errors.
-/

set_option autoImplicit false

namespace Bwtc.Pieces

/-- `RawInStream` (Streams.hpp:155-164) without the bits: what `fread` is going to deliver, and `m_bigbuf`, `m_bigbuf_pos`, `m_bigbuf_left`. -/
structure St where
  src : List (List UInt8)
  bigbuf : List UInt8
  pos : Nat
  left : Nat

/-- The stream when opened (Streams.cpp:128-148). -/
def St.open (src : List (List UInt8)) : St := ⟨src, [], 0, 0⟩

/-- `fread(m_bigbuf, 1, K, m_fileptr)`: the next piece, or its first `K` bytes; the empty piece is an error or an end of file after which there may be more
to read; behind the last piece there is nothing. -/
def fread (K : Nat) : List (List UInt8) → List UInt8 × List (List UInt8)
  | [] => ([], [])
  | d :: ds => (d.take K, if d.length ≤ K then ds else d.drop K :: ds)

/-- `RawInStream::fetchByte` (Streams.cpp:167-175); the inner `none` is EOF, the outer an access outside the buffer. -/
def fetchByte (K : Nat) (st : St) : Option (Option UInt8 × St) :=
  let st := if st.left = 0 then
      let (d, src) := fread K st.src
      { st with src := src, bigbuf := d, pos := 0, left := d.length }
    else st
  if st.left = 0 then some (none, st)
  else do
    let b ← st.bigbuf[st.pos]?
    return (some b, { st with left := st.left - 1, pos := st.pos + 1 })

/-- `RawInStream::readBlock` (Streams.cpp:156-164). -/
def readBlock (K : Nat) : Nat → St → Option (List UInt8 × St)
  | 0, st => some ([], st)
  | n + 1, st => do
    let (c, st) ← fetchByte K st
    match c with
    | none => some ([], st)
    | some b => do
      let (bs, st) ← readBlock K n st
      return (b :: bs, st)

/-- The blocks that the loop of `Compressor::compress` reads (Compressor.cpp:87-93; Precompressor.cpp:42-47, PrecompressorBlock.cpp:41-49): up to the first
that is empty.  `none` when the number of rounds is not enough. -/
def blocks (K B : Nat) : Nat → St → Option (List (List UInt8))
  | 0, _ => none
  | f + 1, st => do
    let (b, st) ← readBlock K B st
    if b.length = 0 then some []
    else do
      let bs ← blocks K B f st
      return b :: bs

end Bwtc.Pieces
