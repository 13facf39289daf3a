import Verif.Streams

/-!
# C08, C09, C10: buffered streams

The specification of output is `absOutRun` (the list of bytes written so far, with an in-place
overwrite for 48-bit fields), of input `absInRun` (the list of bits not read yet).  Neither
mentions a buffer.
-/

set_option autoImplicit false

namespace Bwtc.Props
open Streams

/-- C08.  For every positive buffer size and every sequence of output operations that is
legal on an append-only list of bytes (fields are only filled in where six bytes have already
been written), the buffered stream performs it without undefined behaviour, returns the same
values from `getPos`, and the file after closing is the list of bytes written. -/
theorem C08_buffered_output (K : Nat) (hK : 0 < K) (ops : List OutOp) (outs : List Nat)
    (bytes : List UInt8) (h : absOutRun [] ops = some (outs, bytes)) :
    ∃ st, outRun K OutSt.open ops = some (outs, st) ∧ close st = some bytes := by
  obtain ⟨st, e1, e2⟩ := outRun_rel hK ops (st := OutSt.open) (a := [])
    ⟨rfl, rfl, by simpa [OutSt.open] using hK⟩ h
  exact ⟨st, e1, close_rel e2⟩

/-- Without field updates every sequence of operations is legal and the file is the
concatenation of what was written. -/
theorem C08_plain_writes (K : Nat) (hK : 0 < K) (ops : List OutOp)
    (hp : ∀ v p, OutOp.put48 v p ∉ ops) :
    ∃ outs st, outRun K OutSt.open ops = some (outs, st) ∧
      close st = some (ops.flatMap fun
        | .byte b => [b]
        | .block d => d
        | _ => []) := by
  have key : ∀ (ops : List OutOp) (a : List UInt8), (∀ v p, OutOp.put48 v p ∉ ops) →
      ∃ outs, absOutRun a ops = some (outs, a ++ ops.flatMap fun
        | .byte b => [b]
        | .block d => d
        | _ => []) := by
    intro ops
    induction ops with
    | nil => intro a _; exact ⟨[], by simp [absOutRun]⟩
    | cons op ops ih =>
      intro a hp
      have hp' : ∀ v p, OutOp.put48 v p ∉ ops := fun v p hc => hp v p (List.mem_cons_of_mem _ hc)
      cases op with
      | put48 v p => exact absurd List.mem_cons_self (hp v p)
      | byte b => obtain ⟨o, ho⟩ := ih (a ++ [b]) hp'; exact ⟨[] ++ o, by simp [absOutRun, absOut, ho]⟩
      | block d => obtain ⟨o, ho⟩ := ih (a ++ d) hp'; exact ⟨[] ++ o, by simp [absOutRun, absOut, ho]⟩
      | flush => obtain ⟨o, ho⟩ := ih a hp'; exact ⟨[] ++ o, by simp [absOutRun, absOut, ho]⟩
      | getPos => obtain ⟨o, ho⟩ := ih a hp'; exact ⟨[a.length] ++ o, by simp [absOutRun, absOut, ho]⟩
  obtain ⟨outs, ho⟩ := key ops [] hp
  obtain ⟨st, h1, h2⟩ := C08_buffered_output K hK ops outs _ ho
  exact ⟨outs, st, h1, by simpa using h2⟩

/-- Non-vacuity: with a buffer of three bytes, a sequence that fills the buffer, asks for the
position, writes a long block and patches an earlier field. -/
example : absOutRun [] [.byte 1, .byte 2, .byte 3, .getPos, .block [4, 5, 6, 7, 8], .flush, .put48 258 1]
      = some ([3], [1, 0, 0, 0, 0, 1, 2, 8]) ∧
    (outRun 3 OutSt.open [.byte 1, .byte 2, .byte 3, .getPos, .block [4, 5, 6, 7, 8], .flush,
      .put48 258 1]).bind (fun x => close x.2) = some [1, 0, 0, 0, 0, 1, 2, 8] := by decide +kernel

/-- C09.  For every positive buffer size, every file and every sequence of read operations
that is legal on the list of remaining bits (see `absIn`), the buffered stream returns exactly
the specified values and is left with exactly the specified remaining bits.  The end test
(`compressedDataEnding`) answers "no" whenever at least two bytes remain. -/
theorem C09_buffered_input (K : Nat) (hK : 0 < K) (file : List UInt8) (ops : List InOp)
    (vals : List InVal) (rest : List Bool)
    (h : absInRun (bytesBits file) ops = some (vals, rest)) :
    ∃ st, inRun K (InSt.open file) ops = some (vals, st) ∧ view st = rest := by
  rw [← view_open] at h
  obtain ⟨st, e1, _, e2⟩ := inRun_rel hK ops (ok_open file) h
  exact ⟨st, e1, e2⟩

/-- Non-vacuity: bit reads, an unaligned byte read across a refill boundary, alignment, a
block read crossing refills (buffer of two bytes), and the end test. -/
example :
    absInRun (bytesBits [0xA5, 0x3C, 0xFF, 1, 2, 3, 4]) [.bit, .bit, .bit, .byte, .flush, .ending, .block 4, .byte, .ending]
      = some ([.bit true, .bit false, .bit true, .byte 0x29, .unit, .flag false, .block [0xFF, 1, 2, 3], .byte 4, .flag true], []) ∧
    (inRun 2 (InSt.open [0xA5, 0x3C, 0xFF, 1, 2, 3, 4]) [.bit, .bit, .bit, .byte, .flush, .ending, .block 4, .byte, .ending]).map (·.1)
      = some [.bit true, .bit false, .bit true, .byte 0x29, .unit, .flag false, .block [0xFF, 1, 2, 3], .byte 4, .flag true] := by
  decide +kernel

/-- C10.  Reserving a six-byte field after any data `pre`, writing any data `post`, and then
filling the field in at the position reported when it was reserved produces `pre`, a
six-byte field and `post`; reading the file back gives `pre`, the value and `post`.  Any
positive buffer sizes for writer and reader. -/
theorem C10_length_field (K K' : Nat) (hK : 0 < K) (hK' : 0 < K') (pre post : List UInt8)
    (v : Nat) (hv : v < 2 ^ 48) :
    ∃ st field, outRun K OutSt.open
        ([.block pre, .getPos] ++ List.replicate 6 (.byte 0) ++ [.block post, .put48 v pre.length])
        = some ([pre.length], st) ∧
      close st = some (pre ++ field ++ post) ∧ field.length = 6 ∧
      ∃ st', inRun K' (InSt.open (pre ++ field ++ post))
        [.block pre.length, .get48, .block post.length]
        = some ([.block pre, .num v, .block post], st') ∧ view st' = [] := by
  have hnat : natOf (bytesBits (bytes48 v)) = v := by
    rw [bytes48_bits, natOf_bitsOf_of_lt hv]
  have h6 := bytes48_length v
  have habs : absOutRun [] ([.block pre, .getPos] ++ List.replicate 6 (.byte 0) ++
      [.block post, .put48 v pre.length]) = some ([pre.length], pre ++ bytes48 v ++ post) := by
    simp [absOutRun, absOut, List.replicate, Nat.add_assoc, ← bytes48_spec]
    rw [if_pos (by omega)]
    simp
  obtain ⟨st, e1, e2⟩ := C08_buffered_output K hK _ _ _ habs
  refine ⟨st, bytes48 v, e1, e2, h6, ?_⟩
  apply C09_buffered_input K' hK'
  have l1 : (bytesBits pre).length = 8 * pre.length := bytesBits_length _
  have l2 : (bytesBits post).length = 8 * post.length := bytesBits_length _
  have l3 : (bytesBits (bytes48 v)).length = 48 := by rw [bytesBits_length, h6]
  have hr : readBits 48 (bytesBits (bytes48 v) ++ bytesBits post)
      = some (bytesBits (bytes48 v), bytesBits post) := readBits_append' l3
  simp only [bytesBits_append, List.append_assoc]
  simp only [absInRun, absIn, List.length_append, l1, l2, l3]
  rw [if_pos (by omega)]
  simp only [Option.bind_eq_bind, Option.bind_some]
  rw [show min pre.length ((8 * pre.length + (48 + 8 * post.length)) / 8) = pre.length by omega, ← l1,
    List.take_left' rfl, List.drop_left' rfl]
  simp only [List.length_append, l2, l3]
  rw [if_pos (by omega), hr]
  simp only [Option.bind_some, Option.pure_def, l2]
  rw [if_pos (by omega)]
  rw [show min post.length (8 * post.length / 8) = post.length by omega, ← l2]
  simp [packBits_bytes, hnat]

/-- Non-vacuity of C10. -/
example : (123456789012 : Nat) < 2 ^ 48 ∧ bytes48 123456789012 = [0, 28, 190, 153, 26, 20] := by
  decide +kernel

end Bwtc.Props
