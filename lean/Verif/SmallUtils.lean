import Verif.Varint

/-!
# Small helpers

Model of `mostSignificantBit16`, `mostSignificantBit`, `isPrefix` and `readPackedInteger` in memory (Utils.cpp:36-57, 172-177, 483-496).
-/

set_option autoImplicit false

namespace Bwtc.SmallUtils

/-! ## The highest bit -/

/-- One line `n |= (n >> k)` (Utils.cpp:40-43, 49-53). -/
def smear (k : Nat) (n : BitVec 32) : BitVec 32 := n ||| (n >>> k)

/-- The last line of both functions (Utils.cpp:44, 54). -/
def topOf (n : BitVec 32) : BitVec 32 := n &&& ~~~(n >>> 1)

/-- `mostSignificantBit16` (Utils.cpp:38-45); the assertion is not part of the model. -/
def msb16 (n : BitVec 32) : BitVec 32 := topOf (smear 8 (smear 4 (smear 2 (smear 1 n))))

/-- `mostSignificantBit` (Utils.cpp:47-55). -/
def msb (n : BitVec 32) : BitVec 32 := topOf (smear 16 (smear 8 (smear 4 (smear 2 (smear 1 n)))))

/-! ## Strings -/

/-- The loop of `isPrefix` (Utils.cpp:174-176) from position `j`, with `isPref`; reading beyond the end of a string is `none`. -/
def prefixGo (a b : List UInt8) : Nat → Nat → Bool → Option Bool
  | 0, _, isPref => some isPref
  | left + 1, j, isPref => do
    let x ← a[j]?
    let y ← b[j]?
    prefixGo a b left (j + 1) (if x ≠ y then false else isPref)

/-- `isPrefix` (Utils.cpp:172-178); lengths below 2^31. -/
def isPrefix (a b : List UInt8) : Option Bool :=
  if a.length > b.length then some false else prefixGo a b a.length 0 true

/-! ## Packed integers in memory -/

/-- The loop of `readPackedInteger(byte*)` (Utils.cpp:490-494) over the bytes from `to` on: the integer and the number of bytes looked at.  Reading behind the
buffer and a shift by 64 or more are `none`. -/
def readMemGo (i packed : Nat) : List UInt8 → Option (Nat × Nat)
  | [] => none
  | b :: bs =>
    if i * 8 ≥ 64 then none
    else
      let packed := packed ||| ((b.toNat <<< (i * 8)) % 2 ^ 64)
      if b.toNat &&& 0x80 ≠ 0 then readMemGo (i + 1) packed bs else some (packed, i + 1)

/-- `readPackedInteger(byte*)` (Utils.cpp:483-496). -/
def readMem (buf : List UInt8) : Option (Nat × Nat) := do
  let (packed, used) ← readMemGo 0 0 buf
  return (if packed = 0x80 then 2 ^ 63 else packed, used)

/-- Storing `bytes` at the beginning of a buffer, as the loop of `writePackedInteger(byte*)` (Utils.cpp:475-481) does; `none` if they do not fit. -/
def store (bytes buf : List UInt8) : Option (List UInt8) :=
  if bytes.length ≤ buf.length then some (bytes ++ buf.drop bytes.length) else none

end Bwtc.SmallUtils
