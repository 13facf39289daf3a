import Verif.Basic

/-!
# Packed (7 bits per byte) integers

Model of `utils::packInteger`, `utils::unpackInteger`, `packAndWriteInteger`,
`readAndUnpackInteger` and of the stream readers and writers built on them.
-/

set_option autoImplicit false

namespace Bwtc.Varint

/-- The loop of `packInteger` (Utils.cpp:89-101): `i` counts bytes, `res` is the
packed word.  `none`: `i` reaches 8, where the code asserts `i < 8` and the shift
by `i*8 >= 64` is undefined. -/
def packGo (n i res : Nat) : Option (Nat × Nat) :=
  if n = 0 then some (res, i)
  else if i < 8 then
    let res := res ||| ((n &&& 0x7F) <<< (i * 8))
    let n' := n >>> 7
    let res := if n' ≠ 0 then res ||| (0x80 <<< (i * 8)) else res
    packGo n' (i + 1) res
  else none
termination_by n
decreasing_by simp only [Nat.shiftRight_eq_div_pow]; omega

/-- `utils::packInteger` (Utils.cpp:89-101): packed word and number of bytes
(`if(i == 0) ++i`). -/
def packInteger (n : Nat) : Option (Nat × Nat) := do
  let (res, i) ← packGo n 0 0
  return (res, if i = 0 then 1 else i)

/-- The loop of `unpackInteger` (Utils.cpp:103-114).  `none`: the shift amount
`bits` reaches 64 (undefined; the code asserts `bits_handled <= 56`). -/
def unpackGo (p res bits : Nat) : Option Nat :=
  if bits < 64 then
    let res := res ||| ((p &&& 0x7F) <<< bits)
    if p &&& 0x80 ≠ 0 then unpackGo (p >>> 8) res (bits + 7) else some res
  else none
termination_by 64 - bits

/-- `utils::unpackInteger` (Utils.cpp:103-114). -/
def unpackInteger (p : Nat) : Option Nat := unpackGo p 0 0

/-- `writePackedInteger` (HuffmanCoders.cpp:316-322, WaveletCoders.cpp:
`writePackedInteger`, Utils.cpp:475-481): a do/while loop emitting the low byte until
the word is zero.  The bytes appended to the output. -/
def writePacked (p : Nat) : List UInt8 :=
  UInt8.ofNat (p &&& 0xFF) :: (if _h : p >>> 8 = 0 then [] else writePacked (p >>> 8))
termination_by p
decreasing_by
  simp only [Nat.shiftRight_eq_div_pow] at *
  have : p ≠ 0 := by rintro rfl; simp at *
  omega

/-- The header loop of `PrecompressorBlock::writeBlockHeader`
(PrecompressorBlock.cpp:78-86) and of `Grammar::writeGrammar`: exactly `k` bytes of the word. -/
def writeCounted : Nat → Nat → List UInt8
  | 0, _ => []
  | k + 1, p => UInt8.ofNat (p &&& 0xFF) :: writeCounted k (p >>> 8)

/-- Loop of `HuffmanDecoder::readPackedInteger` (HuffmanCoders.cpp:618-632, same in
WaveletCoders.cpp): `packed |= read << i*8` while the continuation bit is set.
`none`: end of data, or `i*8 >= 64` (undefined shift). -/
def readPackedGo (i packed : Nat) (s : List Bool) : Option (Nat × List Bool) :=
  if i < 8 then
    match readByte s with
    | none => none
    | some (b, s) =>
      let packed := packed ||| (b.toNat <<< (i * 8))
      if b.toNat &&& 0x80 ≠ 0 then readPackedGo (i + 1) packed s else some (packed, s)
  else none
termination_by 8 - i

/-- `HuffmanDecoder::readPackedInteger` / `WaveletDecoder::readPackedInteger`
(HuffmanCoders.cpp:618-632): including the `0x80 -> 1<<63` special case. -/
def readPacked (s : List Bool) : Option (Nat × List Bool) := do
  let (p, s) ← readPackedGo 0 0 s
  return (if p = 0x80 then 2 ^ 63 else p, s)

/-- `utils::readPackedInteger` (Utils.hpp:164-178): value, number of bytes and
rest of the stream; bits are read most significant first, so each byte is read
as by `readByte`.  `none`: end of data or shift amount `j >= 64`. -/
def readVarGo (j result bytes : Nat) (s : List Bool) : Option (Nat × Nat × List Bool) :=
  if j < 64 then
    match readByte s with
    | none => none
    | some (b, s) =>
      let result := result ||| ((b.toNat &&& 0x7F) <<< j)
      if b.toNat &&& 0x80 ≠ 0 then readVarGo (j + 7) result (bytes + 1) s
      else some (result, bytes + 1, s)
  else none
termination_by 64 - j

/-- `utils::readPackedInteger` (Utils.hpp:164-178). -/
def readVar (s : List Bool) : Option (Nat × Nat × List Bool) := readVarGo 0 0 0 s

/-- `utils::pushBitsRev` (Utils.hpp:388-394): bits appended, least significant first. -/
def bitsOfRev : Nat → Nat → List Bool
  | 0, _ => []
  | w + 1, n => (n &&& 1 == 1) :: bitsOfRev w (n >>> 1)

/-- One byte read least significant bit first (Utils.hpp:153-156):
`read |= bit << i`. -/
def natOfRev : List Bool → Nat
  | [] => 0
  | b :: bs => b.toNat + 2 * natOfRev bs

/-- `utils::readPackedIntegerRev` (Utils.hpp:148-162). -/
def readVarRevGo (j result bytes : Nat) (s : List Bool) : Option (Nat × Nat × List Bool) :=
  if j < 64 then
    match readBits 8 s with
    | none => none
    | some (bs, s) =>
      let b := natOfRev bs
      let result := result ||| ((b &&& 0x7F) <<< j)
      if b &&& 0x80 ≠ 0 then readVarRevGo (j + 7) result (bytes + 1) s
      else some (result, bytes + 1, s)
  else none
termination_by 64 - j

/-- `utils::readPackedIntegerRev` (Utils.hpp:148-162). -/
def readVarRev (s : List Bool) : Option (Nat × Nat × List Bool) := readVarRevGo 0 0 0 s

/-- `utils::packAndWriteInteger` (Utils.cpp:59-72): the bytes stored at `to`. -/
def packAndWrite (n : Nat) : List UInt8 :=
  if n = 0 then []
  else
    let b := n &&& 0x7F
    let n' := n >>> 7
    let b := if n' ≠ 0 then b ||| 0x80 else b
    UInt8.ofNat b :: packAndWrite n'
termination_by n
decreasing_by simp only [Nat.shiftRight_eq_div_pow]; omega

/-- `utils::readAndUnpackInteger` (Utils.cpp:75-87): value and number of bytes
read.  The buffer is the list of bytes from `from` on.  `none`: reads past the
buffer, or shifts by 64 or more (undefined).  The result is a 64-bit word. -/
def readAndUnpackGo (k result : Nat) : List UInt8 → Option (Nat × Nat)
  | [] => none
  | b :: bs =>
    if 7 * k < 64 then
      let result := result ||| (((b.toNat &&& 0x7F) <<< (7 * k)) % 2 ^ 64)
      if b.toNat &&& 0x80 = 0 then some (result, k + 1)
      else readAndUnpackGo (k + 1) result bs
    else none

/-- `utils::readAndUnpackInteger` (Utils.cpp:75-87). -/
def readAndUnpack (buf : List UInt8) : Option (Nat × Nat) := readAndUnpackGo 0 0 buf

/-! ## Helper lemmas: the byte string of an integer -/

/-- Specification of the byte string: little-endian base 128, continuation flag
128 on all but the last byte. -/
def vbytes (n : Nat) : List UInt8 :=
  if n < 128 then [UInt8.ofNat n]
  else UInt8.ofNat (n % 128 + 128) :: vbytes (n / 128)
termination_by n

/-- Little-endian value of a byte string. -/
def leNat : List UInt8 → Nat
  | [] => 0
  | b :: bs => b.toNat + 256 * leNat bs

theorem and_7F (n : Nat) : n &&& 0x7F = n % 128 := Nat.and_two_pow_sub_one_eq_mod n 7
theorem and_FF (n : Nat) : n &&& 0xFF = n % 256 := Nat.and_two_pow_sub_one_eq_mod n 8
theorem and_1 (n : Nat) : n &&& 1 = n % 2 := Nat.and_two_pow_sub_one_eq_mod n 1

theorem and_80 (n : Nat) : (n &&& 0x80 ≠ 0) ↔ n / 128 % 2 = 1 := by
  have h : n &&& 0x80 = (n / 128 % 2) * 128 := by
    apply Nat.eq_of_testBit_eq
    intro i
    rw [Nat.testBit_and, show (0x80:Nat) = 2 ^ 7 by rfl, Nat.testBit_two_pow]
    have h7 : n.testBit 7 = decide (n / 128 % 2 = 1) := by
      rw [Nat.testBit_eq_decide_div_mod_eq]
    have hc : n / 128 % 2 = 0 ∨ n / 128 % 2 = 1 := by omega
    rw [show (128:Nat) = 2 ^ 7 by rfl] at *
    by_cases hi : 7 = i
    · subst hi
      rcases hc with hb | hb
      · simp [h7, hb]
      · simp [h7, hb]; rfl
    · rcases hc with hb | hb
      · simp [hi, hb]
      · rw [hb, Nat.one_mul, Nat.testBit_two_pow]; simp [hi]
  rw [h]; omega

theorem or_shift {a x k : Nat} (h : a < 2 ^ k) : a ||| (x <<< k) = a + x * 2 ^ k := by
  rw [Nat.or_comm, ← Nat.shiftLeft_add_eq_or_of_lt h, Nat.shiftLeft_eq, Nat.add_comm]

theorem vbytes_ne_nil (n : Nat) : vbytes n ≠ [] := by
  rw [vbytes]; split <;> simp

theorem vbytes_length_pos (n : Nat) : 0 < (vbytes n).length :=
  List.length_pos_iff.mpr (vbytes_ne_nil n)

/-- The packed word fits in as many bytes as the string has. -/
theorem leNat_lt (l : List UInt8) : leNat l < 256 ^ l.length := by
  induction l with
  | nil => simp [leNat]
  | cons b l ih =>
    have := b.toNat_lt
    simp only [leNat, List.length_cons, Nat.pow_succ]
    omega

theorem vbytes_length_le {n k : Nat} (h : n < 128 ^ k) (hk : 0 < k) : (vbytes n).length ≤ k := by
  induction k generalizing n with
  | zero => omega
  | succ k ih =>
    rw [vbytes]
    split
    · simp
    · rename_i hn
      cases k with
      | zero => simp at h; omega
      | succ k =>
        have : n / 128 < 128 ^ (k + 1) := by
          rw [Nat.div_lt_iff_lt_mul (by omega)]; rw [Nat.pow_succ] at h; exact h
        have := ih this (by omega)
        simp; omega

theorem le_vbytes_length {n k : Nat} (h : 128 ^ k ≤ n) : k < (vbytes n).length := by
  induction k generalizing n with
  | zero => exact vbytes_length_pos n
  | succ k ih =>
    rw [Nat.pow_succ] at h
    have h1 : 0 < 128 ^ k := Nat.pow_pos (by omega)
    rw [vbytes, if_neg (by omega)]
    have : 128 ^ k ≤ n / 128 := by rw [Nat.le_div_iff_mul_le (by omega)]; exact h
    have := ih this
    simp; omega

theorem packGo_eq (n i res : Nat) (hn : n ≠ 0) (hres : res < 2 ^ (i * 8))
    (hi : i + (vbytes n).length ≤ 8) :
    packGo n i res = some (res + leNat (vbytes n) * 2 ^ (i * 8), i + (vbytes n).length) := by
  induction n using Nat.strongRecOn generalizing i res with
  | _ n ih =>
    have hpos := vbytes_length_pos n
    rw [packGo, if_neg hn, if_pos (by omega)]
    simp only [Nat.shiftRight_eq_div_pow, and_7F]
    rw [show (2:Nat) ^ 7 = 128 by rfl]
    rw [vbytes] at hi ⊢
    by_cases h : n < 128
    · have h0 : n / 128 = 0 := by omega
      rw [if_pos h] at hi ⊢
      simp only [h0, ne_eq, not_true, if_false]
      rw [packGo, if_pos rfl, or_shift hres, Nat.mod_eq_of_lt h]
      simp [leNat, Nat.mod_eq_of_lt (show n < 256 by omega)]
    · have h0 : n / 128 ≠ 0 := by omega
      rw [if_neg h] at hi ⊢
      simp only [ne_eq, h0, not_false_iff, if_true]
      simp only [List.length_cons] at hi ⊢
      have hb : (res ||| ((n % 128) <<< (i * 8))) ||| (128 <<< (i * 8))
          = res + (n % 128 + 128) * 2 ^ (i * 8) := by
        rw [Nat.or_assoc, ← Nat.shiftLeft_or_distrib]
        have : n % 128 ||| 128 = n % 128 + 128 := by
          have := @or_shift (n % 128) 1 7 (by omega)
          simpa using this
        rw [this, or_shift hres]
      rw [hb, ih (n / 128) (by omega) (i + 1) _ h0 ?_ (by omega)]
      · have hp : (2:Nat) ^ ((i + 1) * 8) = 256 * 2 ^ (i * 8) := by
          rw [Nat.add_mul, Nat.pow_add]; omega
        have hc : (UInt8.ofNat (n % 128 + 128)).toNat = n % 128 + 128 := by
          rw [UInt8.toNat_ofNat_of_lt']; simp [UInt8.size]; omega
        simp only [leNat, hc, hp, Option.some.injEq, Prod.mk.injEq]
        refine ⟨?_, by omega⟩
        rw [Nat.add_mul (n % 128 + 128)]
        have : leNat (vbytes (n / 128)) * (256 * 2 ^ (i * 8))
            = 256 * leNat (vbytes (n / 128)) * 2 ^ (i * 8) := by
          rw [← Nat.mul_assoc, Nat.mul_comm _ 256]
        omega
      · have hp : (2:Nat) ^ ((i + 1) * 8) = 256 * 2 ^ (i * 8) := by
          rw [Nat.add_mul, Nat.pow_add]; omega
        have : (n % 128 + 128) * 2 ^ (i * 8) ≤ 255 * 2 ^ (i * 8) :=
          Nat.mul_le_mul_right _ (by omega)
        omega

theorem packInteger_eq {n : Nat} (h : n < 2 ^ 56) :
    packInteger n = some (leNat (vbytes n), (vbytes n).length) := by
  by_cases hn : n = 0
  · subst hn; rw [vbytes]; simp [packInteger, packGo, leNat]
  · have hl : (vbytes n).length ≤ 8 := vbytes_length_le (k := 8) (by simpa using h) (by omega)
    have hpos := vbytes_length_pos n
    rw [packInteger, packGo_eq n 0 0 hn (by simp) (by omega)]
    simp
    intro h0
    exact absurd h0 (vbytes_ne_nil n)

/-- For `n >= 2^56` the C++ code runs into the undefined shift. -/
theorem packGo_none (n i res : Nat) (hi : i ≤ 8) (h : 128 ^ (8 - i) ≤ n) : packGo n i res = none := by
  induction n using Nat.strongRecOn generalizing i res with
  | _ n ih =>
    have hpos : 0 < 128 ^ (8 - i) := Nat.pow_pos (by omega)
    rw [packGo, if_neg (by omega)]
    by_cases h8 : i < 8
    · rw [if_pos h8]
      apply ih
      · simp only [Nat.shiftRight_eq_div_pow]; omega
      · omega
      · simp only [Nat.shiftRight_eq_div_pow]
        rw [Nat.le_div_iff_mul_le (by omega)]
        have : 8 - i = (8 - (i + 1)) + 1 := by omega
        rw [this, Nat.pow_succ] at h
        simpa using h
    · rw [if_neg h8]

theorem packInteger_none {n : Nat} (h : 2 ^ 56 ≤ n) : packInteger n = none := by
  rw [packInteger, packGo_none n 0 0 (by omega) (by simpa using h)]; rfl

/-- Last byte of a multi-byte string is nonzero, so the packed word determines it. -/
theorem leNat_vbytes_pos {n : Nat} (hn : n ≠ 0) : 0 < leNat (vbytes n) := by
  rw [vbytes]
  split
  · rename_i h
    have : (UInt8.ofNat n).toNat = n := by
      rw [UInt8.toNat_ofNat_of_lt']; simp [UInt8.size]; omega
    simp [leNat, this]; omega
  · have : (UInt8.ofNat (n % 128 + 128)).toNat = n % 128 + 128 := by
      rw [UInt8.toNat_ofNat_of_lt']; simp [UInt8.size]; omega
    simp only [leNat, this]; omega

theorem ofNat_leNat (b : UInt8) (k : Nat) : UInt8.ofNat (b.toNat + 256 * k) = b := by
  apply UInt8.toNat_inj.mp
  simp

theorem writePacked_vbytes (n : Nat) : writePacked (leNat (vbytes n)) = vbytes n := by
  induction n using Nat.strongRecOn with
  | _ n ih =>
    rw [vbytes]
    by_cases h : n < 128
    · rw [if_pos h, writePacked]
      have hc : (UInt8.ofNat n).toNat = n := by
        rw [UInt8.toNat_ofNat_of_lt']; simp [UInt8.size]; omega
      have h0 : n / 256 = 0 := by omega
      simp only [leNat, and_FF, Nat.shiftRight_eq_div_pow, hc]
      simp [h0]
      apply UInt8.toNat_inj.mp
      simp [UInt8.toNat_ofNat']
    · rw [if_neg h, writePacked]
      have hc : (UInt8.ofNat (n % 128 + 128)).toNat = n % 128 + 128 := by
        rw [UInt8.toNat_ofNat_of_lt']; simp [UInt8.size]; omega
      have hpos : 0 < leNat (vbytes (n / 128)) := leNat_vbytes_pos (by omega)
      have h1 : (leNat (UInt8.ofNat (n % 128 + 128) :: vbytes (n / 128))) >>> 8
          = leNat (vbytes (n / 128)) := by
        simp only [leNat, hc, Nat.shiftRight_eq_div_pow]; omega
      rw [h1, dif_neg (by omega), ih _ (by omega), and_FF]
      congr 1
      simp only [leNat, hc]
      apply UInt8.toNat_inj.mp
      simp [UInt8.toNat_ofNat']

theorem writeCounted_leNat (l : List UInt8) : writeCounted l.length (leNat l) = l := by
  induction l with
  | nil => rfl
  | cons b l ih =>
    have hb := b.toNat_lt
    have h1 : leNat (b :: l) >>> 8 = leNat l := by
      simp only [leNat, Nat.shiftRight_eq_div_pow]; omega
    rw [List.length_cons, writeCounted, h1, ih]
    congr 1
    rw [and_FF, leNat]
    apply UInt8.toNat_inj.mp
    simp

theorem vbytes_head_small {n : Nat} (h : n < 128) : (UInt8.ofNat n).toNat = n := by
  rw [UInt8.toNat_ofNat_of_lt']; simp [UInt8.size]; omega

theorem vbytes_head_big (n : Nat) : (UInt8.ofNat (n % 128 + 128)).toNat = n % 128 + 128 := by
  rw [UInt8.toNat_ofNat_of_lt']; simp [UInt8.size]; omega

theorem unpackGo_eq (n res bits : Nat) (hres : res < 2 ^ bits)
    (hb : bits + 7 * (vbytes n).length ≤ 70) :
    unpackGo (leNat (vbytes n)) res bits = some (res + n * 2 ^ bits) := by
  induction n using Nat.strongRecOn generalizing res bits with
  | _ n ih =>
    have hpos := vbytes_length_pos n
    rw [vbytes] at hb ⊢
    by_cases h : n < 128
    · rw [if_pos h] at hb ⊢
      rw [unpackGo, if_pos (by simp at hb; omega)]
      simp only [leNat, vbytes_head_small h]
      rw [if_neg (by rw [and_80]; omega), and_7F, or_shift hres]
      simp [Nat.mod_eq_of_lt h]
    · rw [if_neg h] at hb ⊢
      have hpos' := vbytes_length_pos (n / 128)
      simp only [List.length_cons] at hb
      rw [unpackGo, if_pos (by omega)]
      simp only [leNat, vbytes_head_big]
      rw [if_pos (by rw [and_80]; omega), and_7F, or_shift hres]
      have h1 : (n % 128 + 128 + 256 * leNat (vbytes (n / 128))) >>> 8 = leNat (vbytes (n / 128)) := by
        simp only [Nat.shiftRight_eq_div_pow]; omega
      have h2 : (n % 128 + 128 + 256 * leNat (vbytes (n / 128))) % 128 = n % 128 := by omega
      rw [h1, h2, ih (n / 128) (by omega) _ _ ?_ (by omega)]
      · rw [Nat.pow_add]
        congr 1
        have : n * 2 ^ bits = (n % 128 + 128 * (n / 128)) * 2 ^ bits := by
          congr 1; omega
        rw [this, Nat.add_mul]
        have : n / 128 * (2 ^ bits * 2 ^ 7) = 128 * (n / 128) * 2 ^ bits := by
          rw [Nat.mul_comm (2 ^ bits), ← Nat.mul_assoc, Nat.mul_comm (n / 128)]
        omega
      · rw [Nat.pow_add]
        have : n % 128 * 2 ^ bits ≤ 127 * 2 ^ bits := Nat.mul_le_mul_right _ (by omega)
        omega

theorem readPackedGo_eq (n i packed : Nat) (s : List Bool) (hp : packed < 2 ^ (i * 8))
    (hi : i + (vbytes n).length ≤ 8) :
    readPackedGo i packed (bytesBits (vbytes n) ++ s)
      = some (packed + leNat (vbytes n) * 2 ^ (i * 8), s) := by
  induction n using Nat.strongRecOn generalizing i packed with
  | _ n ih =>
    have hpos := vbytes_length_pos n
    rw [vbytes] at hi ⊢
    by_cases h : n < 128
    · rw [if_pos h] at hi ⊢
      rw [readPackedGo, if_pos (by simp at hi; omega), bytesBits_cons, bytesBits_nil, List.append_nil, readByte_byteBits]
      simp only [leNat, vbytes_head_small h]
      rw [if_neg (by rw [and_80]; omega), or_shift hp]
      simp
    · rw [if_neg h] at hi ⊢
      simp only [List.length_cons] at hi
      rw [readPackedGo, if_pos (by omega), bytesBits_cons, List.append_assoc, readByte_byteBits]
      simp only [leNat, vbytes_head_big]
      rw [if_pos (by rw [and_80]; omega), or_shift hp]
      have hpw : (2:Nat) ^ ((i + 1) * 8) = 256 * 2 ^ (i * 8) := by
        rw [Nat.add_mul, Nat.pow_add]; omega
      rw [ih (n / 128) (by omega) _ _ ?_ (by omega), hpw]
      · rw [Nat.add_mul (n % 128 + 128)]
        have : leNat (vbytes (n / 128)) * (256 * 2 ^ (i * 8))
            = 256 * leNat (vbytes (n / 128)) * 2 ^ (i * 8) := by
          rw [← Nat.mul_assoc, Nat.mul_comm _ 256]
        congr 2
        omega
      · rw [hpw]
        have : (n % 128 + 128) * 2 ^ (i * 8) ≤ 255 * 2 ^ (i * 8) :=
          Nat.mul_le_mul_right _ (by omega)
        omega

theorem readVarGo_eq (n j res bytes : Nat) (s : List Bool) (hres : res < 2 ^ j)
    (hb : j + 7 * (vbytes n).length ≤ 70) :
    readVarGo j res bytes (bytesBits (vbytes n) ++ s)
      = some (res + n * 2 ^ j, bytes + (vbytes n).length, s) := by
  induction n using Nat.strongRecOn generalizing j res bytes with
  | _ n ih =>
    rw [vbytes] at hb ⊢
    by_cases h : n < 128
    · rw [if_pos h] at hb ⊢
      rw [readVarGo, if_pos (by simp at hb; omega), bytesBits_cons, bytesBits_nil,
        List.append_nil, readByte_byteBits]
      simp only [vbytes_head_small h]
      rw [if_neg (by rw [and_80]; omega), and_7F, or_shift hres]
      simp [Nat.mod_eq_of_lt h]
    · rw [if_neg h] at hb ⊢
      have hpos' := vbytes_length_pos (n / 128)
      simp only [List.length_cons] at hb
      rw [readVarGo, if_pos (by omega), bytesBits_cons, List.append_assoc, readByte_byteBits]
      simp only [vbytes_head_big]
      rw [if_pos (by rw [and_80]; omega), and_7F, or_shift hres]
      have h2 : (n % 128 + 128) % 128 = n % 128 := by omega
      rw [h2, ih (n / 128) (by omega) _ _ _ ?_ (by omega)]
      · rw [Nat.pow_add, List.length_cons]
        have : n * 2 ^ j = (n % 128 + 128 * (n / 128)) * 2 ^ j := by
          congr 1; omega
        rw [this, Nat.add_mul]
        have : n / 128 * (2 ^ j * 2 ^ 7) = 128 * (n / 128) * 2 ^ j := by
          rw [Nat.mul_comm (2 ^ j), ← Nat.mul_assoc, Nat.mul_comm (n / 128)]
        rw [this]
        congr 2
        · omega
        · congr 1; omega
      · rw [Nat.pow_add]
        have : n % 128 * 2 ^ j ≤ 127 * 2 ^ j := Nat.mul_le_mul_right _ (by omega)
        omega

theorem bitsOfRev_length (w n : Nat) : (bitsOfRev w n).length = w := by
  induction w generalizing n with
  | zero => rfl
  | succ w ih => simp [bitsOfRev, ih]

theorem natOfRev_bitsOfRev (w n : Nat) : natOfRev (bitsOfRev w n) = n % 2 ^ w := by
  induction w generalizing n with
  | zero => simp [bitsOfRev, natOfRev, Nat.mod_one]
  | succ w ih =>
    rw [bitsOfRev, natOfRev, ih, and_1, Nat.shiftRight_eq_div_pow]
    have h := @Nat.mod_mul 2 (2 ^ w) n
    rw [show (2:Nat) ^ (w + 1) = 2 * 2 ^ w by rw [Nat.pow_succ, Nat.mul_comm], h]
    have : n % 2 = 0 ∨ n % 2 = 1 := by omega
    rcases this with h | h <;> simp [h]

theorem bitsOfRev_add (a b n : Nat) :
    bitsOfRev (a + b) n = bitsOfRev a n ++ bitsOfRev b (n >>> a) := by
  induction a generalizing n with
  | zero => simp [bitsOfRev]
  | succ a ih =>
    rw [show a + 1 + b = (a + b) + 1 by omega, bitsOfRev, ih, bitsOfRev, ← Nat.shiftRight_add,
      Nat.add_comm 1 a]
    rfl

theorem readVarRevGo_eq (n j res bytes : Nat) (s : List Bool) (hres : res < 2 ^ j)
    (hb : j + 7 * (vbytes n).length ≤ 70) :
    readVarRevGo j res bytes (bitsOfRev (8 * (vbytes n).length) (leNat (vbytes n)) ++ s)
      = some (res + n * 2 ^ j, bytes + (vbytes n).length, s) := by
  induction n using Nat.strongRecOn generalizing j res bytes with
  | _ n ih =>
    rw [vbytes] at hb ⊢
    by_cases h : n < 128
    · rw [if_pos h] at hb ⊢
      rw [readVarRevGo, if_pos (by simp at hb; omega)]
      simp only [leNat, vbytes_head_small h, List.length_singleton]
      rw [readBits_append' (bitsOfRev_length _ _)]
      simp only [natOfRev_bitsOfRev]
      rw [if_neg (by rw [and_80]; omega), and_7F, or_shift hres]
      simp [Nat.mod_eq_of_lt h]
    · rw [if_neg h] at hb ⊢
      have hpos' := vbytes_length_pos (n / 128)
      simp only [List.length_cons] at hb ⊢
      rw [readVarRevGo, if_pos (by omega)]
      simp only [leNat, vbytes_head_big]
      rw [show 8 * ((vbytes (n / 128)).length + 1) = 8 + 8 * (vbytes (n / 128)).length by omega,
        bitsOfRev_add, List.append_assoc, readBits_append' (bitsOfRev_length _ _)]
      simp only [natOfRev_bitsOfRev]
      have h1 : (n % 128 + 128 + 256 * leNat (vbytes (n / 128))) >>> 8 = leNat (vbytes (n / 128)) := by
        simp only [Nat.shiftRight_eq_div_pow]; omega
      rw [h1, if_pos (by rw [and_80]; omega), and_7F, or_shift hres]
      have h2 : (n % 128 + 128 + 256 * leNat (vbytes (n / 128))) % 2 ^ 8 % 128 = n % 128 := by omega
      rw [h2, ih (n / 128) (by omega) _ _ _ ?_ (by omega)]
      · rw [Nat.pow_add]
        have : n * 2 ^ j = (n % 128 + 128 * (n / 128)) * 2 ^ j := by
          congr 1; omega
        rw [this, Nat.add_mul]
        have : n / 128 * (2 ^ j * 2 ^ 7) = 128 * (n / 128) * 2 ^ j := by
          rw [Nat.mul_comm (2 ^ j), ← Nat.mul_assoc, Nat.mul_comm (n / 128)]
        rw [this]
        congr 2
        · omega
        · congr 1; omega
      · rw [Nat.pow_add]
        have : n % 128 * 2 ^ j ≤ 127 * 2 ^ j := Nat.mul_le_mul_right _ (by omega)
        omega

/-! ### In-memory variant -/

theorem packAndWrite_eq {n : Nat} (hn : n ≠ 0) : packAndWrite n = vbytes n := by
  induction n using Nat.strongRecOn with
  | _ n ih =>
    rw [packAndWrite, if_neg hn, vbytes]
    simp only [Nat.shiftRight_eq_div_pow, and_7F]
    rw [show (2:Nat) ^ 7 = 128 by rfl]
    by_cases h : n < 128
    · have h0 : n / 128 = 0 := by omega
      rw [if_pos h]
      simp only [h0, ne_eq, not_true, if_false]
      rw [packAndWrite, if_pos rfl]
      congr 2; omega
    · have h0 : n / 128 ≠ 0 := by omega
      rw [if_neg h]
      simp only [ne_eq, h0, not_false_iff, if_true]
      rw [ih _ (by omega) h0]
      congr 2
      have := @or_shift (n % 128) 1 7 (by omega)
      simpa using this

theorem readAndUnpackGo_eq (n k res : Nat) (rest : List UInt8) (hres : res < 2 ^ (7 * k))
    (hk : n * 2 ^ (7 * k) < 2 ^ 64) (hn : k = 0 ∨ n ≠ 0) :
    readAndUnpackGo k res (vbytes n ++ rest) = some (res + n * 2 ^ (7 * k), k + (vbytes n).length) := by
  induction n using Nat.strongRecOn generalizing k res with
  | _ n ih =>
    have hlt : 7 * k < 64 := by
      rcases hn with rfl | hn
      · omega
      · have h1 : 2 ^ (7 * k) ≤ n * 2 ^ (7 * k) := Nat.le_mul_of_pos_left _ (by omega)
        exact (Nat.pow_lt_pow_iff_right (by omega : 1 < 2)).mp (Nat.lt_of_le_of_lt h1 hk)
    rw [vbytes]
    by_cases h : n < 128
    · rw [if_pos h]
      simp only [List.cons_append, List.nil_append, readAndUnpackGo]
      rw [if_pos hlt, vbytes_head_small h]
      have : ¬ (n &&& 0x80 ≠ 0) := by rw [and_80]; omega
      rw [if_pos (by simpa using this), and_7F, Nat.mod_eq_of_lt (by rw [Nat.shiftLeft_eq, Nat.mod_eq_of_lt h]; exact hk), or_shift hres]
      simp [Nat.mod_eq_of_lt h]
    · rw [if_neg h]
      simp only [List.cons_append, readAndUnpackGo]
      rw [if_pos hlt, vbytes_head_big]
      have : (n % 128 + 128) &&& 0x80 ≠ 0 := by rw [and_80]; omega
      have h2 : (n % 128 + 128) % 128 = n % 128 := by omega
      have hsplit : n * 2 ^ (7 * k) = n % 128 * 2 ^ (7 * k) + n / 128 * 2 ^ (7 * (k + 1)) := by
        rw [show 7 * (k + 1) = 7 * k + 7 by omega, Nat.pow_add]
        have e : n / 128 * (2 ^ (7 * k) * 2 ^ 7) = 128 * (n / 128) * 2 ^ (7 * k) := by
          rw [Nat.mul_comm (2 ^ (7 * k)), ← Nat.mul_assoc, Nat.mul_comm (n / 128)]
        rw [e, ← Nat.add_mul]
        congr 1; omega
      rw [if_neg this, and_7F, h2,
        Nat.mod_eq_of_lt (a := (n % 128) <<< (7 * k)) (by rw [Nat.shiftLeft_eq]; omega),
        or_shift hres, ih (n / 128) (by omega) _ _ ?_ (by omega) (Or.inr (by omega))]
      · rw [List.length_cons]
        congr 2
        · omega
        · omega
      · rw [show 7 * (k + 1) = 7 * k + 7 by omega, Nat.pow_add]
        have : n % 128 * 2 ^ (7 * k) ≤ 127 * 2 ^ (7 * k) := Nat.mul_le_mul_right _ (by omega)
        omega

end Bwtc.Varint
