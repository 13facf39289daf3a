/-!
# Bits, bytes and the abstract input stream

The abstract view of a byte stream that is read bitwise is the list of its
remaining bits (most significant bit of each byte first).  `Verif.Streams`
proves that the buffered `RawInStream` of the code refines this view.
-/

set_option autoImplicit false

namespace Bwtc

/-- The `w` low bits of `n`, most significant first.
Models `utils::pushBits` (Utils.hpp:223-228 and 382-386): the bits appended to
the bit vector.  `(n >> (bits-i)) & 1` for `i = 1..bits`. -/
def bitsOf : Nat → Nat → List Bool
  | 0, _ => []
  | w + 1, n => (n / 2 ^ w % 2 == 1) :: bitsOf w n

/-- The value of a bit string read most significant bit first, starting from an
accumulator.  Models the loops `result <<= 1; result |= bit` (Utils.hpp:307-310,
BWTBlock.cpp:90-97). -/
def natOfAux : Nat → List Bool → Nat
  | acc, [] => acc
  | acc, b :: bs => natOfAux (2 * acc + b.toNat) bs

/-- Value of a bit string, most significant bit first. -/
def natOf (bs : List Bool) : Nat := natOfAux 0 bs

/-- The eight bits of a byte, most significant first. -/
def byteBits (b : UInt8) : List Bool := bitsOf 8 b.toNat

/-- The bits of a byte sequence in stream order. -/
def bytesBits (l : List UInt8) : List Bool := l.flatMap byteBits

/-- `InStream::readBit` on the abstract stream (Streams.hpp:120-126).
`none`: past the end of the data. -/
def readBit : List Bool → Option (Bool × List Bool)
  | [] => none
  | b :: s => some (b, s)

/-- Reading `n` single bits. -/
def readBits : Nat → List Bool → Option (List Bool × List Bool)
  | 0, s => some ([], s)
  | n + 1, s => do
    let (b, s) ← readBit s
    let (bs, s) ← readBits n s
    return (b :: bs, s)

/-- `InStream::readByte` on the abstract stream (Streams.hpp:128-133): the next
eight bits, also when the stream is not byte aligned. -/
def readByte (s : List Bool) : Option (UInt8 × List Bool) := do
  let (bs, s) ← readBits 8 s
  return (UInt8.ofNat (natOf bs), s)

/-- `InStream::flushBuffer` on the abstract stream (Streams.hpp:135-137): drop
the bits up to the next byte boundary.  The underlying file consists of whole
bytes, so the number of pending bits of the current byte is the remaining length
modulo eight. -/
def alignIn (s : List Bool) : List Bool := s.drop (s.length % 8)

/-- Pack bits into bytes, most significant bit first, the last byte padded with
zeros.  Models the byte-assembling loops HuffmanCoders.cpp:183-192,
WaveletCoders.cpp and BWTBlock.cpp:70-83. -/
def packBits : List Bool → List UInt8
  | [] => []
  | b :: bs =>
    UInt8.ofNat (natOf (((b :: bs).take 8) ++ List.replicate (8 - (b :: bs).length) false))
      :: packBits ((b :: bs).drop 8)
termination_by l => l.length
decreasing_by simp; omega

/-! ## Lemmas -/

@[simp] theorem bitsOf_length (w n : Nat) : (bitsOf w n).length = w := by
  induction w with
  | zero => rfl
  | succ w ih => simp [bitsOf, ih]

theorem natOfAux_eq (acc : Nat) (bs : List Bool) :
    natOfAux acc bs = acc * 2 ^ bs.length + natOf bs := by
  unfold natOf
  induction bs generalizing acc with
  | nil => simp [natOfAux]
  | cons b bs ih =>
    simp only [natOfAux, List.length_cons]
    rw [ih, ih (2 * 0 + b.toNat), Nat.pow_succ]
    simp only [Nat.add_mul, Nat.mul_zero, Nat.zero_add]
    have : 2 * acc * 2 ^ bs.length = acc * (2 ^ bs.length * 2) := by
      rw [Nat.mul_comm 2 acc, Nat.mul_assoc, Nat.mul_comm 2]
    omega

@[simp] theorem natOf_nil : natOf [] = 0 := rfl

theorem natOf_cons (b : Bool) (bs : List Bool) :
    natOf (b :: bs) = b.toNat * 2 ^ bs.length + natOf bs := by
  have := natOfAux_eq (2 * 0 + b.toNat) bs
  simpa [natOf, natOfAux] using this

theorem natOf_append (a b : List Bool) :
    natOf (a ++ b) = natOf a * 2 ^ b.length + natOf b := by
  induction a with
  | nil => simp
  | cons x a ih =>
    simp only [List.cons_append, natOf_cons, ih, List.length_append, Nat.pow_add, Nat.add_mul,
      Nat.mul_assoc]
    omega

theorem natOf_lt (bs : List Bool) : natOf bs < 2 ^ bs.length := by
  induction bs with
  | nil => simp
  | cons b bs ih =>
    rw [natOf_cons, List.length_cons, Nat.pow_succ]
    cases b <;> simp <;> omega

theorem natOf_bitsOf (w n : Nat) : natOf (bitsOf w n) = n % 2 ^ w := by
  induction w with
  | zero => simp [bitsOf, Nat.mod_one]
  | succ w ih =>
    rw [bitsOf, natOf_cons, ih, bitsOf_length]
    have h1 : n % 2 ^ (w + 1) = n % 2 ^ w + 2 ^ w * (n / 2 ^ w % 2) := Nat.mod_pow_succ
    rw [h1]
    have : n / 2 ^ w % 2 = 0 ∨ n / 2 ^ w % 2 = 1 := by omega
    rcases this with h | h <;> simp [h] <;> omega

theorem natOf_bitsOf_of_lt {w n : Nat} (h : n < 2 ^ w) : natOf (bitsOf w n) = n := by
  rw [natOf_bitsOf, Nat.mod_eq_of_lt h]

theorem natOf_replicate_false (k : Nat) : natOf (List.replicate k false) = 0 := by
  induction k with
  | zero => rfl
  | succ k ih => simp [List.replicate_succ, natOf_cons, ih]

theorem bitsOf_add_mul (w n k : Nat) : bitsOf w (n + k * 2 ^ w) = bitsOf w n := by
  induction w generalizing k with
  | zero => rfl
  | succ w ih =>
    rw [bitsOf, bitsOf]
    have h1 : n + k * 2 ^ (w + 1) = n + (2 * k) * 2 ^ w := by
      rw [Nat.pow_succ]
      congr 1
      rw [Nat.mul_comm 2 k, Nat.mul_assoc, Nat.mul_comm (2 ^ w)]
    rw [h1, ih, Nat.add_mul_div_right _ _ (Nat.two_pow_pos w)]
    congr 2
    omega

theorem bitsOf_natOf (bs : List Bool) : bitsOf bs.length (natOf bs) = bs := by
  induction bs with
  | nil => rfl
  | cons b bs ih =>
    rw [List.length_cons, bitsOf, natOf_cons]
    have hlt := natOf_lt bs
    congr 1
    · have : (b.toNat * 2 ^ bs.length + natOf bs) / 2 ^ bs.length = b.toNat := by
        rw [Nat.add_comm, Nat.add_mul_div_right _ _ (Nat.two_pow_pos _),
          Nat.div_eq_of_lt hlt]; omega
      rw [this]; cases b <;> rfl
    · rw [Nat.add_comm, bitsOf_add_mul, ih]

theorem bitsOf_mod (w n : Nat) : bitsOf w (n % 2 ^ w) = bitsOf w n := by
  conv => rhs; rw [← Nat.div_add_mod n (2 ^ w), Nat.add_comm, Nat.mul_comm]
  rw [bitsOf_add_mul]

theorem bitsOf_inj {w a b : Nat} (ha : a < 2 ^ w) (hb : b < 2 ^ w)
    (h : bitsOf w a = bitsOf w b) : a = b := by
  rw [← natOf_bitsOf_of_lt ha, ← natOf_bitsOf_of_lt hb, h]

@[simp] theorem byteBits_length (b : UInt8) : (byteBits b).length = 8 := by simp [byteBits]

theorem natOf_byteBits (b : UInt8) : natOf (byteBits b) = b.toNat :=
  natOf_bitsOf_of_lt b.toNat_lt

@[simp] theorem bytesBits_nil : bytesBits [] = [] := rfl
@[simp] theorem bytesBits_cons (b : UInt8) (l : List UInt8) :
    bytesBits (b :: l) = byteBits b ++ bytesBits l := by simp [bytesBits]
@[simp] theorem bytesBits_append (a b : List UInt8) :
    bytesBits (a ++ b) = bytesBits a ++ bytesBits b := by simp [bytesBits]

theorem bytesBits_length (l : List UInt8) : (bytesBits l).length = 8 * l.length := by
  induction l with
  | nil => rfl
  | cons b l ih => simp [ih]; omega

theorem readBits_append (a s : List Bool) : readBits a.length (a ++ s) = some (a, s) := by
  induction a with
  | nil => rfl
  | cons b a ih => simp [readBits, readBit, ih]

theorem readBits_append' {n : Nat} {a s : List Bool} (h : a.length = n) :
    readBits n (a ++ s) = some (a, s) := h ▸ readBits_append a s

theorem readByte_byteBits (b : UInt8) (s : List Bool) :
    readByte (byteBits b ++ s) = some (b, s) := by
  unfold readByte
  rw [readBits_append' (byteBits_length b)]
  simp [natOf_byteBits]

theorem alignIn_aligned {s : List Bool} (h : s.length % 8 = 0) : alignIn s = s := by
  simp [alignIn, h]

theorem alignIn_pad (p s : List Bool) (hp : p.length < 8) (hs : s.length % 8 = 0) :
    alignIn (p ++ s) = s := by
  unfold alignIn
  have : (p ++ s).length % 8 = p.length := by simp; omega
  rw [this]; simp

/-- Packing yields the bits followed by fewer than eight zero bits. -/
theorem bytesBits_packBits (bs : List Bool) :
    ∃ k, k < 8 ∧ bytesBits (packBits bs) = bs ++ List.replicate k false := by
  fun_induction packBits bs with
  | case1 => exact ⟨0, by omega, rfl⟩
  | case2 b bs ih =>
    obtain ⟨k, hk, hb⟩ := ih
    by_cases hlen : (b :: bs).length ≤ 8
    · have hd : (b :: bs).drop 8 = [] := List.drop_eq_nil_of_le hlen
      have ht : (b :: bs).take 8 = b :: bs := List.take_of_length_le hlen
      refine ⟨8 - (b :: bs).length, by simp; omega, ?_⟩
      rw [hd, ht] at *
      simp only [bytesBits_cons, packBits, bytesBits_nil, List.append_nil, byteBits]
      have hl : ((b :: bs) ++ List.replicate (8 - (b :: bs).length) false).length = 8 := by
        rw [List.length_append, List.length_replicate]; omega
      have hlt := natOf_lt ((b :: bs) ++ List.replicate (8 - (b :: bs).length) false)
      rw [hl] at hlt
      have := bitsOf_natOf ((b :: bs) ++ List.replicate (8 - (b :: bs).length) false)
      rw [hl] at this
      rw [UInt8.toNat_ofNat_of_lt' (by simpa [UInt8.size] using hlt)]
      exact this
    · refine ⟨k, hk, ?_⟩
      rw [bytesBits_cons, hb]
      have h0 : 8 - (b :: bs).length = 0 := by omega
      rw [h0, List.replicate_zero, List.append_nil, byteBits]
      have hl : ((b :: bs).take 8).length = 8 := by rw [List.length_take]; omega
      have hlt := natOf_lt ((b :: bs).take 8)
      rw [hl] at hlt
      have := bitsOf_natOf ((b :: bs).take 8)
      rw [hl] at this
      rw [UInt8.toNat_ofNat_of_lt' (by simpa [UInt8.size] using hlt), this, ← List.append_assoc,
        List.take_append_drop]

theorem packBits_length (bs : List Bool) : (packBits bs).length = (bs.length + 7) / 8 := by
  obtain ⟨k, hk, h⟩ := bytesBits_packBits bs
  have := congrArg List.length h
  rw [bytesBits_length] at this
  simp at this
  omega

theorem bitsOf_add (a b n : Nat) : bitsOf (a + b) n = bitsOf a (n / 2 ^ b) ++ bitsOf b n := by
  induction a with
  | zero => simp [bitsOf]
  | succ a ih =>
    rw [show a + 1 + b = (a + b) + 1 by omega, bitsOf, ih, bitsOf, List.cons_append]
    congr 3
    rw [Nat.div_div_eq_div_mul, ← Nat.pow_add, Nat.add_comm b a]

theorem bitsOf_mod_le {w m : Nat} (h : w ≤ m) (n : Nat) : bitsOf w (n % 2 ^ m) = bitsOf w n := by
  rw [← bitsOf_mod w (n % 2 ^ m), ← bitsOf_mod w n, Nat.mod_mod_of_dvd _ (Nat.pow_dvd_pow 2 h)]

theorem packBits_bytes (l : List UInt8) : packBits (bytesBits l) = l := by
  induction l with
  | nil => simp [packBits]
  | cons b l ih =>
    have hb := byteBits_length b
    have hne : bytesBits (b :: l) ≠ [] := by
      intro hc
      have := congrArg List.length hc
      simp [hb] at this
    obtain ⟨x, xs, hx⟩ : ∃ x xs, bytesBits (b :: l) = x :: xs := by
      cases h : bytesBits (b :: l) with
      | nil => exact absurd h hne
      | cons x xs => exact ⟨x, xs, rfl⟩
    rw [hx, packBits, ← hx]
    have htake : (bytesBits (b :: l)).take 8 = byteBits b := by
      rw [bytesBits_cons, ← hb, List.take_left']
      rfl
    have hdrop : (bytesBits (b :: l)).drop 8 = bytesBits l := by
      rw [bytesBits_cons, ← hb, List.drop_left']
      rfl
    have hlen : 8 - (bytesBits (b :: l)).length = 0 := by
      simp [hb]
    rw [htake, hdrop, hlen, ih]
    simp [natOf_byteBits]

/-- A header followed by zero padding to a byte boundary, followed by aligned data. -/
theorem bytesBits_packBits_append (bs : List Bool) (rest : List UInt8) :
    ∃ k, k < 8 ∧ bytesBits (packBits bs ++ rest) = bs ++ (List.replicate k false ++ bytesBits rest) := by
  obtain ⟨k, hk, h⟩ := bytesBits_packBits bs
  exact ⟨k, hk, by rw [bytesBits_append, h, List.append_assoc]⟩

end Bwtc
