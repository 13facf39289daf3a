import Verif.SmallUtils

/-!
# C70: the small helpers
-/

set_option autoImplicit false

namespace Bwtc.Props
open SmallUtils Varint

/-- Bit `i` of `s` is set iff one of the `k` bits of `n` from `i` on is. -/
def Spreads (k : Nat) (n s : BitVec 32) : Prop := ∀ i, s.getLsbD i = true ↔ ∃ j, j < k ∧ n.getLsbD (i + j) = true

theorem spreads_one (n : BitVec 32) : Spreads 1 n n := by
  intro i
  constructor
  · intro h; exact ⟨0, by omega, h⟩
  · rintro ⟨j, h1, h2⟩
    rw [show j = 0 by omega] at h2
    exact h2

theorem Spreads.double {k : Nat} {n s : BitVec 32} (h : Spreads k n s) : Spreads (2 * k) n (smear k s) := by
  intro i
  rw [smear, BitVec.getLsbD_or, BitVec.getLsbD_ushiftRight, Bool.or_eq_true, h i, h (k + i)]
  constructor
  · rintro (⟨j, h1, h2⟩ | ⟨j, h1, h2⟩)
    · exact ⟨j, by omega, h2⟩
    · exact ⟨k + j, by omega, by rw [show i + (k + j) = k + i + j by omega]; exact h2⟩
  · rintro ⟨j, h1, h2⟩
    by_cases hj : j < k
    · exact .inl ⟨j, hj, h2⟩
    · exact .inr ⟨j - k, by omega, by rw [show k + i + (j - k) = i + j by omega]; exact h2⟩

theorem Spreads.top {k : Nat} {n s : BitVec 32} (h : Spreads k n s) (hk : 0 < k) (hn : n.toNat < 2 ^ (k + 1)) (i : Nat) :
    (topOf s).getLsbD i = true ↔ n.getLsbD i = true ∧ ∀ m, i < m → n.getLsbD m = false := by
  have big : ∀ m, k + 1 ≤ m → n.getLsbD m = false := fun m hm =>
    Nat.testBit_lt_two_pow (Nat.lt_of_lt_of_le hn (Nat.pow_le_pow_right (by decide) hm))
  rw [topOf, BitVec.getLsbD_and, BitVec.getLsbD_not, BitVec.getLsbD_ushiftRight, Bool.and_eq_true, Bool.and_eq_true, decide_eq_true_iff,
    Bool.not_eq_true', ← Bool.not_eq_true, h i, h (1 + i)]
  constructor
  · rintro ⟨⟨j, h1, h2⟩, _, h4⟩
    have hj : j = 0 := Classical.byContradiction fun hj =>
      h4 ⟨j - 1, by omega, by rw [show 1 + i + (j - 1) = i + j by omega]; exact h2⟩
    subst hj
    refine ⟨h2, fun m hm => ?_⟩
    by_cases hm2 : m < 1 + i + k
    · rw [← Bool.not_eq_true]
      intro h5
      exact h4 ⟨m - (1 + i), by omega, by rw [show 1 + i + (m - (1 + i)) = m by omega]; exact h5⟩
    · exact big m (by omega)
  · rintro ⟨h1, h2⟩
    refine ⟨⟨0, hk, h1⟩, ?_, ?_⟩
    · exact Classical.byContradiction fun h3 => by
        rw [BitVec.getLsbD_of_ge _ _ (by omega)] at h1
        cases h1
    · rintro ⟨j, h3, h4⟩
      rw [h2 _ (by omega)] at h4
      cases h4

/-- `r` is the highest power of two in `n`: 0 if `n` is 0, else the power of two `r` with `r ≤ n < 2 r`. -/
def HighestPower (n r : Nat) : Prop := if n = 0 then r = 0 else ∃ b, r = 2 ^ b ∧ r ≤ n ∧ n < 2 * r

theorem Spreads.highest {k : Nat} {n s : BitVec 32} (h : Spreads k n s) (hk : 0 < k) (hn : n.toNat < 2 ^ (k + 1)) :
    HighestPower n.toNat (topOf s).toNat := by
  have ht := h.top hk hn
  rw [HighestPower]
  by_cases h0 : n.toNat = 0
  · rw [if_pos h0]
    apply Nat.eq_of_testBit_eq
    intro i
    rw [Nat.zero_testBit, ← Bool.not_eq_true]
    intro hi
    have := (ht i).mp hi
    rw [BitVec.getLsbD, h0, Nat.zero_testBit] at this
    cases this.1
  · rw [if_neg h0]
    have l1 := Nat.log2_self_le h0
    have l2 := Nat.lt_log2_self (n := n.toNat)
    have e : (topOf s).toNat = 2 ^ n.toNat.log2 := by
      apply Nat.eq_of_testBit_eq
      intro i
      rw [Nat.testBit_two_pow, Bool.eq_iff_iff, decide_eq_true_iff]
      refine Iff.trans (ht i) ?_
      constructor
      · rintro ⟨h1, h2⟩
        have g1 : 2 ^ i ≤ n.toNat := Nat.ge_two_pow_of_testBit h1
        have g2 : n.toNat < 2 ^ (i + 1) := Nat.lt_pow_two_of_testBit _ fun m hm => h2 m (by omega)
        have a1 := (Nat.le_log2 h0).mpr g1
        have a2 := (Nat.log2_lt h0).mpr g2
        omega
      · rintro rfl
        exact ⟨Nat.testBit_log2 h0, fun m hm => Nat.testBit_lt_two_pow (Nat.lt_of_lt_of_le l2 (Nat.pow_le_pow_right (by decide) hm))⟩
    refine ⟨_, e, by rw [e]; exact l1, ?_⟩
    rw [e, ← Nat.pow_succ']
    exact l2

/-- C70: `mostSignificantBit` gives the highest power of two of every 32-bit number. -/
theorem C70_msb (n : BitVec 32) : HighestPower n.toNat (msb n).toNat := by
  have h := (((((spreads_one n).double).double).double).double).double
  exact h.highest (by decide) (Nat.lt_of_lt_of_le n.isLt (by decide))

/-- C70: `mostSignificantBit16` gives the highest power of two of every number below 2^17, twice the range its assertion asks for. -/
theorem C70_msb16 (n : BitVec 32) (h : n.toNat < 2 ^ 17) : HighestPower n.toNat (msb16 n).toNat := by
  have hs := ((((spreads_one n).double).double).double).double
  exact hs.highest (by decide) h

/-- The bound of `C70_msb16` is sharp: the first number for which two bits are left is 2^17 + 1. -/
theorem C70_msb16_sharp : ¬ HighestPower 131073 (msb16 131073#32).toNat := by
  have : (msb16 131073#32).toNat = 131073 := by decide
  rw [HighestPower, if_neg (by decide), this]
  rintro ⟨b, h1, _⟩
  have := congrArg (·.testBit 0) h1
  have hb : b ≠ 0 := by rintro rfl; cases h1
  simp only [Nat.testBit_two_pow] at this
  rw [decide_eq_false (by omega)] at this
  exact absurd this (by decide)

theorem prefixGo_eq (a b : List UInt8) (left j : Nat) (p : Bool) (ha : j + left ≤ a.length) (hb : j + left ≤ b.length) :
    prefixGo a b left j p = some (p && decide (∀ i, i < left → a[j + i]? = b[j + i]?)) := by
  induction left generalizing j p with
  | zero => simp [prefixGo]
  | succ left ih =>
    rw [prefixGo, List.getElem?_eq_getElem (by omega), List.getElem?_eq_getElem (by omega)]
    simp only [Option.bind_eq_bind, Option.bind_some]
    rw [ih _ _ (by omega) (by omega), Option.some.injEq, Bool.eq_iff_iff, Bool.and_eq_true, Bool.and_eq_true, decide_eq_true_iff, decide_eq_true_iff]
    have h0 : a[j + 0]? = b[j + 0]? ↔ a[j] = b[j] := by
      rw [Nat.add_zero, List.getElem?_eq_getElem (by omega), List.getElem?_eq_getElem (by omega), Option.some.injEq]
    have key : (∀ i, i < left + 1 → a[j + i]? = b[j + i]?) ↔ a[j] = b[j] ∧ ∀ i, i < left → a[j + 1 + i]? = b[j + 1 + i]? := by
      constructor
      · intro h
        exact ⟨h0.mp (h 0 (by omega)), fun i hi => by rw [show j + 1 + i = j + (i + 1) by omega]; exact h _ (by omega)⟩
      · rintro ⟨h1, h2⟩ i hi
        cases i with
        | zero => exact h0.mpr h1
        | succ i => rw [show j + (i + 1) = j + 1 + i by omega]; exact h2 i (by omega)
    rw [key]
    by_cases hx : a[j] = b[j]
    · rw [if_neg (not_not_intro hx)]
      exact ⟨fun h => ⟨h.1, hx, h.2⟩, fun h => ⟨h.1, h.2.2⟩⟩
    · rw [if_pos hx]
      exact ⟨fun h => (by cases h.1), fun h => absurd h.2.1 hx⟩

/-- C70: `isPrefix` reads no character outside the strings and tells whether the first is a prefix of the second. -/
theorem C70_isPrefix (a b : List UInt8) : ∃ r, isPrefix a b = some r ∧ (r = true ↔ ∃ c, a ++ c = b) := by
  rw [isPrefix]
  by_cases h : a.length > b.length
  · refine ⟨false, by rw [if_pos h], fun h => (by cases h), ?_⟩
    rintro ⟨c, rfl⟩
    rw [List.length_append] at h
    omega
  · refine ⟨_, by rw [if_neg h, prefixGo_eq a b _ _ _ (by omega) (by omega), Bool.true_and], ?_⟩
    rw [decide_eq_true_iff]
    constructor
    · intro h1
      refine ⟨b.drop a.length, ?_⟩
      apply List.ext_getElem?
      intro i
      by_cases hi : i < a.length
      · rw [List.getElem?_append_left hi]
        have := h1 i hi
        rwa [Nat.zero_add] at this
      · rw [List.getElem?_append_right (by omega), List.getElem?_drop]
        congr 1
        omega
    · rintro ⟨c, rfl⟩ i hi
      rw [Nat.zero_add, List.getElem?_append_left hi]

theorem readMemGo_eq (n i packed : Nat) (rest : List UInt8) (hp : packed < 2 ^ (i * 8)) (hi : i + (vbytes n).length ≤ 8) :
    readMemGo i packed (vbytes n ++ rest) = some (packed + leNat (vbytes n) * 2 ^ (i * 8), i + (vbytes n).length) := by
  induction n using Nat.strongRecOn generalizing i packed with
  | _ n ih =>
    have hpos := vbytes_length_pos n
    have hbyte : ∀ b : UInt8, i < 8 → b.toNat <<< (i * 8) % 2 ^ 64 = b.toNat <<< (i * 8) := by
      intro b h8
      apply Nat.mod_eq_of_lt
      rw [Nat.shiftLeft_eq]
      have : b.toNat * 2 ^ (i * 8) < 2 ^ 8 * 2 ^ (i * 8) := Nat.mul_lt_mul_of_pos_right b.toNat_lt (Nat.two_pow_pos _)
      rw [← Nat.pow_add] at this
      exact Nat.lt_of_lt_of_le this (Nat.pow_le_pow_right (by decide) (by omega))
    rw [vbytes] at hi ⊢
    by_cases h : n < 128
    · rw [if_pos h] at hi ⊢
      have h8 : i < 8 := by simp only [List.length_cons, List.length_nil] at hi; omega
      rw [List.cons_append, readMemGo, if_neg (by omega), hbyte _ h8]
      simp only [leNat, vbytes_head_small h]
      rw [if_neg (by rw [and_80]; omega), or_shift hp]
      simp
    · rw [if_neg h] at hi ⊢
      simp only [List.length_cons] at hi
      rw [List.cons_append, readMemGo, if_neg (by omega), hbyte _ (by omega)]
      simp only [leNat, vbytes_head_big, List.length_cons]
      rw [if_pos (by rw [and_80]; omega), or_shift hp]
      have hpw : (2:Nat) ^ ((i + 1) * 8) = 256 * 2 ^ (i * 8) := by
        rw [Nat.add_mul, Nat.pow_add]; omega
      rw [ih (n / 128) (by omega) _ _ ?_ (by omega), hpw]
      · rw [Nat.add_mul (n % 128 + 128)]
        have : leNat (vbytes (n / 128)) * (256 * 2 ^ (i * 8))
            = 256 * leNat (vbytes (n / 128)) * 2 ^ (i * 8) := by
          rw [← Nat.mul_assoc, Nat.mul_comm _ 256]
        congr 2
        · omega
        · omega
      · rw [hpw]
        have : (n % 128 + 128) * 2 ^ (i * 8) ≤ 255 * 2 ^ (i * 8) :=
          Nat.mul_le_mul_right _ (by omega)
        omega

/-- C70: packing a number, storing it in memory and reading it back.  For every `n < 2^56` and every buffer that has room for the reported number of bytes the
stores stay inside, the rest of the buffer keeps its contents, and `readPackedInteger` looks at those bytes only and returns a word that unpacks to `n`. -/
theorem C70_packed_in_memory (n : Nat) (h : n < 2 ^ 56) : ∃ p k, packInteger n = some (p, k) ∧ unpackInteger p = some n ∧
    ∀ buf : List UInt8, k ≤ buf.length → ∃ buf', store (writePacked p) buf = some buf' ∧ buf'.length = buf.length ∧ buf'.drop k = buf.drop k ∧
      readMem buf' = some (p, k) := by
  have hl : (vbytes n).length ≤ 8 := vbytes_length_le (k := 8) (by simpa using h) (by omega)
  refine ⟨leNat (vbytes n), (vbytes n).length, packInteger_eq h, ?_, fun buf hb => ⟨vbytes n ++ buf.drop (vbytes n).length, ?_, ?_, ?_, ?_⟩⟩
  · have := unpackGo_eq n 0 0 (by simp) (by omega)
    simpa [unpackInteger] using this
  · rw [writePacked_vbytes, store, if_pos hb]
  · rw [List.length_append, List.length_drop]; omega
  · rw [List.drop_left]
  · rw [readMem, readMemGo_eq n 0 0 _ (by simp) (by omega)]
    have hne : leNat (vbytes n) ≠ 0x80 := by
      rw [vbytes]
      split
      · rename_i hlt; simp [leNat]; omega
      · have : 0 < leNat (vbytes (n / 128)) := leNat_vbytes_pos (by omega)
        simp only [leNat]; omega
    simp [hne]

/-- The highest powers of some numbers, as in the tests of the repository (UtilsTest.cpp:50-62). -/
example : (msb 0x500032#32).toNat = 0x400000 ∧ (msb 0#32).toNat = 0 ∧ (msb16 0x14f3#32).toNat = 0x1000 ∧ (0x14f3#32).toNat < 2 ^ 17 := by decide

/-- A number of two bytes in a buffer of three. -/
example : (300 : Nat) < 2 ^ 56 ∧ store (writePacked 0x2AC) [7, 7, 7] = some [0xAC, 2, 7] ∧ readMem [0xAC, 2, 7] = some (0x2AC, 2) := by
  refine ⟨by decide, ?_, by decide⟩
  rw [writePacked, dif_neg (by decide), writePacked, dif_pos (by decide)]
  decide

example : isPrefix [1, 2] [1, 2, 3] = some true ∧ isPrefix [1, 3] [1, 2, 3] = some false ∧ isPrefix [1, 2] [1] = some false := by decide

end Bwtc.Props
