import Verif.CoderSize

/-!
# C63: the arithmetic coder is not far from the ideal code length
-/

set_option autoImplicit false

namespace Bwtc.Props
open RangeCoder

/-- The probability, out of 4096, that was announced for the bit that came: the announced number is for a one. -/
def announced (x : Bool × Nat) : Nat := if x.1 then x.2 else 4096 - x.2

theorem chances_eq (items : List (Bool × Nat)) : chances items = (items.map announced).foldr (· * ·) 1 := by
  induction items with
  | nil => rfl
  | cons x items ih =>
    rw [chances, ih, List.map_cons, List.foldr_cons]
    rfl

/-- C63.  For every sequence of bits with probabilities strictly between 0 and 1, the bytes emitted before the final four satisfy
`16^bytes ≤ ∏ 4096/probability`: the coder never needs more than twice the ideal number of bits, although its interval has only 32
bits and is not widened when it straddles a byte boundary. -/
theorem C63_at_most_twice_the_ideal (items : List (Bool × Nat)) (hp : ∀ x ∈ items, 1 ≤ x.2 ∧ x.2 ≤ 4095) (bytes : List UInt8)
    (h : encodeSeq Range.init items = some bytes) :
    16 ^ (bytes.length - 4) * (items.map announced).foldr (· * ·) 1 ≤ 4096 ^ items.length := by
  have h1 := seq_half items Range.init bytes Range.init_ok hp h
  rw [show Range.init.count = 4294967296 by rfl, show (2:Nat) ^ 32 = 4294967296 by rfl, chances_eq] at h1
  generalize (items.map announced).foldr (· * ·) 1 = Q at h1 ⊢
  rw [Nat.mul_left_comm, Nat.mul_comm (4096 ^ _)] at h1
  exact Nat.le_of_mul_le_mul_left h1 (by omega)

/-- C63 for all probabilities the coder accepts, 0 and 1 included: at most one bit more than the ideal for every coded bit. -/
theorem C63_within_one_bit_per_bit (items : List (Bool × Nat)) (hp : ∀ x ∈ items, x.2 ≤ 4096) (bytes : List UInt8)
    (h : encodeSeq Range.init items = some bytes) :
    256 ^ (bytes.length - 4) * (items.map announced).foldr (· * ·) 1 ≤ 8192 ^ items.length := by
  have h1 := (seq_one_bit items Range.init bytes Range.init_ok hp h).2
  rw [show Range.init.count = 4294967296 by rfl, show (2:Nat) ^ 32 = 4294967296 by rfl, chances_eq] at h1
  generalize (items.map announced).foldr (· * ·) 1 = Q at h1 ⊢
  rw [Nat.mul_left_comm, Nat.mul_comm (8192 ^ _)] at h1
  exact Nat.le_of_mul_le_mul_left h1 (by omega)

theorem product_ge (cost : Bool × Nat → Nat) : ∀ items : List (Bool × Nat), (∀ x ∈ items, 4096 ≤ announced x * 2 ^ cost x) →
    4096 ^ items.length ≤ (items.map announced).foldr (· * ·) 1 * 2 ^ (items.map cost).sum := by
  intro items
  induction items with
  | nil => intro _; exact Nat.le_refl _
  | cons x items ih =>
    intro h
    have h1 := h x (by simp)
    have h2 := ih fun y hy => h y (by simp [hy])
    rw [List.length_cons, List.map_cons, List.foldr_cons, List.map_cons, List.sum_cons, Nat.pow_succ, Nat.pow_add]
    calc 4096 ^ items.length * 4096 ≤
        ((items.map announced).foldr (· * ·) 1 * 2 ^ (items.map cost).sum) * (announced x * 2 ^ cost x) := Nat.mul_le_mul h2 h1
      _ = _ := by ac_rfl

/-- C63 in bits: if the bit `x` was announced with a probability of at least `2^-cost(x)`, the output has at most a byte for every
four bits of the total cost, and also at most a byte for every eight bits of the total cost with one bit more per coded bit; four
bytes end the sequence. -/
theorem C63_cost_in_bits (items : List (Bool × Nat)) (hp : ∀ x ∈ items, 1 ≤ x.2 ∧ x.2 ≤ 4095) (cost : Bool × Nat → Nat)
    (hc : ∀ x ∈ items, 4096 ≤ announced x * 2 ^ cost x) :
    ∃ bytes, encodeSeq Range.init items = some bytes ∧ 4 * bytes.length ≤ (items.map cost).sum + 16 ∧
      8 * bytes.length ≤ (items.map cost).sum + items.length + 32 := by
  obtain ⟨bytes, h, h4, _⟩ := encodeSeq_spec Range.init items Range.init_ok (fun x hx => by have := hp x hx; omega)
  refine ⟨bytes, h, ?_⟩
  have a1 := C63_at_most_twice_the_ideal items hp bytes h
  have a2 := C63_within_one_bit_per_bit items (fun x hx => by have := hp x hx; omega) bytes h
  have b := product_ge cost items hc
  have hpos : 0 < (items.map announced).foldr (· * ·) 1 := by
    apply Nat.pos_of_ne_zero
    intro h0
    rw [h0, Nat.zero_mul] at b
    have := Nat.pow_pos (n := items.length) (show 0 < 4096 by omega)
    omega
  generalize (items.map announced).foldr (· * ·) 1 = Q at a1 a2 b hpos
  generalize (items.map cost).sum = S at b ⊢
  obtain ⟨k, hk⟩ : ∃ k, bytes.length = k + 4 := ⟨bytes.length - 4, by omega⟩
  rw [hk, Nat.add_sub_cancel] at a1 a2
  have c1 : 2 ^ (4 * k) ≤ 2 ^ S := by
    rw [Nat.pow_mul]
    refine Nat.le_of_mul_le_mul_right ?_ hpos
    calc (2 ^ 4) ^ k * Q ≤ 4096 ^ items.length := a1
      _ ≤ Q * 2 ^ S := b
      _ = 2 ^ S * Q := Nat.mul_comm _ _
  have c2 : 2 ^ (8 * k) ≤ 2 ^ (S + items.length) := by
    rw [Nat.pow_mul]
    refine Nat.le_of_mul_le_mul_right ?_ hpos
    calc (2 ^ 8) ^ k * Q ≤ 8192 ^ items.length := a2
      _ = 4096 ^ items.length * 2 ^ items.length := by rw [← Nat.mul_pow]
      _ ≤ Q * 2 ^ S * 2 ^ items.length := Nat.mul_le_mul_right _ b
      _ = 2 ^ (S + items.length) * Q := by rw [Nat.pow_add]; ac_rfl
  have d1 := (Nat.pow_le_pow_iff_right (show 1 < 2 by omega)).mp c1
  have d2 := (Nat.pow_le_pow_iff_right (show 1 < 2 by omega)).mp c2
  omega

/-- C63 without any assumption about the probabilities except that they are legal: 13 bits per coded bit. -/
theorem C63_worst_case (items : List (Bool × Nat)) (hp : ∀ x ∈ items, 1 ≤ x.2 ∧ x.2 ≤ 4095) :
    ∃ bytes, encodeSeq Range.init items = some bytes ∧ 8 * bytes.length ≤ 13 * items.length + 32 := by
  obtain ⟨bytes, h, _, h2⟩ := C63_cost_in_bits items hp (fun _ => 12) (by
    intro x hx
    have := hp x hx
    unfold announced
    split <;> omega)
  refine ⟨bytes, h, ?_⟩
  have : (items.map fun _ => 12).sum = 12 * items.length := by
    rw [List.map_const', List.sum_replicate_nat]
    omega
  omega

/-- Non-vacuity: probabilities for and against the coded bits, and the costs of the bits. -/
example : (∀ x ∈ [(true, 4095), (false, 1000), (true, 1), (false, 2048)], 1 ≤ x.2 ∧ x.2 ≤ 4095) ∧
    (∀ x ∈ [(true, 4095), (false, 1000), (true, 1), (false, 2048)], 4096 ≤ announced x * 2 ^ (if announced x < 2048 then 12 else 1)) ∧
    (encodeSeq Range.init [(true, 4095), (false, 1000), (true, 1), (false, 2048)]).isSome := by
  decide

end Bwtc.Props
