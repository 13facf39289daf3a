import Verif.RangeCoder

/-!
# The size of the output of the arithmetic coder

The number of values in the interval (BitCoders.cpp:84-100) pays for the bytes emitted.
-/

set_option autoImplicit false

namespace Bwtc.RangeCoder

/-- The number of values in an interval. -/
def Range.count (r : Range) : Nat := r.high - r.low + 1

/-- Width of the blocks of values that share their first `k + 1` bytes. -/
def blockSize : Nat → Nat
  | 0 => 16777216
  | 1 => 65536
  | 2 => 256
  | _ => 1

theorem shift_differ {l h k : Nat} (hh : h < W) (ht : l / 16777216 = h / 16777216) (hk : k ≤ 2)
    (hd : l % 16777216 * 256 / blockSize k ≠ (h % 16777216 * 256 + 255) / blockSize k) :
    l / blockSize (k + 1) ≠ h / blockSize (k + 1) := by
  unfold W at hh
  match k, hk with
  | 0, _ => simp only [blockSize] at hd ⊢; omega
  | 1, _ => simp only [blockSize] at hd ⊢; omega
  | 2, _ => simp only [blockSize] at hd ⊢; omega

/-- `k` shifts: the number of values grows by the factor `256^k`, and the `k`-th byte of the two ends differs. -/
theorem renorm_count : ∀ (fuel : Nat) (r r' : Range) (bs : List UInt8), r.low ≤ r.high → r.high < W →
    renormEnc fuel r = some (r', bs) →
    r'.count = 256 ^ bs.length * r.count ∧
      (bs.length ≤ 3 → r.low / blockSize bs.length ≠ r.high / blockSize bs.length) ∧
      (1 ≤ bs.length → r.low / 16777216 = r.high / 16777216) := by
  intro fuel
  induction fuel with
  | zero => intro r r' bs _ _ h; simp [renormEnc] at h
  | succ fuel ih =>
    intro r r' bs hle hh h
    rw [renormEnc] at h
    by_cases htop : r.sameTop = true
    · rw [if_pos htop] at h
      have ht := (Range.sameTop_iff (by omega) hh).mp htop
      rw [show (2:Nat) ^ 24 = 16777216 by rfl] at ht
      have hs := Range.shift_eq (r := r)
      rw [show (2:Nat) ^ 24 = 16777216 by rfl] at hs
      simp only [Option.bind_eq_bind, Option.pure_def] at h
      rw [Option.bind_eq_some_iff] at h
      obtain ⟨⟨q, cs⟩, h1, h⟩ := h
      simp only [Option.some.injEq, Prod.mk.injEq] at h
      obtain ⟨rfl, rfl⟩ := h
      obtain ⟨i1, i2, _⟩ := ih r.shift q cs (by rw [hs]; simp only; omega) (by rw [hs]; simp only; unfold W; omega) h1
      have hc : r.shift.count = 256 * r.count := by
        rw [hs]
        simp only [Range.count]
        omega
      refine ⟨?_, ?_, fun _ => ht⟩
      · rw [i1, hc, List.length_cons, Nat.pow_succ, Nat.mul_assoc]
      · intro hk
        rw [List.length_cons] at hk ⊢
        have := i2 (by omega)
        rw [hs] at this
        exact shift_differ hh ht (by omega) this
    · rw [if_neg htop] at h
      simp only [Option.some.injEq, Prod.mk.injEq] at h
      obtain ⟨rfl, rfl⟩ := h
      rw [Range.sameTop_iff (by omega) hh] at htop
      exact ⟨by simp, fun _ => htop, by simp⟩

/-- The probability of the coded bit, out of 4096. -/
def chanceOf (bit : Bool) (p : Nat) : Nat := if bit then p else 4096 - p

/-- The chosen part holds its share of the values, up to rounding. -/
theorem choose_count {r : Range} (ho : r.Ok) (bit : Bool) {p : Nat} (hp : p ≤ 4096) :
    (r.count - 2) * chanceOf bit p + 2048 ≤ 4096 * (r.choose bit p).count := by
  have hlt := ho.lt
  have hh := ho.high
  obtain ⟨e, h1, h2⟩ := split_eq hlt hh hp
  generalize hs : split r.low r.high p = s at e h1 h2
  have hR : r.count - 2 = r.high - r.low - 1 := by unfold Range.count; omega
  rw [hR]
  generalize hRd : r.high - r.low - 1 = R at e
  have hdm := Nat.div_add_mod R 4096
  have hmul : R * p = 4096 * (R / 4096 * p) + R % 4096 * p := by
    calc R * p = (4096 * (R / 4096) + R % 4096) * p := by rw [hdm]
      _ = _ := by rw [Nat.add_mul, Nat.mul_assoc]
  have hRp : R * p ≤ R * 4096 := Nat.mul_le_mul_left _ hp
  cases bit with
  | true =>
    simp only [chanceOf, if_true, Range.choose, Range.count, hs]
    omega
  | false =>
    have hm : (s + 1) % W = s + 1 := Nat.mod_eq_of_lt (by omega)
    simp only [chanceOf, Bool.false_eq_true, if_false, Range.choose, Range.count, hs, hm]
    rw [Nat.mul_sub]
    omega

/-- An interval of which a part with a common first byte, but different second (third) bytes is chosen holds more than `2^16`
(`2^8`) values: the part ends where the first byte changes. -/
theorem choose_wide {r : Range} (ho : r.Ok) (bit : Bool) {p : Nat} (hp : p ≤ 4096) {k : Nat} (hk : k = 1 ∨ k = 2)
    (hsame : (r.choose bit p).low / 16777216 = (r.choose bit p).high / 16777216)
    (hd : (r.choose bit p).low / blockSize k ≠ (r.choose bit p).high / blockSize k) : blockSize k + 2 ≤ r.count := by
  have hlt := ho.lt
  have hh := ho.high
  have htop := ho.top
  rw [show (2:Nat) ^ 24 = 16777216 by rfl] at htop
  obtain ⟨_, h1, h2⟩ := split_eq hlt hh hp
  generalize hs : split r.low r.high p = s at h1 h2
  unfold Range.count
  unfold W at hh
  cases bit with
  | true =>
    simp only [if_true, Range.choose, hs] at hsame hd
    rcases hk with rfl | rfl
    · simp only [blockSize] at hd ⊢; omega
    · simp only [blockSize] at hd ⊢; omega
  | false =>
    have hm : (s + 1) % W = s + 1 := Nat.mod_eq_of_lt (by unfold W; omega)
    simp only [Bool.false_eq_true, if_false, Range.choose, hs, hm] at hsame hd
    rcases hk with rfl | rfl
    · simp only [blockSize] at hd ⊢; omega
    · simp only [blockSize] at hd ⊢; omega

/-- What one coded bit does to the number of values. -/
structure StepCount (N q : Nat) (k N' : Nat) : Prop where
  mid : ∃ M, N' = 256 ^ k * M ∧ (N - 2) * q + 2048 ≤ 4096 * M ∧ (k = 2 ∨ k = 3 → 2 ≤ M)
  le4 : k ≤ 4
  wide1 : k = 1 → 65538 ≤ N
  wide2 : k = 2 → 258 ≤ N

theorem encodeBit_count {r r' : Range} (ho : r.Ok) (bit : Bool) {p : Nat} (hp : p ≤ 4096) {bs : List UInt8}
    (h : encodeBit r bit p = some (r', bs)) : r'.Ok ∧ StepCount r.count (chanceOf bit p) bs.length r'.count := by
  obtain ⟨c1, c2, c3, c4, _⟩ := Range.choose_spec ho bit hp
  obtain ⟨r1, bs1, he, hok, hlen, _⟩ := renorm_spec 4 (r.choose bit p) c1 c2 (by simp) (by omega)
  have h' : renormEnc 5 (r.choose bit p) = some (r', bs) := h
  rw [he] at h'
  simp only [Option.some.injEq, Prod.mk.injEq] at h'
  obtain ⟨rfl, rfl⟩ := h'
  obtain ⟨d1, d2, d3⟩ := renorm_count _ _ _ _ c1 c2 he
  refine ⟨hok, ⟨_, d1, choose_count ho bit hp, ?_⟩, hlen, ?_, ?_⟩
  · intro hk
    have := d2 (by omega)
    unfold Range.count
    have hne : (r.choose bit p).low ≠ (r.choose bit p).high := fun hc => this (by rw [hc])
    omega
  · intro hk
    exact choose_wide ho bit hp (Or.inl rfl) (d3 (by omega)) (by rw [← hk]; exact d2 (by omega))
  · intro hk
    exact choose_wide ho bit hp (Or.inr rfl) (d3 (by omega)) (by rw [← hk]; exact d2 (by omega))

/-- One step: at most one bit is lost. -/
theorem StepCount.one_bit {N q k N' : Nat} (h : StepCount N q k N') (hN : 2 ≤ N) (hq : q ≤ 4096) :
    256 ^ k * (N * q) ≤ 8192 * N' := by
  obtain ⟨⟨M, rfl, h1, _⟩, _, _, _⟩ := h
  rw [Nat.mul_left_comm 8192]
  refine Nat.mul_le_mul_left _ ?_
  obtain ⟨R, rfl⟩ : ∃ R, N = R + 2 := ⟨N - 2, by omega⟩
  rw [Nat.add_sub_cancel] at h1
  rw [Nat.add_mul]
  by_cases hR : R = 0
  · subst hR; omega
  · have : q ≤ R * q := Nat.le_mul_of_pos_left q (by omega)
    omega

/-- One step, with `N + 6142` as the measure and only four bits charged for a byte. -/
theorem StepCount.half {N q k N' : Nat} (h : StepCount N q k N') (hN : 2 ≤ N) (hq : q ≤ 4095) :
    16 ^ k * ((N + 6142) * q) ≤ 4096 * (N' + 6142) := by
  obtain ⟨⟨M, rfl, h1, h2⟩, h4, w1, w2⟩ := h
  obtain ⟨R, rfl⟩ : ∃ R, N = R + 2 := ⟨N - 2, by omega⟩
  rw [Nat.add_sub_cancel] at h1
  rw [show (R + 2 + 6142) * q = R * q + 6144 * q by rw [← Nat.add_mul]]
  match k, h4 with
  | 0, _ => simp only [Nat.pow_zero]; omega
  | 1, _ =>
    have : 65536 * q ≤ R * q := Nat.mul_le_mul_right q (by have := w1 rfl; omega)
    simp only [Nat.pow_one]; omega
  | 2, _ =>
    have : 256 * q ≤ R * q := Nat.mul_le_mul_right q (by have := w2 rfl; omega)
    rw [show (16:Nat) ^ 2 = 256 by rfl, show (256:Nat) ^ 2 = 65536 by rfl]; omega
  | 3, _ =>
    have := h2 (Or.inr rfl)
    rw [show (16:Nat) ^ 3 = 4096 by rfl, show (256:Nat) ^ 3 = 16777216 by rfl]; omega
  | 4, _ =>
    rw [show (16:Nat) ^ 4 = 65536 by rfl, show (256:Nat) ^ 4 = 4294967296 by rfl]; omega

/-- The product of the probabilities of the coded bits. -/
def chances : List (Bool × Nat) → Nat
  | [] => 1
  | x :: items => chanceOf x.1 x.2 * chances items

theorem encodeSeq_cons {r : Range} {bit : Bool} {p : Nat} {items : List (Bool × Nat)} {bytes : List UInt8}
    (h : encodeSeq r ((bit, p) :: items) = some bytes) :
    ∃ r' bs rest, encodeBit r bit p = some (r', bs) ∧ encodeSeq r' items = some rest ∧ bytes = bs ++ rest := by
  rw [encodeSeq] at h
  simp only [Option.bind_eq_bind, Option.pure_def] at h
  rw [Option.bind_eq_some_iff] at h
  obtain ⟨⟨r', bs⟩, h1, h⟩ := h
  rw [Option.bind_eq_some_iff] at h
  obtain ⟨rest, h2, h⟩ := h
  simp only [Option.some.injEq] at h
  exact ⟨r', bs, rest, h1, h2, h.symm⟩

theorem count_le {r : Range} (ho : r.Ok) : 2 ≤ r.count ∧ r.count ≤ 2 ^ 32 := by
  have := ho.lt
  have h := ho.high
  unfold W at h
  unfold Range.count
  omega

theorem seq_one_bit : ∀ (items : List (Bool × Nat)) (r : Range) (bytes : List UInt8), r.Ok → (∀ x ∈ items, x.2 ≤ 4096) →
    encodeSeq r items = some bytes → 4 ≤ bytes.length ∧
      256 ^ (bytes.length - 4) * (r.count * chances items) ≤ 8192 ^ items.length * 2 ^ 32 := by
  intro items
  induction items with
  | nil =>
    intro r bytes ho _ h
    rw [encodeSeq] at h
    simp only [Option.some.injEq] at h
    subst h
    have := (count_le ho).2
    exact ⟨by simp [finishBytes], by simpa [finishBytes, chances] using this⟩
  | cons x items ih =>
    obtain ⟨bit, p⟩ := x
    intro r bytes ho hp h
    obtain ⟨r', bs, rest, h1, h2, rfl⟩ := encodeSeq_cons h
    have hpx : p ≤ 4096 := hp (bit, p) (by simp)
    obtain ⟨ho', hs⟩ := encodeBit_count ho bit hpx h1
    obtain ⟨i1, i2⟩ := ih r' rest ho' (fun y hy => hp y (by simp [hy])) h2
    have hb := hs.one_bit (count_le ho).1 (by unfold chanceOf; split <;> omega)
    refine ⟨by simp; omega, ?_⟩
    rw [List.length_append, show bs.length + rest.length - 4 = bs.length + (rest.length - 4) by omega, List.length_cons]
    simp only [chances]
    generalize chanceOf bit p = q at *
    generalize chances items = Q at *
    generalize r.count = N at *
    generalize r'.count = N' at *
    calc 256 ^ (bs.length + (rest.length - 4)) * (N * (q * Q))
        = 256 ^ (rest.length - 4) * Q * (256 ^ bs.length * (N * q)) := by rw [Nat.pow_add]; ac_rfl
      _ ≤ 256 ^ (rest.length - 4) * Q * (8192 * N') := Nat.mul_le_mul_left _ hb
      _ = 8192 * (256 ^ (rest.length - 4) * (N' * Q)) := by ac_rfl
      _ ≤ 8192 * (8192 ^ items.length * 2 ^ 32) := Nat.mul_le_mul_left _ i2
      _ = 8192 ^ (items.length + 1) * 2 ^ 32 := by
        rw [← Nat.mul_assoc, Nat.mul_comm 8192, ← show (8192:Nat) ^ (items.length + 1) = 8192 ^ items.length * 8192 from Nat.pow_succ _ _]

theorem seq_half : ∀ (items : List (Bool × Nat)) (r : Range) (bytes : List UInt8), r.Ok →
    (∀ x ∈ items, 1 ≤ x.2 ∧ x.2 ≤ 4095) → encodeSeq r items = some bytes →
      16 ^ (bytes.length - 4) * ((r.count + 6142) * chances items) ≤ 4096 ^ items.length * (2 ^ 32 + 6142) := by
  intro items
  induction items with
  | nil =>
    intro r bytes ho _ h
    rw [encodeSeq] at h
    simp only [Option.some.injEq] at h
    subst h
    have := (count_le ho).2
    simpa [finishBytes, chances] using this
  | cons x items ih =>
    obtain ⟨bit, p⟩ := x
    intro r bytes ho hp h
    obtain ⟨r', bs, rest, h1, h2, rfl⟩ := encodeSeq_cons h
    have hpx := hp (bit, p) (by simp)
    simp only at hpx
    obtain ⟨ho', hs⟩ := encodeBit_count ho bit (by omega) h1
    have i2 := ih r' rest ho' (fun y hy => hp y (by simp [hy])) h2
    have i1 := (seq_one_bit items r' rest ho' (fun y hy => by have := hp y (by simp [hy]); omega) h2).1
    have hb := hs.half (count_le ho).1 (by unfold chanceOf; split <;> omega)
    rw [List.length_append, show bs.length + rest.length - 4 = bs.length + (rest.length - 4) by omega, List.length_cons]
    simp only [chances]
    generalize chanceOf bit p = q at *
    generalize chances items = Q at *
    generalize r.count + 6142 = N at *
    generalize r'.count + 6142 = N' at *
    calc 16 ^ (bs.length + (rest.length - 4)) * (N * (q * Q))
        = 16 ^ (rest.length - 4) * Q * (16 ^ bs.length * (N * q)) := by rw [Nat.pow_add]; ac_rfl
      _ ≤ 16 ^ (rest.length - 4) * Q * (4096 * N') := Nat.mul_le_mul_left _ hb
      _ = 4096 * (16 ^ (rest.length - 4) * (N' * Q)) := by ac_rfl
      _ ≤ 4096 * (4096 ^ items.length * (2 ^ 32 + 6142)) := Nat.mul_le_mul_left _ i2
      _ = 4096 ^ (items.length + 1) * (2 ^ 32 + 6142) := by
        rw [← Nat.mul_assoc, Nat.mul_comm 4096, ← show (4096:Nat) ^ (items.length + 1) = 4096 ^ items.length * 4096 from Nat.pow_succ _ _]

end Bwtc.RangeCoder
