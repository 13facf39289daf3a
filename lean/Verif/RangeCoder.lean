import Verif.Basic

/-!
# The binary arithmetic (range) coder

Model of `BitCoders.cpp`.  32-bit words are natural numbers; every operation that
can leave 32 bits is followed by `% 2^32`.
-/

set_option autoImplicit false

namespace Bwtc.RangeCoder

/-- 2^32. -/
def W : Nat := 4294967296

/-- `Split` (BitCoders.cpp:59-76), all operations on `uint32`; 12 is
`kLogProbabilityScale`, 4096 `kProbabilityScale` (globaldefs.hpp).  The asserts are
not part of the model; C03 proves them. -/
def split (low high p : Nat) : Nat :=
  let rangeSize := (high + W - low + W - 1) % W
  let highBits := rangeSize >>> 12
  let lowBits := rangeSize &&& 4095
  let half := 4096 >>> 1
  (((low + highBits * p % W) % W) + ((((lowBits * p % W) + half) % W) >>> 12)) % W

/-- Coder interval `[low, high]`. -/
structure Range where
  low : Nat
  high : Nat
deriving Repr, DecidableEq

/-- Initial interval (BitCoders.cpp:79-80, 112-113, 115-116, 121-122). -/
def Range.init : Range := ⟨0, 0xFFFFFFFF⟩

/-- Choosing the subinterval: `if (bit) m_high = split; else m_low = split + 1;`
(BitCoders.cpp:91-93 and 130-132). -/
def Range.choose (r : Range) (bit : Bool) (p : Nat) : Range :=
  if bit then { r with high := split r.low r.high p }
  else { r with low := (split r.low r.high p + 1) % W }

/-- Loop condition `((m_low ^ m_high) & 0xFF000000) == 0` (BitCoders.cpp:94, 133). -/
def Range.sameTop (r : Range) : Bool := (r.low ^^^ r.high) &&& 0xFF000000 == 0

/-- `m_low <<= 8; m_high = (m_high << 8) + 255;` (BitCoders.cpp:96-97, 134-135). -/
def Range.shift (r : Range) : Range :=
  ⟨(r.low <<< 8) % W, ((r.high <<< 8) % W + 255) % W⟩

/-- Renormalisation loop of the encoder (BitCoders.cpp:94-98), returning the emitted
bytes.  The loop is unrolled with fuel; `none` would mean that it runs longer. -/
def renormEnc : Nat → Range → Option (Range × List UInt8)
  | 0, _ => none
  | fuel + 1, r =>
    if r.sameTop then do
      let (r', bs) ← renormEnc fuel r.shift
      return (r', UInt8.ofNat (r.low >>> 24) :: bs)
    else some (r, [])

/-- Fuel for the renormalisation loops: at most four shifts. -/
def loopFuel : Nat := 5

/-- `BitEncoder::encode` (BitCoders.cpp:84-100): new interval and emitted bytes.
Each emitted byte is written to the output and increments the counter
(BitCoders.hpp:91-94). -/
def encodeBit (r : Range) (bit : Bool) (p : Nat) : Option (Range × List UInt8) :=
  renormEnc loopFuel (r.choose bit p)

/-- `BitEncoder::finish` (BitCoders.cpp:102-113): the four bytes emitted; the interval is
reset to `Range.init`. -/
def finishBytes (r : Range) : List UInt8 :=
  [UInt8.ofNat (r.low >>> 24), 255, 255, 255]

/-- A whole sequence of `encode` calls followed by `finish`: all bytes written.
Every item is a bit with the probability it is coded with. -/
def encodeSeq : Range → List (Bool × Nat) → Option (List UInt8)
  | r, [] => some (finishBytes r)
  | r, (bit, p) :: items => do
    let (r', bs) ← encodeBit r bit p
    let rest ← encodeSeq r' items
    return bs ++ rest

/-- Decoder state (BitCoders.hpp:123-126): interval, the four look-ahead bytes as a
number, and the rest of the input. -/
structure Dec where
  range : Range
  next : Nat
  input : List Bool

/-- `BitDecoder::start` (BitCoders.cpp:120-127). -/
def decStart (s : List Bool) : Option Dec := do
  let (b0, s) ← readByte s
  let (b1, s) ← readByte s
  let (b2, s) ← readByte s
  let (b3, s) ← readByte s
  let n := b0.toNat
  let n := ((n <<< 8) % W + b1.toNat) % W
  let n := ((n <<< 8) % W + b2.toNat) % W
  let n := ((n <<< 8) % W + b3.toNat) % W
  return ⟨Range.init, n, s⟩

/-- Renormalisation loop of the decoder (BitCoders.cpp:133-137). -/
def renormDec : Nat → Dec → Option Dec
  | 0, _ => none
  | fuel + 1, d =>
    if d.range.sameTop then do
      let (b, s) ← readByte d.input
      renormDec fuel ⟨d.range.shift, ((d.next <<< 8) % W + b.toNat) % W, s⟩
    else some d

/-- `BitDecoder::decode` (BitCoders.cpp:129-148). -/
def decodeBit (d : Dec) (p : Nat) : Option (Bool × Dec) := do
  let bit := decide (d.next ≤ split d.range.low d.range.high p)
  let d' ← renormDec loopFuel { d with range := d.range.choose bit p }
  return (bit, d')

/-- Asking the decoder for a sequence of bits with given probabilities. -/
def decodeSeq : Dec → List Nat → Option (List Bool × Dec)
  | d, [] => some ([], d)
  | d, p :: ps => do
    let (b, d) ← decodeBit d p
    let (bs, d) ← decodeSeq d ps
    return (b :: bs, d)

/-- Several sequences written one after another by one encoder: `finish` resets the
interval (BitCoders.cpp:110-112). -/
def encodeMany : List (List (Bool × Nat)) → Option (List UInt8)
  | [] => some []
  | x :: xs => do
    let bs ← encodeSeq Range.init x
    let rest ← encodeMany xs
    return bs ++ rest

/-- Several sequences read one after another: `start`, then one `decode` per bit. -/
def decodeMany : List Bool → List (List Nat) → Option (List (List Bool) × List Bool)
  | s, [] => some ([], s)
  | s, ps :: pss => do
    let d ← decStart s
    let (bs, d) ← decodeSeq d ps
    let (rest, s) ← decodeMany d.input pss
    return (bs :: rest, s)

/-- Decoding `n` bits with an adaptive model of state `σ`: ask for the probability, decode,
tell the model (the use in WaveletTree.hpp:857-1174). -/
def decodeAdaptive {σ : Type} (prob : σ → Nat) (upd : σ → Bool → σ) :
    Nat → σ → Dec → Option (List Bool × Dec)
  | 0, _, d => some ([], d)
  | n + 1, m, d => do
    let (b, d) ← decodeBit d (prob m)
    let (bs, d) ← decodeAdaptive prob upd n (upd m b) d
    return (b :: bs, d)

/-- Items written when an adaptive model drives the encoder (WaveletTree.hpp:637-809). -/
def adaptiveItems {σ : Type} (prob : σ → Nat) (upd : σ → Bool → σ) :
    σ → List Bool → List (Bool × Nat)
  | _, [] => []
  | m, b :: bs => (b, prob m) :: adaptiveItems prob upd (upd m b) bs

/-! ## Lemmas -/

/-- A coder interval in use: 32-bit, non-degenerate, different top bytes. -/
structure Range.Ok (r : Range) : Prop where
  lt : r.low < r.high
  high : r.high < W
  top : r.low / 2 ^ 24 < r.high / 2 ^ 24

theorem Range.init_ok : Range.init.Ok := ⟨by decide, by decide, by decide⟩

theorem and_ff000000 {x : Nat} (h : x < W) : x &&& 0xFF000000 = 0 ↔ x / 2 ^ 24 = 0 := by
  have key : x &&& 0xFF000000 = (x / 2 ^ 24) * 2 ^ 24 := by
    rw [← Nat.shiftRight_eq_div_pow, ← Nat.shiftLeft_eq]
    apply Nat.eq_of_testBit_eq
    intro i
    rw [Nat.testBit_and, Nat.testBit_shiftLeft, Nat.testBit_shiftRight,
      show (0xFF000000 : Nat) = (2 ^ 8 - 1) <<< 24 by rfl, Nat.testBit_shiftLeft,
      Nat.testBit_two_pow_sub_one]
    by_cases hi : 24 ≤ i
    · have h24 : 24 + (i - 24) = i := by omega
      by_cases h8 : i - 24 < 8
      · simp [hi, h8, h24]
      · have : x.testBit i = false := by
          apply Nat.testBit_lt_two_pow
          have : (2:Nat) ^ 32 ≤ 2 ^ i := Nat.pow_le_pow_right (by omega) (by omega)
          unfold W at h
          omega
        simp [this, h24]
    · simp [hi]
  rw [key]
  omega

theorem xor_zero_eq {a b : Nat} (h : a ^^^ b = 0) : a = b := by
  apply Nat.eq_of_testBit_eq
  intro i
  have := congrArg (fun x => x.testBit i) h
  simpa using this

theorem Range.sameTop_iff {r : Range} (hl : r.low < W) (hh : r.high < W) :
    r.sameTop = true ↔ r.low / 2 ^ 24 = r.high / 2 ^ 24 := by
  unfold Range.sameTop
  rw [beq_iff_eq, and_ff000000]
  · rw [← Nat.shiftRight_eq_div_pow, Nat.shiftRight_xor_distrib, Nat.shiftRight_eq_div_pow,
      Nat.shiftRight_eq_div_pow]
    exact ⟨fun h => xor_zero_eq h, fun h => by rw [h]; simp⟩
  · exact Nat.xor_lt_two_pow (n := 32) hl hh

theorem split_eq {low high p : Nat} (hlt : low < high) (hh : high < W) (hp : p ≤ 4096) :
    split low high p = low + (high - low - 1) / 4096 * p
        + ((high - low - 1) % 4096 * p + 2048) / 4096
      ∧ low ≤ split low high p ∧ split low high p < high := by
  have hrs : (high + W - low + W - 1) % W = high - low - 1 := by
    have : high + W - low + W - 1 = (high - low - 1) + W * 2 := by omega
    rw [this, Nat.add_mul_mod_self_left, Nat.mod_eq_of_lt (by omega)]
  have hand : (high - low - 1) &&& 4095 = (high - low - 1) % 4096 :=
    Nat.and_two_pow_sub_one_eq_mod _ 12
  generalize hr : high - low - 1 = R at *
  have hRW : R < W := by omega
  -- bound on the increment
  have h1 : R / 4096 * p ≤ R / 4096 * 4096 := Nat.mul_le_mul_left _ hp
  have h2 : R % 4096 * p ≤ R % 4096 * 4096 := Nat.mul_le_mul_left _ hp
  have h3 : (R % 4096 * p + 2048) / 4096 ≤ R % 4096 := by omega
  have h5 : low + R / 4096 * p + (R % 4096 * p + 2048) / 4096 ≤ low + R := by omega
  have h6 : R % 4096 * p < W := by unfold W at *; omega
  have e : split low high p = low + R / 4096 * p + (R % 4096 * p + 2048) / 4096 := by
    unfold split
    simp only [hrs, hand, Nat.shiftRight_eq_div_pow]
    rw [show (2:Nat) ^ 12 = 4096 by rfl, show (4096:Nat) / 2 ^ 1 = 2048 by rfl,
      Nat.mod_eq_of_lt (a := R / 4096 * p) (by omega), Nat.mod_eq_of_lt (a := R % 4096 * p) h6,
      Nat.mod_eq_of_lt (a := low + R / 4096 * p) (by omega),
      Nat.mod_eq_of_lt (a := R % 4096 * p + 2048) (by unfold W at *; omega),
      Nat.mod_eq_of_lt (by omega)]
  omega

theorem Range.choose_spec {r : Range} (ho : r.Ok) (bit : Bool) {p : Nat} (hp : p ≤ 4096) :
    (r.choose bit p).low ≤ (r.choose bit p).high ∧ (r.choose bit p).high < W ∧
    r.low ≤ (r.choose bit p).low ∧ (r.choose bit p).high ≤ r.high ∧
    ∀ v, (r.choose bit p).low ≤ v → v ≤ (r.choose bit p).high →
      decide (v ≤ split r.low r.high p) = bit := by
  obtain ⟨_, h1, h2⟩ := split_eq ho.lt ho.high hp
  have hW := ho.high
  have hl := ho.lt
  cases bit
  · have : (split r.low r.high p + 1) % W = split r.low r.high p + 1 :=
      Nat.mod_eq_of_lt (by omega)
    simp only [Range.choose, Bool.false_eq_true, if_false, this]
    refine ⟨by omega, by omega, by omega, by omega, ?_⟩
    intro v hv _
    simp; omega
  · simp only [Range.choose, if_true]
    refine ⟨by omega, by omega, by omega, by omega, ?_⟩
    intro v _ hv
    simp; omega

/-- One shift of an interval whose top bytes agree. -/
theorem Range.shift_eq {r : Range} :
    r.shift = ⟨r.low % 2 ^ 24 * 256, r.high % 2 ^ 24 * 256 + 255⟩ := by
  unfold Range.shift W
  simp only [Nat.shiftLeft_eq, Range.mk.injEq]
  omega

theorem ofNat_top {x : Nat} (h : x < W) : (UInt8.ofNat (x >>> 24)).toNat = x / 2 ^ 24 := by
  rw [Nat.shiftRight_eq_div_pow, UInt8.toNat_ofNat_of_lt']
  simp [UInt8.size]; unfold W at h; omega

/-- Value of the first four bytes. -/
def be4 : List UInt8 → Nat
  | b0 :: b1 :: b2 :: b3 :: _ =>
    b0.toNat * 2 ^ 24 + b1.toNat * 2 ^ 16 + b2.toNat * 2 ^ 8 + b3.toNat
  | _ => 0

theorem be4_cons {b : UInt8} {l : List UInt8} (hl : 4 ≤ l.length) :
    be4 (b :: l) = b.toNat * 2 ^ 24 + be4 l / 256 ∧
      ∃ c, l.drop 3 = c :: l.drop 4 ∧ be4 l % 256 = c.toNat := by
  match l, hl with
  | b0 :: b1 :: b2 :: b3 :: l, _ =>
    have := b3.toNat_lt
    simp only [be4]
    refine ⟨by omega, b3, by simp, by omega⟩

theorem be4_lt {l : List UInt8} : be4 l < W := by
  unfold be4 W
  split
  · rename_i b0 b1 b2 b3 _
    have := b0.toNat_lt
    have := b1.toNat_lt
    have := b2.toNat_lt
    have := b3.toNat_lt
    omega
  · omega

theorem renorm_arith (l h v : Nat) (ht : l / 2 ^ 24 = h / 2 ^ 24)
    (h1 : l % 2 ^ 24 * 256 ≤ v) (h2 : v ≤ h % 2 ^ 24 * 256 + 255) :
    l ≤ l / 2 ^ 24 * 2 ^ 24 + v / 256 ∧ l / 2 ^ 24 * 2 ^ 24 + v / 256 ≤ h := by
  rw [show (2:Nat) ^ 24 = 16777216 by rfl] at *
  have e1 := Nat.div_add_mod l 16777216
  have e2 := Nat.div_add_mod h 16777216
  have e3 := Nat.div_add_mod v 256
  have e4 : v % 256 < 256 := Nat.mod_lt _ (by omega)
  generalize l / 16777216 = a at *
  generalize h / 16777216 = b at *
  generalize l % 16777216 = c at *
  generalize h % 16777216 = d at *
  generalize v / 256 = e at *
  generalize v % 256 = f at *
  omega

/-- Renormalisation: terminates within four shifts, produces a proper interval, and any
continuation `F` whose value lies in the new interval makes the whole output lie in the
old one; the decoder's loop follows along. -/
theorem renorm_spec (fuel : Nat) (r : Range) (hle : r.low ≤ r.high) (hh : r.high < W)
    (hw : 256 ^ (4 - fuel) ≤ r.high - r.low + 1) (hf : fuel ≤ 4) :
    ∃ r' bs, renormEnc (fuel + 1) r = some (r', bs) ∧ r'.Ok ∧ bs.length ≤ fuel ∧
      ∀ (F : List UInt8) (tail : List Bool), 4 ≤ F.length → r'.low ≤ be4 F → be4 F ≤ r'.high →
        r.low ≤ be4 (bs ++ F) ∧ be4 (bs ++ F) ≤ r.high ∧
        renormDec (fuel + 1) ⟨r, be4 (bs ++ F), bytesBits ((bs ++ F).drop 4) ++ tail⟩
          = some ⟨r', be4 F, bytesBits (F.drop 4) ++ tail⟩ := by
  induction fuel generalizing r with
  | zero =>
    have htop : ¬ (r.sameTop = true) := by
      rw [Range.sameTop_iff (by omega) hh]; unfold W at *; omega
    refine ⟨r, [], by simp [renormEnc, htop], ⟨by unfold W at *; omega, hh, by unfold W at *; omega⟩, by simp, ?_⟩
    intro F tail h4 hl hu
    exact ⟨hl, hu, by simp [renormDec, htop]⟩
  | succ fuel ih =>
    by_cases htop : r.sameTop = true
    · have ht := (Range.sameTop_iff (by omega) hh).mp htop
      have hs := Range.shift_eq (r := r)
      have hlow : r.low = r.low / 2 ^ 24 * 2 ^ 24 + r.low % 2 ^ 24 := by omega
      have hhigh : r.high = r.low / 2 ^ 24 * 2 ^ 24 + r.high % 2 ^ 24 := by omega
      have hp : (256:Nat) ^ (4 - fuel) = 256 * 256 ^ (4 - (fuel + 1)) := by
        rw [show 4 - fuel = (4 - (fuel + 1)) + 1 by omega, Nat.pow_succ, Nat.mul_comm]
      obtain ⟨r', bs, he, hok, hlen, hF⟩ := ih r.shift
        (by rw [hs]; simp only; omega)
        (by rw [hs]; simp only; unfold W; omega)
        (by rw [hs, hp]; simp only; omega) (by omega)
      refine ⟨r', UInt8.ofNat (r.low >>> 24) :: bs, ?_, hok, by simp; omega, ?_⟩
      · rw [renormEnc, if_pos htop, he]; rfl
      · intro F tail h4 hl hu
        obtain ⟨h1, h2, h3⟩ := hF F tail h4 hl hu
        have hlen4 : 4 ≤ (bs ++ F).length := by simp; omega
        obtain ⟨hb, c, hc, hcv⟩ := be4_cons (b := UInt8.ofNat (r.low >>> 24)) hlen4
        have htv := ofNat_top (x := r.low) (by omega)
        rw [htv] at hb
        rw [hs] at h1 h2
        simp only at h1 h2
        rw [List.cons_append]
        generalize be4 (UInt8.ofNat (r.low >>> 24) :: (bs ++ F)) = V at *
        subst hb
        obtain ⟨q1, q2⟩ := renorm_arith r.low r.high (be4 (bs ++ F)) ht h1 h2
        refine ⟨q1, q2, ?_⟩
        rw [renormDec, if_pos htop]
        simp only [List.drop_succ_cons, hc, bytesBits_cons, List.append_assoc,
          readByte_byteBits]
        have hv : ((r.low / 2 ^ 24 * 2 ^ 24 + be4 (bs ++ F) / 256) <<< 8 % W + c.toNat) % W
            = be4 (bs ++ F) := by
          have := be4_lt (l := bs ++ F)
          rw [Nat.shiftLeft_eq]
          unfold W at *
          omega
        simp only [Option.bind_eq_bind, Option.bind_some, hv]
        exact h3
    · refine ⟨r, [], by simp [renormEnc, htop], ⟨?_, hh, ?_⟩, by simp, ?_⟩
      · rw [Range.sameTop_iff (by omega) hh] at htop
        omega
      · rw [Range.sameTop_iff (by omega) hh] at htop
        have : r.low / 2 ^ 24 ≤ r.high / 2 ^ 24 := Nat.div_le_div_right hle
        omega
      · intro F tail h4 hl hu
        exact ⟨hl, hu, by simp [renormDec, htop]⟩

theorem finishBytes_spec {r : Range} (ho : r.Ok) :
    (finishBytes r).length = 4 ∧ r.low ≤ be4 (finishBytes r) ∧ be4 (finishBytes r) ≤ r.high := by
  have h := ofNat_top (x := r.low) (by have := ho.lt; have := ho.high; omega)
  have htop := ho.top
  refine ⟨rfl, ?_, ?_⟩ <;> simp only [finishBytes, be4, h] <;>
    simp only [UInt8.reduceToNat] <;> omega

/-- The bytes of a sequence: exist, at least four, and their value lies in the interval. -/
theorem encodeSeq_spec (r : Range) (items : List (Bool × Nat)) (ho : r.Ok)
    (hp : ∀ x ∈ items, x.2 ≤ 4096) :
    ∃ F, encodeSeq r items = some F ∧ 4 ≤ F.length ∧ F.length ≤ 4 * items.length + 4 ∧
      r.low ≤ be4 F ∧ be4 F ≤ r.high := by
  induction items generalizing r with
  | nil =>
    obtain ⟨h1, h2, h3⟩ := finishBytes_spec ho
    exact ⟨finishBytes r, rfl, by omega, by simp; omega, h2, h3⟩
  | cons x items ih =>
    obtain ⟨bit, p⟩ := x
    have hpx : p ≤ 4096 := hp (bit, p) (by simp)
    obtain ⟨c1, c2, c3, c4, _⟩ := Range.choose_spec ho bit hpx
    obtain ⟨r', bs, he, hok, hlen, hF⟩ := renorm_spec 4 (r.choose bit p) c1 c2 (by simp) (by omega)
    obtain ⟨F, hF1, hF2, hF3, hF4, hF5⟩ := ih r' hok (fun y hy => hp y (by simp [hy]))
    obtain ⟨g1, g2, _⟩ := hF F [] hF2 hF4 hF5
    refine ⟨bs ++ F, ?_, by simp; omega, by simp; omega, by omega, by omega⟩
    simp [encodeSeq, encodeBit, loopFuel, he, hF1]

/-- Relation between a decoder and the items the encoder has still to write. -/
def DecRel (d : Dec) (r : Range) (items : List (Bool × Nat)) (tail : List Bool) : Prop :=
  r.Ok ∧ ∃ F, encodeSeq r items = some F ∧ d = ⟨r, be4 F, bytesBits (F.drop 4) ++ tail⟩

theorem decStart_bytes {F : List UInt8} (h : 4 ≤ F.length) (tail : List Bool) :
    decStart (bytesBits F ++ tail) = some ⟨Range.init, be4 F, bytesBits (F.drop 4) ++ tail⟩ := by
  match F, h with
  | b0 :: b1 :: b2 :: b3 :: l, _ =>
    have := b0.toNat_lt
    have := b1.toNat_lt
    have := b2.toNat_lt
    have := b3.toNat_lt
    simp only [decStart, bytesBits_cons, List.append_assoc, readByte_byteBits, Option.bind_eq_bind,
      Option.bind_some, be4, List.drop_succ_cons, List.drop_zero, Nat.shiftLeft_eq]
    simp only [Option.pure_def, Option.some.injEq, Dec.mk.injEq, true_and, and_true]
    unfold W
    omega

theorem DecRel.start {items : List (Bool × Nat)} (hp : ∀ x ∈ items, x.2 ≤ 4096) (tail : List Bool) :
    ∃ F d, encodeSeq Range.init items = some F ∧ decStart (bytesBits F ++ tail) = some d ∧
      DecRel d Range.init items tail := by
  obtain ⟨F, h1, h2, _, h3, h4⟩ := encodeSeq_spec Range.init items Range.init_ok hp
  exact ⟨F, _, h1, decStart_bytes h2 tail, Range.init_ok, F, h1, rfl⟩

/-- One decoding step in lockstep with the encoder. -/
theorem DecRel.step {d : Dec} {r : Range} {bit : Bool} {p : Nat} {items : List (Bool × Nat)}
    {tail : List Bool} (h : DecRel d r ((bit, p) :: items) tail)
    (hp : p ≤ 4096) (hps : ∀ x ∈ items, x.2 ≤ 4096) :
    ∃ d' r', decodeBit d p = some (bit, d') ∧ DecRel d' r' items tail := by
  obtain ⟨ho, G, hG, rfl⟩ := h
  obtain ⟨c1, c2, c3, c4, c5⟩ := Range.choose_spec ho bit hp
  obtain ⟨r', bs, he, hok, hlen, hF⟩ := renorm_spec 4 (r.choose bit p) c1 c2 (by simp) (by omega)
  obtain ⟨F, hF1, hF2, hF3, hF4, hF5⟩ := encodeSeq_spec r' items hok hps
  obtain ⟨g1, g2, g3⟩ := hF F tail hF2 hF4 hF5
  have : G = bs ++ F := by
    simp [encodeSeq, encodeBit, loopFuel, he, hF1] at hG
    exact hG.symm
  subst this
  refine ⟨_, r', ?_, hok, F, hF1, rfl⟩
  have hb := c5 _ g1 g2
  unfold decodeBit
  simp only [hb, loopFuel, g3, Option.bind_eq_bind, Option.bind_some, Option.pure_def]

theorem DecRel.finish {d : Dec} {r : Range} {tail : List Bool} (h : DecRel d r [] tail) :
    d.input = tail := by
  obtain ⟨_, F, hF, rfl⟩ := h
  simp [encodeSeq] at hF
  subst hF
  simp [finishBytes]

theorem decodeSeq_spec {d : Dec} {r : Range} {items : List (Bool × Nat)} {tail : List Bool}
    (h : DecRel d r items tail) (hp : ∀ x ∈ items, x.2 ≤ 4096) :
    ∃ d' r', decodeSeq d (items.map Prod.snd) = some (items.map Prod.fst, d') ∧
      DecRel d' r' [] tail := by
  induction items generalizing d r with
  | nil => exact ⟨d, r, rfl, h⟩
  | cons x items ih =>
    obtain ⟨bit, p⟩ := x
    have hps : ∀ y ∈ items, y.2 ≤ 4096 := fun y hy => hp y (by simp [hy])
    obtain ⟨d1, r1, h1, h2⟩ := h.step (hp (bit, p) (by simp)) hps
    obtain ⟨d', r', h3, h4⟩ := ih h2 hps
    exact ⟨d', r', by simp [decodeSeq, h1, h3], h4⟩

theorem adaptiveItems_le {σ : Type} {prob : σ → Nat} {upd : σ → Bool → σ}
    (hp : ∀ m, prob m ≤ 4096) (m : σ) (bs : List Bool) :
    ∀ x ∈ adaptiveItems prob upd m bs, x.2 ≤ 4096 := by
  induction bs generalizing m with
  | nil => simp [adaptiveItems]
  | cons b bs ih =>
    intro x hx
    simp only [adaptiveItems, List.mem_cons] at hx
    rcases hx with rfl | hx
    · exact hp m
    · exact ih _ x hx

theorem decodeAdaptive_spec {σ : Type} {prob : σ → Nat} {upd : σ → Bool → σ}
    (hp : ∀ m, prob m ≤ 4096) {m : σ} {bs : List Bool} {d : Dec} {r : Range} {tail : List Bool}
    (h : DecRel d r (adaptiveItems prob upd m bs) tail) :
    ∃ d' r', decodeAdaptive prob upd bs.length m d = some (bs, d') ∧ DecRel d' r' [] tail := by
  induction bs generalizing d r m with
  | nil => exact ⟨d, r, rfl, h⟩
  | cons b bs ih =>
    obtain ⟨d1, r1, h1, h2⟩ := DecRel.step h (hp m) (adaptiveItems_le hp _ _)
    obtain ⟨d', r', h3, h4⟩ := ih h2
    exact ⟨d', r', by simp [decodeAdaptive, h1, h3], h4⟩

theorem encodeSeq_decode {items : List (Bool × Nat)} (hp : ∀ x ∈ items, x.2 ≤ 4096)
    (tail : List Bool) :
    ∃ F d d', encodeSeq Range.init items = some F ∧ decStart (bytesBits F ++ tail) = some d ∧
      decodeSeq d (items.map Prod.snd) = some (items.map Prod.fst, d') ∧ d'.input = tail := by
  obtain ⟨F, d, h1, h2, h3⟩ := DecRel.start hp tail
  obtain ⟨d', r', h4, h5⟩ := decodeSeq_spec h3 hp
  exact ⟨F, d, d', h1, h2, h4, h5.finish⟩

theorem encodeMany_decode (seqs : List (List (Bool × Nat)))
    (hp : ∀ items ∈ seqs, ∀ x ∈ items, x.2 ≤ 4096) :
    ∃ F, encodeMany seqs = some F ∧ ∀ tail,
      decodeMany (bytesBits F ++ tail) (seqs.map (·.map Prod.snd))
        = some (seqs.map (·.map Prod.fst), tail) := by
  induction seqs with
  | nil => exact ⟨[], rfl, fun tail => by simp [decodeMany, bytesBits]⟩
  | cons x xs ih =>
    obtain ⟨G, hG, hd⟩ := ih (fun i hi => hp i (by simp [hi]))
    obtain ⟨F, h1, _⟩ := encodeSeq_spec Range.init x Range.init_ok (hp x (by simp))
    refine ⟨F ++ G, by simp [encodeMany, h1, hG], fun tail => ?_⟩
    obtain ⟨F', d, d', e1, e2, e3, e4⟩ := encodeSeq_decode (hp x (by simp)) (bytesBits G ++ tail)
    rw [h1] at e1
    cases e1
    simp [decodeMany, bytesBits_append, e2, e3, e4, hd]

/-- The decoder's renormalisation performs the same shifts as the encoder's. -/
theorem renormDec_follows (fuel : Nat) {r r' : Range} {bs : List UInt8}
    (h : renormEnc fuel r = some (r', bs)) (v : Nat) (s : List Bool) (hs : 8 * bs.length ≤ s.length) :
    ∃ v', renormDec fuel ⟨r, v, s⟩ = some ⟨r', v', s.drop (8 * bs.length)⟩ := by
  induction fuel generalizing r bs v s with
  | zero => simp [renormEnc] at h
  | succ fuel ih =>
    rw [renormEnc] at h
    rw [renormDec]
    split at h
    · rename_i ht
      rw [if_pos ht]
      cases hr : renormEnc fuel r.shift with
      | none => simp [hr] at h
      | some x =>
        obtain ⟨r1, bs1⟩ := x
        simp [hr] at h
        obtain ⟨rfl, rfl⟩ := h
        simp only [List.length_cons] at hs
        have hrb : ∃ b, readByte s = some (b, s.drop 8) := by
          have h8 : (s.take 8).length = 8 := by simp; omega
          have hr8 := readBits_append (s.take 8) (s.drop 8)
          rw [h8, List.take_append_drop] at hr8
          exact ⟨_, by simp [readByte, hr8]; rfl⟩
        obtain ⟨b, hb⟩ := hrb
        simp only [hb, Option.bind_eq_bind, Option.bind_some]
        obtain ⟨v', hv'⟩ := ih hr (((v <<< 8) % W + b.toNat) % W) (s.drop 8) (by simp; omega)
        refine ⟨v', ?_⟩
        rw [hv']
        simp [List.drop_drop]
        congr 1; omega
    · rename_i ht
      rw [if_neg ht]
      simp only [Option.some.injEq, Prod.mk.injEq] at h
      obtain ⟨rfl, rfl⟩ := h
      exact ⟨v, by simp⟩

end Bwtc.RangeCoder
