import Verif.Basic

/-!
# The header of a BWT block

Model of `BWTBlock::writeHeader` and `readHeader`.
-/

set_option autoImplicit false

namespace Bwtc.BlockHeader

/-- State of the writing loop: the byte being assembled, `bitsLeft`, bytes written. -/
structure WSt where
  s : Nat
  left : Nat
  out : List UInt8

/-- One round of the inner loop (BWTBlock.cpp:72-78). -/
def pushBit (st : WSt) (b : Bool) : WSt :=
  let s := ((st.s <<< 1) ||| b.toNat) % 256
  let left := st.left - 1
  if left = 0 then ⟨s, 8, st.out ++ [UInt8.ofNat s]⟩ else ⟨s, left, st.out⟩

/-- The inner loop (BWTBlock.cpp:71-79): bits 30..0 of one starting point. -/
def pushPower (st : WSt) (p : Nat) : WSt :=
  ((List.range 31).reverse).foldl (fun st j => pushBit st ((p >>> j) &&& 1 == 1)) st

/-- `BWTBlock::writeHeader` (BWTBlock.cpp:61-86): the bytes written.  The returned count is
`headerBytes`.  Simplification: logging is omitted. -/
def writeHeader (powers : List Nat) : List UInt8 :=
  let s := (powers.length - 1) % 256
  let st := powers.foldl pushPower ⟨s, 8, [UInt8.ofNat s]⟩
  if st.left < 8 then st.out ++ [UInt8.ofNat (st.s <<< st.left)] else st.out

/-- The counter `bytes` in the loops of `writeHeader` (BWTBlock.cpp:73-78), with `bitsLeft`; `n` rounds. -/
def countLoop : Nat → Nat → Nat → Nat × Nat
  | 0, left, bytes => (left, bytes)
  | n + 1, left, bytes => if left - 1 = 0 then countLoop n 8 (bytes + 1) else countLoop n (left - 1) bytes

/-- The value returned by `BWTBlock::writeHeader` (BWTBlock.cpp:66, 77, 82-85). -/
def headerBytes (powers : List Nat) : Nat :=
  let (left, bytes) := countLoop (powers.length * 31) 8 1
  if left < 8 then bytes + 1 else bytes

/-- The inner loop of `readHeader` (BWTBlock.cpp:96-98): `n` bits into a 32-bit word. -/
def readPower : Nat → Nat → List Bool → Option (Nat × List Bool)
  | 0, pos, s => some (pos, s)
  | n + 1, pos, s => do
    let (b, s) ← readBit s
    readPower n (((pos <<< 1) % 2 ^ 32) ||| b.toNat) s

/-- The outer loop of `readHeader` (BWTBlock.cpp:95-100). -/
def readPowers : Nat → List Bool → Option (List Nat × List Bool)
  | 0, s => some ([], s)
  | n + 1, s => do
    let (p, s) ← readPower 31 0 s
    let (ps, s) ← readPowers n s
    return (p :: ps, s)

/-- `BWTBlock::readHeader` (BWTBlock.cpp:88-102). -/
def readHeader (s : List Bool) : Option (List Nat × List Bool) := do
  let (b, s) ← readByte s
  let (ps, s) ← readPowers (b.toNat + 1) s
  return (ps, alignIn s)

/-- `BWTBlock::prepareLFpowers` (BWTBlock.cpp:104-108): the number of starting points. -/
def preparePowers (length startingPoints : Nat) : Nat :=
  if length ≤ 256 ∨ startingPoints = 0 then 1
  else if startingPoints ≤ 256 then startingPoints
  else 256

/-! ## Lemmas -/

/-- What has been written: complete bytes, then the low bits of the current byte. -/
def WOk (st : WSt) (bits : List Bool) : Prop :=
  1 ≤ st.left ∧ st.left ≤ 8 ∧ st.s < 256 ∧
    bytesBits st.out ++ bitsOf (8 - st.left) st.s = bits

theorem shl1_or (x : Nat) (b : Bool) : (x <<< 1) ||| b.toNat = 2 * x + b.toNat := by
  have : b.toNat < 2 ^ 1 := by cases b <;> simp
  rw [← Nat.shiftLeft_add_eq_or_of_lt this, Nat.shiftLeft_eq]
  omega

theorem bitsOf_snoc (w n : Nat) (b : Bool) :
    bitsOf (w + 1) (2 * n + b.toNat) = bitsOf w n ++ [b] := by
  rw [bitsOf_add w 1]
  congr 1
  · congr 1
    cases b <;> simp; omega
  · cases b <;> simp [bitsOf] <;> omega

theorem pushBit_ok {st : WSt} {bits : List Bool} (h : WOk st bits) (b : Bool) :
    WOk (pushBit st b) (bits ++ [b]) := by
  obtain ⟨h1, h2, h3, h4⟩ := h
  have hs : bitsOf (8 - (st.left - 1)) ((2 * st.s + b.toNat) % 256)
      = bitsOf (8 - st.left) st.s ++ [b] := by
    rw [show (256 : Nat) = 2 ^ 8 by rfl, bitsOf_mod_le (by omega),
      show 8 - (st.left - 1) = (8 - st.left) + 1 by omega, bitsOf_snoc]
  unfold pushBit
  rw [shl1_or]
  simp only
  split
  · rename_i h0
    refine ⟨by simp, by simp, Nat.mod_lt _ (by omega), ?_⟩
    simp only [h0, Nat.sub_zero] at hs
    simp only [bytesBits_append, bytesBits_cons, bytesBits_nil, List.append_nil, byteBits,
      UInt8.toNat_ofNat', Nat.sub_self, bitsOf]
    rw [Nat.mod_mod_of_dvd _ (by decide : 2 ^ 8 ∣ 256)]
    rw [← h4, List.append_assoc, ← hs]
    rfl
  · refine ⟨by simp only; omega, by simp only; omega, Nat.mod_lt _ (by omega), ?_⟩
    simp only
    rw [hs, ← h4, List.append_assoc]

theorem bitsOf_eq_map (w n : Nat) :
    bitsOf w n = (List.range w).reverse.map (fun j => (n >>> j) &&& 1 == 1) := by
  induction w with
  | zero => rfl
  | succ w ih =>
    rw [bitsOf, List.range_succ, List.reverse_append, ih, ← Nat.shiftRight_eq_div_pow]
    simp [Nat.and_one_is_mod]

theorem pushPower_ok {st : WSt} {bits : List Bool} (h : WOk st bits) (p : Nat) :
    WOk (pushPower st p) (bits ++ bitsOf 31 p) := by
  have gen : ∀ (l : List Nat) (st : WSt) (bits : List Bool), WOk st bits →
      WOk (l.foldl (fun st j => pushBit st ((p >>> j) &&& 1 == 1)) st)
        (bits ++ l.map (fun j => (p >>> j) &&& 1 == 1)) := by
    intro l
    induction l with
    | nil => intro st bits h; simpa using h
    | cons j l ih =>
      intro st bits h
      have := ih _ _ (pushBit_ok h ((p >>> j) &&& 1 == 1))
      simpa using this
  rw [bitsOf_eq_map]
  exact gen _ _ _ h

theorem pushPowers_ok (ps : List Nat) {st : WSt} {bits : List Bool} (h : WOk st bits) :
    WOk (ps.foldl pushPower st) (bits ++ ps.flatMap (bitsOf 31)) := by
  induction ps generalizing st bits with
  | nil => simpa using h
  | cons p ps ih =>
    have := ih (pushPower_ok h p)
    simpa using this

theorem bitsOf_shl (w k n : Nat) : bitsOf (w + k) (n * 2 ^ k) = bitsOf w n ++ List.replicate k false := by
  rw [bitsOf_add, Nat.mul_div_cancel _ (Nat.pow_pos (by omega))]
  congr 1
  have := bitsOf_add_mul k 0 n
  rw [Nat.zero_add] at this
  rw [this]
  clear this
  induction k with
  | zero => rfl
  | succ k ih => simp [bitsOf, List.replicate_succ, ih]

/-- The header is the count byte followed by the 31-bit fields, zero padded. -/
theorem writeHeader_bits (ps : List Nat) : ∃ k, k < 8 ∧
    bytesBits (writeHeader ps)
      = bitsOf 8 (ps.length - 1) ++ ps.flatMap (bitsOf 31) ++ List.replicate k false := by
  have h0 : WOk ⟨(ps.length - 1) % 256, 8, [UInt8.ofNat ((ps.length - 1) % 256)]⟩
      (bitsOf 8 (ps.length - 1)) := by
    refine ⟨by simp, by simp, Nat.mod_lt _ (by omega), ?_⟩
    simp only [bytesBits_cons, bytesBits_nil, List.append_nil, byteBits, UInt8.toNat_ofNat',
      Nat.sub_self, bitsOf]
    rw [Nat.mod_mod_of_dvd _ (by decide : 2 ^ 8 ∣ 256)]
    exact bitsOf_mod 8 _
  obtain ⟨h1, h2, h3, h4⟩ := pushPowers_ok ps h0
  unfold writeHeader
  simp only
  generalize ps.foldl pushPower _ = st at *
  split
  · refine ⟨st.left, by assumption, ?_⟩
    rw [← h4, List.append_assoc, ← bitsOf_shl, show 8 - st.left + st.left = 8 by omega]
    simp only [bytesBits_append, bytesBits_cons, bytesBits_nil, List.append_nil, byteBits,
      UInt8.toNat_ofNat', bitsOf_mod, Nat.shiftLeft_eq]
  · refine ⟨0, by omega, ?_⟩
    have : st.left = 8 := by omega
    rw [← h4, this]
    simp [bitsOf]

theorem readPower_eq (n pos : Nat) (bs s : List Bool) (hn : bs.length = n)
    (h : pos < 2 ^ (31 - n)) (hn31 : n ≤ 31) :
    readPower n pos (bs ++ s) = some (natOfAux pos bs, s) := by
  induction n generalizing pos bs with
  | zero =>
    have : bs = [] := List.length_eq_zero_iff.mp hn
    simp [this, readPower, natOfAux]
  | succ n ih =>
    cases bs with
    | nil => simp at hn
    | cons b bs =>
      have hp : 2 ^ (31 - n) = 2 * 2 ^ (31 - (n + 1)) := by
        rw [show 31 - n = (31 - (n + 1)) + 1 by omega, Nat.pow_succ]; omega
      have hp2 : 2 ^ (31 - (n + 1)) ≤ 2 ^ 30 := Nat.pow_le_pow_right (by omega) (by omega)
      have hb : b.toNat ≤ 1 := Bool.toNat_le b
      have hm : (pos <<< 1) % 2 ^ 32 = pos <<< 1 := by
        rw [Nat.mod_eq_of_lt]
        rw [Nat.shiftLeft_eq]
        omega
      simp only [readPower, List.cons_append, readBit, Option.bind_eq_bind, Option.bind_some, hm, shl1_or]
      rw [ih _ _ (by simpa using hn) (by omega) (by omega)]
      rfl

theorem readPowers_eq (ps : List Nat) (s : List Bool) (h : ∀ p ∈ ps, p < 2 ^ 31) :
    readPowers ps.length (ps.flatMap (bitsOf 31) ++ s) = some (ps, s) := by
  induction ps with
  | nil => rfl
  | cons p ps ih =>
    simp only [List.length_cons, List.flatMap_cons, List.append_assoc, readPowers]
    rw [readPower_eq 31 0 _ _ (bitsOf_length _ _) (by simp) (by omega)]
    simp only [Option.bind_eq_bind, Option.bind_some]
    rw [ih (fun q hq => h q (List.mem_cons_of_mem _ hq))]
    have : natOfAux 0 (bitsOf 31 p) = p := natOf_bitsOf_of_lt (h p List.mem_cons_self)
    simp [this]

theorem readHeader_writeHeader (ps : List Nat) (h1 : 1 ≤ ps.length) (h2 : ps.length ≤ 256)
    (h : ∀ p ∈ ps, p < 2 ^ 31) (rest : List Bool) (hr : rest.length % 8 = 0) :
    readHeader (bytesBits (writeHeader ps) ++ rest) = some (ps, rest) := by
  obtain ⟨k, hk, hw⟩ := writeHeader_bits ps
  have hb : byteBits (UInt8.ofNat (ps.length - 1)) = bitsOf 8 (ps.length - 1) := by
    rw [byteBits, UInt8.toNat_ofNat', bitsOf_mod]
  have ht : (UInt8.ofNat (ps.length - 1)).toNat + 1 = ps.length := by
    rw [UInt8.toNat_ofNat']; omega
  rw [hw, ← hb]
  simp only [readHeader, List.append_assoc, readByte_byteBits, Option.bind_eq_bind, Option.bind_some, ht]
  rw [readPowers_eq ps _ h]
  simp only [Option.bind_some, Option.pure_def]
  rw [alignIn_pad _ _ (by simpa using hk) hr]

theorem writeHeader_length (ps : List Nat) :
    (writeHeader ps).length = 1 + (31 * ps.length + 7) / 8 := by
  obtain ⟨k, hk, hw⟩ := writeHeader_bits ps
  have := congrArg List.length hw
  have hf : (ps.flatMap (bitsOf 31)).length = 31 * ps.length := by
    clear hw this
    induction ps with
    | nil => rfl
    | cons p ps ih => simp [ih]; omega
  simp only [bytesBits_length, List.length_append, bitsOf_length, hf, List.length_replicate] at this
  omega

theorem countLoop_spec : ∀ (n left bytes : Nat), 1 ≤ left → left ≤ 8 →
    (countLoop n left bytes).2 = bytes + (n + (8 - left)) / 8 ∧
      (countLoop n left bytes).1 = 8 - (n + (8 - left)) % 8 := by
  intro n
  induction n with
  | zero => intro left bytes h1 h2; simp only [countLoop]; omega
  | succ n ih =>
    intro left bytes h1 h2
    rw [countLoop]
    split
    · obtain ⟨e1, e2⟩ := ih 8 (bytes + 1) (by omega) (by omega)
      omega
    · obtain ⟨e1, e2⟩ := ih (left - 1) bytes (by omega) (by omega)
      omega

theorem headerBytes_eq (ps : List Nat) : headerBytes ps = (writeHeader ps).length := by
  obtain ⟨e1, e2⟩ := countLoop_spec (ps.length * 31) 8 1 (by omega) (by omega)
  rw [writeHeader_length, headerBytes]
  simp only
  split <;> omega

end Bwtc.BlockHeader
