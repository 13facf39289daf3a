import Verif.BitCodes

/-!
# The 64-bit output buffer and the gamma codes of the Huffman coder

Model of the code-emitting loops of `HuffmanEncoder::encodeData` (HuffmanCoders.cpp:198-251)
and of the gamma decoder (HuffmanCoders.cpp:588-600).
-/

set_option autoImplicit false

namespace Bwtc.BitBuffer
open BitCodes

/-- `buffer`, `bitsInBuffer` and the bytes written so far. -/
structure St where
  buf : Nat
  bits : Nat
  out : List UInt8

/-- Loop emptying the buffer until `len` more bits fit (HuffmanCoders.cpp:204-208, 233-237).
With fewer than eight bits left `bitsInBuffer` becomes negative and is used as a shift
amount: undefined. -/
def drain (len : Nat) (st : St) : Option St :=
  if st.bits + len > 64 then
    if 8 ≤ st.bits then
      drain len ⟨st.buf, st.bits - 8, st.out ++ [UInt8.ofNat ((st.buf >>> (st.bits - 8)) &&& 0xff)]⟩
    else none
  else some st
termination_by st.bits

/-- One code (HuffmanCoders.cpp:204-211, 233-240): the buffer is a 64-bit word; shifting it by
64 or more is undefined. -/
def put (len value : Nat) (st : St) : Option St := do
  let st ← drain len st
  if len < 64 then some ⟨((st.buf <<< len) % 2 ^ 64) ||| value, st.bits + len, st.out⟩ else none

/-- All codes (HuffmanCoders.cpp:202-212, 231-241): pairs (length, value). -/
def putAll : List (Nat × Nat) → St → Option St
  | [], st => some st
  | c :: cs, st => do
    let st ← put c.1 c.2 st
    putAll cs st

/-- Writing whole bytes (HuffmanCoders.cpp:215-219, 242-246). -/
def flushBytes (st : St) : St :=
  if 8 ≤ st.bits then
    flushBytes ⟨st.buf, st.bits - 8, st.out ++ [UInt8.ofNat ((st.buf >>> (st.bits - 8)) &&& 0xff)]⟩
  else st
termination_by st.bits

/-- Writing the remaining bits (HuffmanCoders.cpp:222-226, 247-251). -/
def flushBits (st : St) : List UInt8 :=
  if st.bits > 0 then
    st.out ++ [UInt8.ofNat (((st.buf <<< (8 - st.bits)) % 2 ^ 64) &&& 0xff)]
  else st.out

/-- The bytes written for a sequence of codes (HuffmanCoders.cpp:200-226, 229-251). -/
def writeCodes (cs : List (Nat × Nat)) : Option (List UInt8) := do
  let st ← putAll cs ⟨0, 0, []⟩
  return flushBits (flushBytes st)

/-- Length and value of the gamma code of a run length (HuffmanCoders.cpp:232, 239). -/
def gammaPair (n : Nat) : Option (Nat × Nat) := do
  let l ← logFloor n
  return (l * 2 + 1, n)

/-- Storing the run lengths (HuffmanCoders.cpp:229-251). -/
def writeGammas (runs : List Nat) : Option (List UInt8) := do
  let cs ← runs.mapM gammaPair
  writeCodes cs

/-- The loop `while(!in->readBit()) ++zeros` (HuffmanCoders.cpp:591-592). -/
def countZeros : Nat → List Bool → Option (Nat × List Bool)
  | _, [] => none
  | n, true :: s => some (n, s)
  | n, false :: s => countZeros (n + 1) s

/-- One gamma code (HuffmanCoders.cpp:590-599).  The `int` shift `1 << zeros` is undefined for
31 or more zeros. -/
def gammaDecode (s : List Bool) : Option (Nat × List Bool) := do
  let (zeros, s) ← countZeros 0 s
  let (bs, s) ← readBits zeros s
  let p ← shl1 zeros
  return (natOf bs ||| p, s)

/-- Reading `n` run lengths (HuffmanCoders.cpp:589-600). -/
def readGammas : Nat → List Bool → Option (List Nat × List Bool)
  | 0, s => some ([], s)
  | n + 1, s => do
    let (v, s) ← gammaDecode s
    let (vs, s) ← readGammas n s
    return (v :: vs, s)

/-! ## Lemmas -/

theorem bytesBits_inj {a b : List UInt8} (h : bytesBits a = bytesBits b) : a = b := by
  rw [← packBits_bytes a, ← packBits_bytes b, h]

theorem packBits_unique {l : List UInt8} {bs : List Bool} {k : Nat} (hk : k < 8)
    (h : bytesBits l = bs ++ List.replicate k false) : l = packBits bs := by
  obtain ⟨k', hk', h'⟩ := bytesBits_packBits bs
  have e1 := congrArg List.length h
  have e2 := congrArg List.length h'
  rw [bytesBits_length] at e1 e2
  simp at e1 e2
  have : k = k' := by omega
  subst this
  exact bytesBits_inj (h.trans h'.symm)

/-- The bits represented by a state. -/
def St.all (st : St) : List Bool := bytesBits st.out ++ bitsOf st.bits st.buf

theorem byteBits_ofNat (n : Nat) : byteBits (UInt8.ofNat (n &&& 0xff)) = bitsOf 8 n := by
  rw [byteBits, UInt8.toNat_ofNat', bitsOf_mod, show n &&& 0xff = n % 2 ^ 8 from Nat.and_two_pow_sub_one_eq_mod n 8,
    bitsOf_mod]

theorem all_byte (st : St) (h : 8 ≤ st.bits) :
    St.all ⟨st.buf, st.bits - 8, st.out ++ [UInt8.ofNat ((st.buf >>> (st.bits - 8)) &&& 0xff)]⟩ = st.all := by
  unfold St.all
  simp only [bytesBits_append, bytesBits_cons, bytesBits_nil, List.append_nil, List.append_assoc]
  congr 1
  rw [byteBits_ofNat, Nat.shiftRight_eq_div_pow, ← bitsOf_add]
  congr 1
  omega

/-- Emptying succeeds exactly when the pending bits of the last byte leave enough room. -/
theorem drain_spec (len : Nat) (st : St) (h : st.bits % 8 + len ≤ 64) :
    ∃ st', drain len st = some st' ∧ st'.all = st.all ∧ st'.bits + len ≤ 64 ∧
      st'.bits % 8 = st.bits % 8 := by
  fun_induction drain len st with
  | case1 st h1 h2 ih =>
    obtain ⟨st', e1, e2, e3, e4⟩ := ih (by show (st.bits - 8) % 8 + len ≤ 64; omega)
    refine ⟨st', e1, by rw [e2, all_byte st h2], e3, ?_⟩
    rw [e4]
    show (st.bits - 8) % 8 = _
    omega
  | case2 st h1 h2 => omega
  | case3 st h1 => exact ⟨st, rfl, rfl, by omega, rfl⟩

theorem drain_none (len : Nat) (st : St) (h : 64 < st.bits % 8 + len) : drain len st = none := by
  fun_induction drain len st with
  | case1 st h1 h2 ih => exact ih (by show 64 < (st.bits - 8) % 8 + len; omega)
  | case2 st h1 h2 => rfl
  | case3 st h1 => omega

theorem put_spec (len v : Nat) (st : St) (h : st.bits % 8 + len ≤ 64) (hl : len < 64) (hv : v < 2 ^ len) :
    ∃ st', put len v st = some st' ∧ st'.all = st.all ++ bitsOf len v ∧
      st'.bits % 8 = (st.bits + len) % 8 := by
  obtain ⟨st1, e1, e2, e3, e4⟩ := drain_spec len st h
  refine ⟨⟨((st1.buf <<< len) % 2 ^ 64) ||| v, st1.bits + len, st1.out⟩, ?_, ?_, ?_⟩
  · simp [put, e1, hl]
  · rw [← e2]
    unfold St.all
    simp only [List.append_assoc]
    congr 1
    have hm : (st1.buf <<< len) % 2 ^ 64 = (st1.buf % 2 ^ (64 - len)) <<< len := by
      rw [Nat.shiftLeft_eq, Nat.shiftLeft_eq]
      conv => lhs; rw [show 64 = (64 - len) + len by omega, Nat.pow_add, Nat.mul_mod_mul_right]
    rw [hm, ← Nat.shiftLeft_add_eq_or_of_lt hv, Nat.shiftLeft_eq, bitsOf_add]
    have hpos : 0 < 2 ^ len := Nat.pow_pos (by omega)
    have d1 : (st1.buf % 2 ^ (64 - len) * 2 ^ len + v) / 2 ^ len = st1.buf % 2 ^ (64 - len) := by
      rw [Nat.add_comm, Nat.add_mul_div_right _ _ hpos, Nat.div_eq_of_lt hv, Nat.zero_add]
    rw [d1, bitsOf_mod_le (by omega)]
    congr 1
    rw [← bitsOf_mod len (_ + v), Nat.add_comm, Nat.add_mul_mod_self_right, bitsOf_mod]
  · show (st1.bits + len) % 8 = _
    omega

theorem putAll_spec (cs : List (Nat × Nat)) (h : ∀ c ∈ cs, c.1 ≤ 57 ∧ c.2 < 2 ^ c.1) : ∀ (st : St),
    ∃ st', putAll cs st = some st' ∧ st'.all = st.all ++ cs.flatMap fun c => bitsOf c.1 c.2 := by
  induction cs with
  | nil => intro st; exact ⟨st, rfl, by simp⟩
  | cons c cs ih =>
    intro st
    have hc := h c (by simp)
    obtain ⟨s1, e1, e2, _⟩ := put_spec c.1 c.2 st (by omega) (by omega) hc.2
    obtain ⟨s2, e3, e4⟩ := ih (fun d hd => h d (by simp [hd])) s1
    exact ⟨s2, by simp [putAll, e1, e3], by rw [e4, e2]; simp⟩

theorem flushBytes_spec (st : St) : (flushBytes st).all = st.all ∧ (flushBytes st).bits < 8 := by
  fun_induction flushBytes st with
  | case1 st h ih => exact ⟨by rw [ih.1, all_byte st h], ih.2⟩
  | case2 st h => exact ⟨rfl, by omega⟩

theorem flushBits_spec (st : St) (h : st.bits < 8) :
    ∃ k, k < 8 ∧ bytesBits (flushBits st) = st.all ++ List.replicate k false := by
  unfold flushBits
  split
  · rename_i h0
    refine ⟨8 - st.bits, by omega, ?_⟩
    rw [bytesBits_append, St.all, List.append_assoc]
    congr 1
    rw [bytesBits_cons, bytesBits_nil, List.append_nil, byteBits_ofNat, bitsOf_mod_le (by omega), Nat.shiftLeft_eq,
      show 8 = st.bits + (8 - st.bits) by omega, bitsOf_add]
    have hpos : 0 < 2 ^ (8 - st.bits) := Nat.pow_pos (by omega)
    rw [show st.bits + (8 - st.bits) - st.bits = 8 - st.bits by omega, Nat.mul_div_cancel _ hpos]
    congr 1
    rw [← bitsOf_mod, Nat.mul_mod_left]
    generalize 8 - st.bits = k
    induction k with
    | zero => rfl
    | succ k ih => simp [bitsOf, List.replicate_succ, ih]
  · rename_i h0
    refine ⟨0, by omega, ?_⟩
    have : st.bits = 0 := by omega
    simp [St.all, this, bitsOf]

/-- Codes of at most 57 bits are written as the concatenation of their bits, zero padded. -/
theorem writeCodes_spec (cs : List (Nat × Nat)) (h : ∀ c ∈ cs, c.1 ≤ 57 ∧ c.2 < 2 ^ c.1) :
    writeCodes cs = some (packBits (cs.flatMap fun c => bitsOf c.1 c.2)) := by
  obtain ⟨st, e1, e2⟩ := putAll_spec cs h ⟨0, 0, []⟩
  obtain ⟨f1, f2⟩ := flushBytes_spec st
  obtain ⟨k, hk, e3⟩ := flushBits_spec _ f2
  rw [writeCodes, e1]
  simp only [Option.bind_eq_bind, Option.bind_some]
  show some _ = some _
  congr 1
  apply packBits_unique hk
  rw [e3, f1, e2]
  simp [St.all, bitsOf]

theorem countZeros_replicate (z n : Nat) (s : List Bool) :
    countZeros n (List.replicate z false ++ true :: s) = some (n + z, s) := by
  induction z generalizing n with
  | zero => rfl
  | succ z ih =>
    rw [List.replicate_succ, List.cons_append, countZeros, ih]
    congr 2
    omega

/-- Shape of a gamma code: `log2 n` zeros, a one, and the lower bits. -/
theorem gamma_shape (n : Nat) (h : 1 ≤ n) :
    bitsOf (n.log2 * 2 + 1) n = List.replicate n.log2 false ++ true :: bitsOf n.log2 n := by
  have hb := log2_bounds (n := n) (by omega)
  rw [show n.log2 * 2 + 1 = n.log2 + (1 + n.log2) by omega, bitsOf_add, bitsOf_add]
  have hpos : 0 < 2 ^ n.log2 := Nat.pow_pos (by omega)
  have e1 : n / 2 ^ (1 + n.log2) = 0 := by
    apply Nat.div_eq_of_lt
    rw [Nat.add_comm]
    exact hb.2
  have e2 : n / 2 ^ n.log2 = 1 := by
    rw [Nat.div_eq_iff hpos]
    rw [Nat.pow_succ] at hb
    omega
  rw [e1, e2]
  congr 1
  generalize n.log2 = k
  induction k with
  | zero => rfl
  | succ k ih => simp [bitsOf, List.replicate_succ, ih]

theorem gammaDecode_code (n : Nat) (h : 1 ≤ n) (h31 : n < 2 ^ 31) (s : List Bool) :
    gammaDecode (bitsOf (n.log2 * 2 + 1) n ++ s) = some (n, s) := by
  have hb := log2_bounds (n := n) (by omega)
  have hlog : n.log2 < 31 := by
    apply Decidable.byContradiction
    intro hc
    have := Nat.pow_le_pow_right (show 0 < 2 by omega) (show 31 ≤ n.log2 by omega)
    omega
  rw [gamma_shape n h, List.append_assoc, List.cons_append, gammaDecode, countZeros_replicate]
  simp only [Option.bind_eq_bind, Option.bind_some, Nat.zero_add]
  rw [readBits_append' (bitsOf_length _ _)]
  simp only [Option.bind_some, shl1, hlog, if_true]
  show some _ = some _
  congr 2
  rw [natOf_bitsOf, Nat.or_comm, ← Nat.shiftLeft_add_eq_or_of_lt (Nat.mod_lt _ (Nat.pow_pos (by omega))), Nat.shiftLeft_eq,
    Nat.one_mul]
  have hd := Nat.div_add_mod n (2 ^ n.log2)
  have e2 : n / 2 ^ n.log2 = 1 := by
    rw [Nat.div_eq_iff (Nat.pow_pos (by omega))]
    rw [Nat.pow_succ] at hb
    omega
  rw [e2] at hd
  omega

theorem gammaPair_eq (n : Nat) (h : 1 ≤ n) : gammaPair n = some (n.log2 * 2 + 1, n) := by
  simp [gammaPair, logFloor, show n ≠ 0 by omega]

theorem mapM_gammaPair (runs : List Nat) (h : ∀ n ∈ runs, 1 ≤ n) :
    runs.mapM gammaPair = some (runs.map fun n => (n.log2 * 2 + 1, n)) := by
  induction runs with
  | nil => rfl
  | cons n runs ih =>
    rw [List.mapM_cons, gammaPair_eq n (h n (by simp)), ih (fun m hm => h m (by simp [hm]))]
    rfl

theorem readGammas_spec (runs : List Nat) (h : ∀ n ∈ runs, 1 ≤ n ∧ n < 2 ^ 31) (s : List Bool) :
    readGammas runs.length ((runs.flatMap fun n => bitsOf (n.log2 * 2 + 1) n) ++ s) = some (runs, s) := by
  induction runs with
  | nil => rfl
  | cons n runs ih =>
    have hn := h n (by simp)
    rw [List.length_cons, List.flatMap_cons, List.append_assoc, readGammas, gammaDecode_code n hn.1 hn.2]
    simp only [Option.bind_eq_bind, Option.bind_some]
    rw [ih (fun m hm => h m (by simp [hm]))]
    rfl

theorem gamma_len (n : Nat) (h : 1 ≤ n) (h29 : n < 2 ^ 29) : n.log2 * 2 + 1 ≤ 57 ∧ n < 2 ^ (n.log2 * 2 + 1) := by
  have hb := log2_bounds (n := n) (by omega)
  have hlog : n.log2 < 29 := by
    apply Decidable.byContradiction
    intro hc
    have := Nat.pow_le_pow_right (show 0 < 2 by omega) (show 29 ≤ n.log2 by omega)
    omega
  have := Nat.pow_le_pow_right (show 0 < 2 by omega) (show n.log2 + 1 ≤ n.log2 * 2 + 1 by omega)
  omega

theorem writeGammas_spec (runs : List Nat) (h : ∀ n ∈ runs, 1 ≤ n ∧ n < 2 ^ 29) :
    writeGammas runs = some (packBits (runs.flatMap fun n => bitsOf (n.log2 * 2 + 1) n)) := by
  rw [writeGammas, mapM_gammaPair runs (fun n hn => (h n hn).1)]
  simp only [Option.bind_eq_bind, Option.bind_some]
  rw [writeCodes_spec]
  · rw [List.flatMap_map]
  · intro c hc
    obtain ⟨n, hn, rfl⟩ := List.mem_map.mp hc
    exact gamma_len n (h n hn).1 (h n hn).2

end Bwtc.BitBuffer
