import Verif.Basic

/-!
# Unary, bounded binary and binary interpolative codes

Model of `Utils.hpp:93-126, 223-416`.  Appending to a bit vector is modelled by returning
the appended bits; the `Input` of the decoders is the list of remaining bits.
-/

set_option autoImplicit false

namespace Bwtc.BitCodes

/-- `utils::unaryCode` (Utils.hpp:405-409).  `n--` on an unsigned zero wraps after the
comparison `0 > 1` failed, so zero gives the same single bit as one. -/
def unaryCode (n : Nat) : List Bool :=
  if 1 < n then false :: unaryCode (n - 1) else [true]

/-- Loop of `utils::unaryDecode` (Utils.hpp:411-416) with the counter `n`. -/
def unaryDecodeGo : Nat → List Bool → Option (Nat × List Bool)
  | _, [] => none
  | n, true :: s => some (n, s)
  | n, false :: s => unaryDecodeGo (n + 1) s

/-- `utils::unaryDecode` (Utils.hpp:411-416). -/
def unaryDecode (s : List Bool) : Option (Nat × List Bool) := unaryDecodeGo 1 s

/-- `utils::logFloor` (Utils.hpp:93-119): position of the highest set bit;
`__builtin_clz(0)` is undefined. -/
def logFloor (n : Nat) : Option Nat := if n = 0 then none else some n.log2

/-- The `int` expression `1 << k` (Utils.hpp:125, 243, 304): undefined when the result
does not fit a 32-bit signed integer. -/
def shl1 (k : Nat) : Option Nat := if k < 31 then some (1 <<< k) else none

/-- `utils::logCeiling` (Utils.hpp:121-126). -/
def logCeiling (n : Nat) : Option Nat := do
  let log ← logFloor n
  let p ← shl1 log
  return if p < n then log + 1 else log

/-- Subtraction of 64-bit `size_t` values (wraps around when `a < b`). -/
def usub (a b : Nat) : Nat := if b ≤ a then a - b else 2 ^ 64 - (b - a)

/-- `codeLength`, `shortCodewords` and `longCodewords2` of a range
(Utils.hpp:242-244, 303-305, 324-326). -/
def codeParams (rangeLen : Nat) : Option (Nat × Nat × Nat) := do
  let codeLength ← logCeiling rangeLen
  let p ← shl1 codeLength
  let short := usub p rangeLen
  let long2 := usub rangeLen short / 2
  return (codeLength, short, long2)

/-- `utils::binaryCode` (Utils.hpp:238-252). -/
def binaryCode (n lo hi : Nat) : Option (List Bool) :=
  let rangeLen := (usub hi lo + 1) % 2 ^ 64
  if rangeLen = 1 then some []
  else do
    let (codeLength, short, long2) ← codeParams rangeLen
    let d := usub n lo
    if d < long2 then return bitsOf codeLength d
    else if d < (long2 + short) % 2 ^ 64 then return bitsOf (codeLength - 1) d
    else return bitsOf codeLength (usub d short)

/-- `utils::binaryDecode`, both overloads (Utils.hpp:299-341): value, number added to
`*bitsRead` (the first overload has no such output) and remaining input. -/
def binaryDecode (lo hi : Nat) (s : List Bool) : Option (Nat × Nat × List Bool) :=
  let rangeLen := (usub hi lo + 1) % 2 ^ 64
  if rangeLen = 1 then some (lo, 0, s)
  else do
    let (codeLength, short, long2) ← codeParams rangeLen
    let (bs, s) ← readBits (codeLength - 1) s
    let result := natOf bs
    if result ≥ long2 then return (result + lo, codeLength - 1, s)
    else
      let (b, s) ← readBit s
      let result := 2 * result + b.toNat
      if result < long2 then return (result + lo, codeLength, s)
      else return (result + lo + short, codeLength, s)

/-- `utils::binaryInterpolativeCode` (Utils.hpp:263-280).  `e` is `end`.  Indexing outside
the vector gives `none`. -/
def interpCode (list : List Nat) (b e lo hi : Nat) : Option (List Bool) :=
  if b > e then some []
  else if e - b = usub hi lo then some []
  else if b = e then do
    let x ← list[b]?
    binaryCode x lo hi
  else do
    let h := (e - b) / 2
    let half := b + h
    let x ← list[half]?
    let c1 ← binaryCode x (lo + h) (usub (hi + half) e)
    let c2 ← (if half > b then interpCode list b (half - 1) lo (usub x 1) else some [])
    let c3 ← interpCode list (half + 1) e (x + 1) hi
    return c1 ++ c2 ++ c3
  termination_by e + 1 - b
  decreasing_by all_goals omega

/-- `utils::binaryInterpolativeCode` with lower bound zero (Utils.hpp:291-297). -/
def interpCode0 (list : List Nat) (maxValue : Nat) : Option (List Bool) :=
  interpCode list 0 (usub list.length 1) 0 maxValue

/-- `utils::binaryInterpolativeDecode` (Utils.hpp:343-362): pushed elements, bits read,
remaining input.  `M` is the number of values of the element type `Integer` (256 for
bytes, `2^64` for `size_t`); conversions to it reduce modulo `M`. -/
def interpDecode (M lo hi elements : Nat) (s : List Bool) :
    Option (List Nat × Nat × List Bool) :=
  if elements = 0 then some ([], 0, s)
  else if elements = (usub hi lo + 1) % 2 ^ 64 then
    some ((List.range (hi + 1 - lo)).map (fun i => (lo + i) % M), 0, s)
  else do
    let h := (elements - 1) / 2
    let r := elements / 2 - h
    let (mid, n1, s) ← binaryDecode (lo + h) (usub (usub hi h) r) s
    let mid := mid % M
    let (l1, n2, s) ← interpDecode M lo (usub mid 1) h s
    let (l2, n3, s) ← interpDecode M (mid + 1) hi (elements - h - 1) s
    return (l1 ++ mid :: l2, n1 + n2 + n3, s)
  termination_by elements

/-! ## Lemmas -/

theorem unaryCode_eq (n : Nat) (h : 1 ≤ n) : unaryCode n = List.replicate (n - 1) false ++ [true] := by
  induction n with
  | zero => omega
  | succ n ih =>
    rw [unaryCode]
    split
    · rw [Nat.add_sub_cancel, ih (by omega)]
      obtain ⟨k, rfl⟩ : ∃ k, n = k + 1 := ⟨n - 1, by omega⟩
      simp [List.replicate_succ]
    · have : n = 0 := by omega
      subst this; rfl

theorem unaryDecodeGo_eq (k n : Nat) (s : List Bool) :
    unaryDecodeGo n (List.replicate k false ++ true :: s) = some (n + k, s) := by
  induction k generalizing n with
  | zero => rfl
  | succ k ih => simp [List.replicate_succ, unaryDecodeGo, ih]; omega

theorem unaryDecode_code (n : Nat) (h : 1 ≤ n) (s : List Bool) :
    unaryDecode (unaryCode n ++ s) = some (n, s) := by
  rw [unaryCode_eq n h, unaryDecode, List.append_assoc]
  simp only [List.cons_append, List.nil_append]
  rw [unaryDecodeGo_eq]
  congr 2
  omega

theorem usub_of_le {a b : Nat} (h : b ≤ a) (_ : a < 2 ^ 64) : usub a b = a - b := by
  unfold usub
  rw [if_pos h]

theorem log2_bounds {n : Nat} (h : n ≠ 0) : 2 ^ n.log2 ≤ n ∧ n < 2 ^ (n.log2 + 1) :=
  ⟨Nat.log2_self_le h, Nat.lt_log2_self⟩

/-- The parameters of a range of `2 ≤ R ≤ 2^30` values. -/
theorem codeParams_spec {R : Nat} (h2 : 2 ≤ R) (h30 : R ≤ 2 ^ 30) :
    ∃ L, codeParams R = some (L + 1, 2 ^ (L + 1) - R, R - 2 ^ L) ∧ 2 ^ L < R ∧ R ≤ 2 ^ (L + 1) ∧
      L + 1 ≤ 30 := by
  have hb := log2_bounds (n := R) (by omega)
  have hl : R.log2 ≤ 30 := by
    have : 2 ^ R.log2 ≤ 2 ^ 30 := Nat.le_trans hb.1 h30
    exact (Nat.pow_le_pow_iff_right (by omega)).mp this
  have hlc : ∃ L, logCeiling R = some (L + 1) ∧ 2 ^ L < R ∧ R ≤ 2 ^ (L + 1) ∧ L + 1 ≤ 30 := by
    unfold logCeiling logFloor shl1
    rw [if_neg (by omega)]
    simp only [Option.bind_eq_bind, Option.bind_some]
    rw [if_pos (by omega)]
    simp only [Option.bind_some, Nat.shiftLeft_eq, Nat.one_mul]
    by_cases hc : 2 ^ R.log2 < R
    · refine ⟨R.log2, by simp [hc], hc, by omega, ?_⟩
      have : 2 ^ R.log2 < 2 ^ 30 := by omega
      have := (Nat.pow_lt_pow_iff_right (by omega)).mp this
      omega
    · have he : 2 ^ R.log2 = R := by omega
      have hpos : R.log2 ≠ 0 := by
        intro h0
        rw [h0] at he
        omega
      obtain ⟨L, hL⟩ : ∃ L, R.log2 = L + 1 := ⟨R.log2 - 1, by omega⟩
      refine ⟨L, by rw [if_neg hc, hL]; rfl, ?_, by rw [← hL]; omega, by omega⟩
      rw [hL, Nat.pow_succ] at he
      omega
  obtain ⟨L, h1, h3, h4, h5⟩ := hlc
  refine ⟨L, ?_, h3, h4, h5⟩
  have hp30 : 2 ^ (L + 1) ≤ 2 ^ 30 := Nat.pow_le_pow_right (by omega) h5
  have hps : 2 ^ (L + 1) = 2 * 2 ^ L := by rw [Nat.pow_succ]; omega
  unfold codeParams
  simp only [h1, Option.bind_eq_bind, Option.bind_some, shl1]
  rw [if_pos (by omega)]
  simp only [Option.bind_some, Nat.shiftLeft_eq, Nat.one_mul]
  rw [usub_of_le h4 (by omega), usub_of_le (by omega) (by omega)]
  simp only [Option.pure_def, Option.some.injEq, Prod.mk.injEq, true_and]
  omega

theorem natOf_snoc (l : List Bool) (b : Bool) : natOf (l ++ [b]) = 2 * natOf l + b.toNat := by
  rw [natOf_append]
  simp [natOf, natOfAux]
  omega

theorem bitsOf_succ_right (w n : Nat) : bitsOf (w + 1) n = bitsOf w (n / 2) ++ [n % 2 == 1] := by
  induction w with
  | zero => simp [bitsOf]
  | succ w ih =>
    rw [bitsOf, ih, bitsOf]
    simp only [List.cons_append, List.cons.injEq, and_true]
    rw [Nat.div_div_eq_div_mul, Nat.pow_succ, Nat.mul_comm]

theorem binary_roundtrip {n lo hi : Nat} (hlo : lo ≤ n) (hhi : n ≤ hi)
    (hr : hi - lo + 1 ≤ 2 ^ 30) (hhi64 : hi < 2 ^ 64) :
    ∃ c, binaryCode n lo hi = some c ∧
      ∀ s, binaryDecode lo hi (c ++ s) = some (n, c.length, s) := by
  have hR : (usub hi lo + 1) % 2 ^ 64 = hi - lo + 1 := by
    rw [usub_of_le (by omega) hhi64, Nat.mod_eq_of_lt (by omega)]
  have hd : usub n lo = n - lo := usub_of_le hlo (by omega)
  unfold binaryCode binaryDecode
  simp only [hR, hd]
  by_cases h1 : hi - lo + 1 = 1
  · refine ⟨[], by simp [h1], fun s => ?_⟩
    have : lo = n := by omega
    rw [if_pos h1, this]
    rfl
  · simp only [if_neg h1]
    obtain ⟨L, hp, hL1, hL2, hL3⟩ := codeParams_spec (R := hi - lo + 1) (by omega) hr
    have hp30 : 2 ^ (L + 1) ≤ 2 ^ 30 := Nat.pow_le_pow_right (by omega) hL3
    have hps : 2 ^ (L + 1) = 2 * 2 ^ L := by rw [Nat.pow_succ]; omega
    simp only [hp, Option.bind_eq_bind, Option.bind_some, Nat.add_sub_cancel]
    generalize hRR : hi - lo + 1 = R at *
    have hsum : (R - 2 ^ L + (2 ^ (L + 1) - R)) % 2 ^ 64 = 2 ^ L := by
      rw [Nat.mod_eq_of_lt (by omega)]; omega
    rw [hsum]
    -- decoding a long codeword
    have hlong : ∀ (v : Nat) (s : List Bool), v < 2 ^ (L + 1) → v / 2 < R - 2 ^ L →
        ∃ bs, bitsOf (L + 1) v ++ s = bs ++ (v % 2 == 1) :: s ∧ bs.length = L ∧
          natOf bs = v / 2 := by
      intro v s hv _
      refine ⟨bitsOf L (v / 2), ?_, bitsOf_length _ _, natOf_bitsOf_of_lt (by omega)⟩
      rw [bitsOf_succ_right, List.append_assoc]
      rfl
    have hbit : ∀ v : Nat, 2 * (v / 2) + (v % 2 == 1).toNat = v := by
      intro v
      rcases Nat.mod_two_eq_zero_or_one v with h | h <;> simp [h] <;> omega
    by_cases c1 : n - lo < R - 2 ^ L
    · refine ⟨bitsOf (L + 1) (n - lo), by simp [c1], fun s => ?_⟩
      obtain ⟨bs, e1, e2, e3⟩ := hlong (n - lo) s (by omega) (by omega)
      rw [e1, readBits_append' e2]
      simp only [Option.bind_some, e3, readBit]
      rw [if_neg (by omega)]
      simp only [hbit]
      rw [if_pos c1, bitsOf_length]
      simp; omega
    · by_cases c2 : n - lo < 2 ^ L
      · refine ⟨bitsOf L (n - lo), by simp [c1, c2], fun s => ?_⟩
        rw [readBits_append' (bitsOf_length _ _)]
        simp only [Option.bind_some, natOf_bitsOf_of_lt c2]
        rw [if_pos (by omega), bitsOf_length]
        simp; omega
      · have hsub : usub (n - lo) (2 ^ (L + 1) - R) = n - lo - (2 ^ (L + 1) - R) :=
          usub_of_le (by omega) (by omega)
        refine ⟨bitsOf (L + 1) (n - lo - (2 ^ (L + 1) - R)), by simp [c1, c2, hsub], fun s => ?_⟩
        obtain ⟨bs, e1, e2, e3⟩ := hlong (n - lo - (2 ^ (L + 1) - R)) s (by omega) (by omega)
        rw [e1, readBits_append' e2]
        simp only [Option.bind_some, e3, readBit]
        rw [if_neg (by omega)]
        simp only [hbit]
        rw [if_neg (by omega), bitsOf_length]
        simp; omega

theorem interpDecode_zero (M lo hi : Nat) (s : List Bool) :
    interpDecode M lo hi 0 s = some ([], 0, s) := by
  rw [interpDecode]; rfl

/-- Strict monotonicity in index form gives spacing. -/
theorem spaced {f : Nat → Nat} {m : Nat} (hmono : ∀ i, i + 1 < m → f i < f (i + 1)) (i k : Nat)
    (h : i + k < m) : f i + k ≤ f (i + k) := by
  induction k with
  | zero => simp
  | succ k ih =>
    have := ih (by omega)
    have := hmono (i + k) (by omega)
    rw [show i + (k + 1) = i + k + 1 by omega]
    omega

theorem map_range_split (f : Nat → Nat) (b h n : Nat) (hn : h < n) :
    (List.range h).map (fun i => f (b + i)) ++
        f (b + h) :: (List.range (n - h - 1)).map (fun i => f (b + h + 1 + i))
      = (List.range n).map (fun i => f (b + i)) := by
  obtain ⟨m, rfl⟩ : ∃ m, n = h + 1 + m := ⟨n - h - 1, by omega⟩
  rw [show h + 1 + m - h - 1 = m by omega, List.range_add, List.range_succ, List.map_append,
    List.map_append, List.map_map, List.append_assoc]
  congr 1
  simp only [List.map_cons, List.map_nil, List.cons_append, List.nil_append]
  congr 1
  apply List.map_congr_left
  intro i _
  simp only [Function.comp]
  congr 1
  omega

/-- Interpolative round-trip, on an index interval. -/
theorem interp_roundtrip (list : List Nat) (f : Nat → Nat)
    (hf : ∀ i, i < list.length → list[i]? = some (f i))
    (hmono : ∀ i, i + 1 < list.length → f i < f (i + 1)) (hL : list.length ≤ 2 ^ 62) (M : Nat) :
    ∀ (n b lo hi : Nat), b + n ≤ list.length →
      (∀ i, i < n → lo ≤ f (b + i) ∧ f (b + i) ≤ hi) →
      hi < lo + 2 ^ 30 → hi < 2 ^ 62 → hi < M → 0 < n →
      ∃ c, interpCode list b (b + n - 1) lo hi = some c ∧
        ∀ s, interpDecode M lo hi n (c ++ s)
          = some ((List.range n).map (fun i => f (b + i)), c.length, s) := by
  intro n
  induction n using Nat.strongRecOn with
  | ind n ih =>
  intro b lo hi hlen hrange hr30 h64 hM hn
  have hsp : ∀ i k, i + k < n → f (b + i) + k ≤ f (b + i + k) :=
    fun i k hik => spaced hmono (b + i) k (by omega)
  have hlast := hrange (n - 1) (by omega)
  have hfirst := hrange 0 hn
  have hlohi : lo ≤ hi := by omega
  have hspan : n - 1 ≤ hi - lo := by
    have := hsp 0 (n - 1) (by omega)
    simp only [Nat.add_zero] at this hfirst
    omega
  have husub : usub hi lo = hi - lo := usub_of_le hlohi (by omega)
  have hR : (usub hi lo + 1) % 2 ^ 64 = hi - lo + 1 := by
    rw [husub, Nat.mod_eq_of_lt (by omega)]
  rw [interpCode]
  conv in interpDecode _ _ _ _ _ => rw [interpDecode]
  rw [if_neg (by omega)]
  simp only [hR, if_neg (show ¬ n = 0 by omega)]
  rw [husub]
  by_cases hfull : n = hi - lo + 1
  · refine ⟨[], by rw [if_pos (by omega)], fun s => ?_⟩
    rw [if_pos hfull]
    simp only [List.nil_append, List.length_nil, Option.some.injEq, Prod.mk.injEq, and_true]
    rw [show hi + 1 - lo = n by omega]
    apply List.map_congr_left
    intro i hi'
    rw [List.mem_range] at hi'
    have h1 := hsp 0 i (by omega)
    have h2 := hsp i (n - 1 - i) (by omega)
    rw [show b + i + (n - 1 - i) = b + (n - 1) by omega] at h2
    simp only [Nat.add_zero] at h1 hfirst
    rw [Nat.mod_eq_of_lt (by omega)]
    omega
  · rw [if_neg (by omega)]
    simp only [if_neg hfull]
    by_cases hone : n = 1
    · -- a single element
      subst hone
      rw [if_pos (by omega)]
      simp only [Nat.add_zero] at hfirst
      obtain ⟨c, hc, hd⟩ := binary_roundtrip hfirst.1 hfirst.2 (by omega) (by omega)
      refine ⟨c, by simp [hf b (by omega), hc], fun s => ?_⟩
      have u1 : usub (usub hi 0) 0 = hi := by
        rw [usub_of_le (a := hi) (by omega) (by omega), usub_of_le (by omega) (by omega)]; omega
      simp only [Nat.zero_div, Nat.add_zero, show 1 / 2 - 0 = 0 by rfl, u1, hd,
        Option.bind_eq_bind, Option.bind_some, Nat.mod_eq_of_lt (show f b < M by omega),
        interpDecode_zero]
      simp [List.range_succ]
    · have hne : ¬ b = b + n - 1 := by
        clear hR husub hspan hlast hfirst hfull hr30
        omega
      rw [if_neg hne]
      have he : b + n - 1 - b = n - 1 := by omega
      rw [he]
      have hh : (n - 1) / 2 < n - 1 := by omega
      obtain ⟨h, hhdef⟩ : ∃ h, (n - 1) / 2 = h := ⟨_, rfl⟩
      rw [hhdef] at hh
      simp only [hhdef]
      have hx := hrange h (by omega)
      have hs1 := hsp 0 h (by omega)
      have hs2 := hsp h (n - 1 - h) (by omega)
      simp only [Nat.add_zero] at hs1 hfirst
      rw [show b + h + (n - 1 - h) = b + (n - 1) by omega] at hs2
      have hub : usub (hi + (b + h)) (b + n - 1) = hi - (n - 1 - h) := by
        rw [usub_of_le (by omega) (by have := hlen; omega)]; omega
      have hud : usub (usub hi h) (n / 2 - h) = hi - (n - 1 - h) := by
        rw [usub_of_le (a := hi) (by omega) (by omega), usub_of_le (by omega) (by omega)]
        omega
      obtain ⟨c1, hc1, hd1⟩ := binary_roundtrip (n := f (b + h)) (lo := lo + h)
        (hi := hi - (n - 1 - h)) (by omega) (by omega) (by omega) (by omega)
      obtain ⟨c3, hc3, hd3⟩ := ih (n - h - 1) (by omega) (b + h + 1) (f (b + h) + 1) hi
        (by omega)
        (fun i hi' => by
          have := hrange (h + 1 + i) (by omega)
          have h' := hsp h (1 + i) (by omega)
          rw [show b + h + 1 + i = b + (h + 1 + i) by omega]
          rw [show b + h + (1 + i) = b + (h + 1 + i) by omega] at h'
          omega)
        (by omega) h64 hM (by omega)
      have h2 : ∃ c2, (if b + h > b then interpCode list b (b + h - 1) lo (usub (f (b + h)) 1)
            else some []) = some c2 ∧
          ∀ s, interpDecode M lo (usub (f (b + h)) 1) h (c2 ++ s)
            = some ((List.range h).map (fun i => f (b + i)), c2.length, s) := by
        by_cases h0 : 0 < h
        · have hu : usub (f (b + h)) 1 = f (b + h) - 1 := usub_of_le (by omega) (by omega)
          rw [if_pos (by omega), hu]
          exact ih h (by omega) b lo (f (b + h) - 1) (by omega)
            (fun i hi' => by
              have := hrange i (by omega)
              have h' := hsp i (h - i) (by omega)
              rw [show b + i + (h - i) = b + h by omega] at h'
              omega)
            (by omega) (by omega) (by omega) h0
        · have : h = 0 := by omega
          subst this
          refine ⟨[], by simp, fun s => ?_⟩
          simp [interpDecode_zero]
      obtain ⟨c2, hc2, hd2⟩ := h2
      rw [show b + h + 1 + (n - h - 1) - 1 = b + n - 1 by omega] at hc3
      refine ⟨c1 ++ c2 ++ c3, ?_, fun s => ?_⟩
      · simp only [hf (b + h) (by omega), Option.bind_eq_bind, Option.bind_some, hub, hc1, hc2, hc3,
          Option.pure_def]
      · simp only [hud, List.append_assoc, hd1, Option.bind_eq_bind, Option.bind_some,
          Nat.mod_eq_of_lt (show f (b + h) < M by omega), hd2, hd3, Option.pure_def,
          Option.some.injEq, Prod.mk.injEq, List.length_append, and_true]
        refine ⟨?_, by omega⟩
        exact map_range_split f b h n (by omega)

/-- Interpolative round-trip for a strictly increasing list within `[lo, hi]`. -/
theorem interp_list_roundtrip {M lo hi : Nat} {list : List Nat} (hne : list ≠ [])
    (hmono : list.Pairwise (· < ·)) (hmem : ∀ x ∈ list, lo ≤ x ∧ x ≤ hi)
    (hr30 : hi < lo + 2 ^ 30) (h62 : hi < 2 ^ 62) (hM : hi < M) :
    ∃ c, interpCode list 0 (list.length - 1) lo hi = some c ∧
      ∀ s, interpDecode M lo hi list.length (c ++ s) = some (list, c.length, s) := by
  have hpos : 0 < list.length := List.length_pos_iff.mpr hne
  have hf : ∀ i, i < list.length → list[i]? = some (list[i]?.getD 0) := by
    intro i hi'
    simp [List.getElem?_eq_getElem hi']
  have hmono' : ∀ i, i + 1 < list.length → list[i]?.getD 0 < list[i + 1]?.getD 0 := by
    intro i hi'
    rw [List.getElem?_eq_getElem (by omega), List.getElem?_eq_getElem hi']
    exact List.pairwise_iff_getElem.mp hmono i (i + 1) (by omega) hi' (by omega)
  have hmem' : ∀ i, i < list.length → lo ≤ list[i]?.getD 0 ∧ list[i]?.getD 0 ≤ hi := by
    intro i hi'
    rw [List.getElem?_eq_getElem hi']
    exact hmem _ (List.getElem_mem hi')
  have hL : list.length ≤ 2 ^ 62 := by
    have := spaced (f := fun i => list[i]?.getD 0) hmono' 0 (list.length - 1) (by omega)
    have := hmem' (list.length - 1) (by omega)
    simp only [Nat.zero_add] at *
    omega
  obtain ⟨c, h1, h2⟩ := interp_roundtrip list (fun i => list[i]?.getD 0) hf hmono' hL M
    list.length 0 lo hi (by omega) (fun i hi' => by simpa using hmem' i hi') hr30 h62 hM hpos
  refine ⟨c, by simpa using h1, fun s => ?_⟩
  rw [h2 s]
  congr 2
  apply List.ext_getElem?
  intro i
  by_cases hi' : i < list.length
  · simp [hi']
  · simp [hi']

end Bwtc.BitCodes
