import Verif.Basic

/-!
# Numbering of the pairs of special symbols

Model of `Grammar::numberOfSpecialPair` and `Grammar::specialPair`.
-/

set_option autoImplicit false

namespace Bwtc.Grammar

/-- `Grammar::numberOfSpecialPair` (Grammar.cpp:166-174).  At most 256 special symbols exist, so the
`uint32` arithmetic does not wrap. -/
def numberOfSpecialPair (first second : Nat) : Nat :=
  if first = second then first * second
  else if second < first then first * (first + 1) + second + 1
  else second * second + first + 1

/-- `int sqr = sqrt(ord)` (Grammar.cpp:178): the integer square root.  The floating point square root
of an integer below 2^52 truncates to this number. -/
def isqrt : Nat → Nat
  | 0 => 0
  | n + 1 => if (isqrt n + 1) * (isqrt n + 1) ≤ n + 1 then isqrt n + 1 else isqrt n

/-- The indices of the two symbols of pair number `ord` (Grammar.cpp:178-187). -/
def pairIndices (ord : Nat) : Nat × Nat :=
  let sqr := isqrt ord
  let base := sqr * sqr
  if ord = base then (sqr, sqr)
  else
    let offset := ord - base - 1
    if offset < sqr then (offset, sqr) else (sqr, offset - sqr)

/-- `Grammar::specialPair` (Grammar.cpp:177-188); the `uint16` is given by its two bytes.  `none`:
access outside of `m_specialSymbols`. -/
def specialPair (specials : List UInt8) (ord : Nat) : Option (UInt8 × UInt8) := do
  let a ← specials[(pairIndices ord).1]?
  let b ← specials[(pairIndices ord).2]?
  return (a, b)

theorem isqrt_le (n : Nat) : isqrt n * isqrt n ≤ n := by
  induction n with
  | zero => simp [isqrt]
  | succ n ih =>
    rw [isqrt]
    split
    · assumption
    · omega

theorem lt_isqrt (n : Nat) : n < (isqrt n + 1) * (isqrt n + 1) := by
  induction n with
  | zero => simp [isqrt]
  | succ n ih =>
    rw [isqrt]
    split
    · have : (isqrt n + 1 + 1) * (isqrt n + 1 + 1) =
          (isqrt n + 1) * (isqrt n + 1) + 2 * (isqrt n + 1) + 1 := by
        generalize isqrt n = r
        rw [Nat.add_mul, Nat.mul_add]; omega
      omega
    · omega

theorem isqrt_unique {n k : Nat} (h1 : k * k ≤ n) (h2 : n < (k + 1) * (k + 1)) : isqrt n = k := by
  have a := isqrt_le n
  have b := lt_isqrt n
  rcases Nat.lt_trichotomy (isqrt n) k with h | h | h
  · have := Nat.mul_le_mul (show isqrt n + 1 ≤ k from h) (show isqrt n + 1 ≤ k from h)
    omega
  · exact h
  · have := Nat.mul_le_mul (show k + 1 ≤ isqrt n from h) (show k + 1 ≤ isqrt n from h)
    omega

theorem sq_succ (k : Nat) : (k + 1) * (k + 1) = k * k + 2 * k + 1 := by
  rw [Nat.add_mul, Nat.mul_add]; omega

theorem pairIndices_number (a b : Nat) : pairIndices (numberOfSpecialPair a b) = (a, b) := by
  unfold numberOfSpecialPair
  split
  · rename_i h
    subst h
    have : isqrt (a * a) = a := isqrt_unique (Nat.le_refl _) (by rw [sq_succ]; omega)
    simp [pairIndices, this]
  · split
    · rename_i h1 h2
      have hs : isqrt (a * (a + 1) + b + 1) = a :=
        isqrt_unique (by rw [Nat.mul_add]; omega) (by rw [sq_succ, Nat.mul_add]; omega)
      have e : a * (a + 1) = a * a + a := by rw [Nat.mul_add]; omega
      simp only [pairIndices, hs]
      rw [if_neg (by omega), if_neg (by omega)]
      congr 1
      omega
    · rename_i h1 h2
      have hs : isqrt (b * b + a + 1) = b :=
        isqrt_unique (by omega) (by rw [sq_succ]; omega)
      simp only [pairIndices, hs]
      rw [if_neg (by omega), if_pos (by omega)]
      congr 1
      omega

theorem number_pairIndices (i : Nat) :
    numberOfSpecialPair (pairIndices i).1 (pairIndices i).2 = i := by
  have a := isqrt_le i
  have b := lt_isqrt i
  rw [sq_succ] at b
  simp only [pairIndices]
  generalize isqrt i = r at a b
  split
  · simp only [numberOfSpecialPair]; rw [if_pos trivial]; omega
  · split
    · simp only [numberOfSpecialPair]
      rw [if_neg (by omega), if_neg (by omega)]; omega
    · simp only [numberOfSpecialPair]
      rw [if_neg (by omega), if_pos (by omega), Nat.mul_add]; omega

theorem number_lt {a b n : Nat} (ha : a < n) (hb : b < n) : numberOfSpecialPair a b < n * n := by
  obtain ⟨m, rfl⟩ : ∃ m, n = m + 1 := ⟨n - 1, by omega⟩
  have h1 := Nat.mul_le_mul (show a ≤ m by omega) (show a ≤ m by omega)
  have h2 := Nat.mul_le_mul (show b ≤ m by omega) (show b ≤ m by omega)
  have h3 := Nat.mul_add a a 1
  rw [sq_succ]
  unfold numberOfSpecialPair
  split
  · subst a; omega
  · split <;> omega

theorem pairIndices_lt {i n : Nat} (h : i < n * n) :
    (pairIndices i).1 < n ∧ (pairIndices i).2 < n := by
  have a := isqrt_le i
  have b := lt_isqrt i
  have hr : isqrt i < n := by
    apply Decidable.byContradiction
    intro hc
    have := Nat.mul_le_mul (show n ≤ isqrt i by omega) (show n ≤ isqrt i by omega)
    omega
  rw [sq_succ] at b
  simp only [pairIndices]
  generalize isqrt i = r at a b hr
  split
  · exact ⟨hr, hr⟩
  · split
    · exact ⟨by simp only; omega, hr⟩
    · exact ⟨hr, by simp only; omega⟩

theorem pairIndices_inj {i j : Nat} (h : pairIndices i = pairIndices j) : i = j := by
  rw [← number_pairIndices i, h, number_pairIndices]

theorem specialPair_isSome {sp : List UInt8} {i : Nat} (h : i < sp.length * sp.length) :
    ∃ p, specialPair sp i = some p := by
  obtain ⟨h1, h2⟩ := pairIndices_lt h
  exact ⟨_, by simp only [specialPair, List.getElem?_eq_getElem h1, List.getElem?_eq_getElem h2]; rfl⟩

theorem specialPair_mem {sp : List UInt8} {i : Nat} {p : UInt8 × UInt8}
    (h : specialPair sp i = some p) : p.1 ∈ sp ∧ p.2 ∈ sp := by
  simp only [specialPair, Option.bind_eq_bind, Option.bind_eq_some_iff, Option.pure_def,
    Option.some.injEq] at h
  obtain ⟨a, ha, b, hb, rfl⟩ := h
  exact ⟨List.mem_of_getElem? ha, List.mem_of_getElem? hb⟩

theorem specialPair_append {sp : List UInt8} {i : Nat} {p : UInt8 × UInt8} (l : List UInt8)
    (h : specialPair sp i = some p) : specialPair (sp ++ l) i = some p := by
  simp only [specialPair, Option.bind_eq_bind, Option.bind_eq_some_iff, Option.pure_def,
    Option.some.injEq] at h ⊢
  obtain ⟨a, ha, b, hb, rfl⟩ := h
  refine ⟨a, ?_, b, ?_, rfl⟩
  · rw [List.getElem?_append_left (List.getElem?_eq_some_iff.mp ha).1, ha]
  · rw [List.getElem?_append_left (List.getElem?_eq_some_iff.mp hb).1, hb]

theorem specialPair_inj {sp : List UInt8} (hn : sp.Nodup) {i j : Nat} {p : UInt8 × UInt8}
    (hi : specialPair sp i = some p) (hj : specialPair sp j = some p) : i = j := by
  simp only [specialPair, Option.bind_eq_bind, Option.bind_eq_some_iff, Option.pure_def,
    Option.some.injEq] at hi hj
  obtain ⟨a, ha, b, hb, rfl⟩ := hi
  obtain ⟨a', ha', b', hb', he⟩ := hj
  simp only [Prod.mk.injEq] at he
  obtain ⟨rfl, rfl⟩ := he
  apply pairIndices_inj
  have e1 : (pairIndices i).1 = (pairIndices j).1 :=
    (List.getElem?_inj (List.getElem?_eq_some_iff.mp ha).1 hn).mp (ha.trans ha'.symm)
  have e2 : (pairIndices i).2 = (pairIndices j).2 :=
    (List.getElem?_inj (List.getElem?_eq_some_iff.mp hb).1 hn).mp (hb.trans hb'.symm)
  exact Prod.ext e1 e2

theorem specialPair_number {sp : List UInt8} {a b : Nat} {x y : UInt8} (ha : sp[a]? = some x)
    (hb : sp[b]? = some y) : specialPair sp (numberOfSpecialPair a b) = some (x, y) := by
  simp only [specialPair, pairIndices_number, ha, hb]; rfl

end Bwtc.Grammar
