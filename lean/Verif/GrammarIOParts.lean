import Verif.GrammarIO

/-!
# Lemmas on the parts of a written grammar
-/

set_option autoImplicit false

namespace Bwtc.Grammar
open Varint

/-! ## Flags of the variables -/

theorem byteBits_ofNat_natOf {bs : List Bool} (h : bs.length = 8) :
    byteBits (UInt8.ofNat (natOf bs)) = bs := by
  have hlt := natOf_lt bs
  rw [h] at hlt
  unfold byteBits
  rw [UInt8.toNat_ofNat', Nat.mod_eq_of_lt (by simpa using hlt)]
  have := bitsOf_natOf bs
  rwa [h] at this

theorem flagsLoop_spec (bs : List Bool) : ∀ (pre : List Bool), pre.length < 8 →
    ∃ k, k < 8 ∧ bytesBits (flagsLoop bs (natOf (pre ++ List.replicate (8 - pre.length) false))
      (8 - pre.length)) = pre ++ (bs ++ List.replicate k false) := by
  induction bs with
  | nil =>
    intro pre hp
    by_cases h0 : pre.length = 0
    · have : pre = [] := List.eq_nil_of_length_eq_zero h0
      subst this
      exact ⟨0, by omega, rfl⟩
    · refine ⟨8 - pre.length, by omega, ?_⟩
      rw [flagsLoop, if_neg (by omega), bytesBits_cons, byteBits_ofNat_natOf (by simp; omega)]
      simp
  | cons b bs ih =>
    intro pre hp
    have hor : natOf (pre ++ List.replicate (8 - pre.length) false) |||
        (b.toNat <<< (8 - pre.length - 1)) =
        natOf ((pre ++ [b]) ++ List.replicate (8 - (pre ++ [b]).length) false) := by
      obtain ⟨m, hm⟩ : ∃ m, 8 - pre.length = m + 1 := ⟨7 - pre.length, by omega⟩
      have hm' : 8 - (pre ++ [b]).length = m := by simp; omega
      rw [hm', hm, natOf_append, natOf_append, natOf_append, natOf_replicate_false,
        natOf_replicate_false, List.length_replicate, List.length_replicate, Nat.shiftLeft_eq,
        natOf_cons]
      simp only [Nat.add_zero, Nat.add_sub_cancel, List.length_singleton, natOf_nil, List.length_nil]
      have hb : b.toNat * 2 ^ m < 2 ^ (m + 1) := by
        have : b.toNat ≤ 1 := by cases b <;> simp
        rw [Nat.pow_succ]
        have := Nat.two_pow_pos m
        cases b <;> simp <;> omega
      rw [Nat.mul_comm (natOf pre) (2 ^ (m + 1)), ← Nat.two_pow_add_eq_or_of_lt hb,
        Nat.add_mul, Nat.pow_succ]
      simp only [Nat.pow_zero, Nat.mul_one, Nat.pow_one]
      rw [Nat.mul_comm, Nat.mul_assoc, Nat.mul_comm 2]
    rw [flagsLoop, hor]
    by_cases h7 : 8 - pre.length - 1 = 0
    · rw [if_pos h7]
      obtain ⟨k, hk, hs⟩ := ih [] (by simp)
      refine ⟨k, hk, ?_⟩
      have e8 : 8 - (pre ++ [b]).length = 0 := by simp; omega
      rw [bytesBits_cons, byteBits_ofNat_natOf (by simp; omega), e8]
      simp only [List.nil_append, List.length_nil, Nat.sub_zero, natOf_replicate_false] at hs
      rw [hs]
      simp
    · rw [if_neg h7]
      obtain ⟨k, hk, hs⟩ := ih (pre ++ [b]) (by simp; omega)
      refine ⟨k, hk, ?_⟩
      have e8 : 8 - pre.length - 1 = 8 - (pre ++ [b]).length := by simp; omega
      rw [e8, hs]
      simp

theorem flags_spec (bs : List Bool) :
    ∃ k, k < 8 ∧ bytesBits (flagsLoop bs 0 8) = bs ++ List.replicate k false := by
  obtain ⟨k, hk, h⟩ := flagsLoop_spec bs [] (by simp)
  refine ⟨k, hk, ?_⟩
  simpa only [List.nil_append, List.length_nil, Nat.sub_zero, natOf_replicate_false] using h

theorem flags_length (bs : List Bool) :
    (flagsLoop bs 0 8).length = bs.length / 8 + (if bs.length % 8 = 0 then 0 else 1) := by
  obtain ⟨k, hk, h⟩ := flags_spec bs
  have := congrArg List.length h
  rw [bytesBits_length, List.length_append, List.length_replicate] at this
  split <;> omega

/-! ## Lists of bytes -/

theorem readBytes_spec (l : List UInt8) (s : List Bool) :
    readBytes l.length (bytesBits l ++ s) = some (l, s) := by
  induction l with
  | nil => rfl
  | cons b l ih =>
    rw [bytesBits_cons, List.append_assoc, List.length_cons, readBytes, readByte_byteBits]
    simp [ih]

theorem foldl_inc (l : List UInt8) : ∀ (f : UInt8 → Nat) (c : UInt8),
    l.foldl inc f c = f c + l.count c := by
  induction l with
  | nil => intro f c; simp
  | cons b l ih =>
    intro f c
    rw [List.foldl_cons, ih, List.count_cons, inc, setFn]
    by_cases h : c = b
    · subst h; simp; omega
    · have : (b == c) = false := by simpa using fun e => h e.symm
      simp [h, this]

theorem split_rules (rules : List Rule) :
    List.zipWith Rule.mk (rules.map fun r => r.lhs)
      (splitLengths (rules.map fun r => r.rhs.length) (rules.flatMap fun r => r.rhs)) = rules := by
  induction rules with
  | nil => rfl
  | cons r rules ih =>
    simp only [List.map_cons, List.flatMap_cons, splitLengths, List.zipWith_cons_cons]
    rw [List.take_left' rfl, List.drop_left' rfl, ih]

/-! ## Lengths -/

theorem and_three (n : Nat) : n &&& 3 = n % 4 := Nat.and_two_pow_sub_one_eq_mod n 2

theorem or_low {a b : Nat} (h : b < 4) : (a <<< 2) ||| b = 4 * a + b := by
  rw [Nat.shiftLeft_eq, Nat.mul_comm, ← Nat.two_pow_add_eq_or_of_lt (i := 2) (by simpa using h)]

/-- Lengths are written and read four by four. -/
theorem lengths_spec : ∀ (n : Nat) (ls : List Nat), ls.length ≤ n → (∀ l ∈ ls, 2 ≤ l ∧ l ≤ 4) →
    ∃ w, lengthsLoop ls 0 0 = some w ∧
      w.length = ls.length / 4 + (if ls.length % 4 = 0 then 0 else 1) ∧
      ∀ s, readLengths w.length ls.length (bytesBits w ++ s) = some (ls, s) := by
  intro n
  induction n with
  | zero =>
    intro ls hl _
    have : ls = [] := List.eq_nil_of_length_eq_zero (by omega)
    subst this
    exact ⟨[], rfl, rfl, fun s => rfl⟩
  | succ n ih =>
    intro ls hl hv
    match ls with
    | [] => exact ⟨[], rfl, rfl, fun s => rfl⟩
    | [a] =>
      have ha := hv a (by simp)
      refine ⟨[UInt8.ofNat ((a - 2) <<< 6)], ?_, by simp, ?_⟩
      · rw [lengthsLoop, if_neg (by omega), if_neg (by omega), or_low (by omega), lengthsLoop]
        rw [if_neg (by omega), show 4 * 0 + (a - 2) = a - 2 by omega, Nat.mod_eq_of_lt (by omega)]
      · intro s
        rw [bytesBits_cons, List.append_assoc, List.length_singleton, readLengths, readByte_byteBits]
        simp only [Option.bind_eq_bind, Option.bind_some, readLengths, unpackLengths, bytesBits_nil,
          List.nil_append, List.length_singleton, Option.pure_def]
        congr 3
        rw [UInt8.toNat_ofNat', Nat.shiftLeft_eq]
        simp only [List.range, List.range.loop, List.take, List.map, and_three,
          Nat.shiftRight_eq_div_pow, List.append_nil, List.cons.injEq, and_true]
        omega
    | [a, b] =>
      have ha := hv a (by simp)
      have hb := hv b (by simp)
      refine ⟨[UInt8.ofNat ((4 * (a - 2) + (b - 2)) <<< 4)], ?_, by simp, ?_⟩
      · rw [lengthsLoop, if_neg (by omega), if_neg (by omega), or_low (by omega), lengthsLoop,
          if_neg (by omega), if_neg (by omega), or_low (by omega), lengthsLoop]
        rw [if_neg (by omega), show 4 * 0 + (a - 2) = a - 2 by omega,
          Nat.mod_eq_of_lt (a := a - 2) (by omega), Nat.mod_eq_of_lt (by omega)]
      · intro s
        rw [bytesBits_cons, List.append_assoc, List.length_singleton, readLengths, readByte_byteBits]
        simp only [Option.bind_eq_bind, Option.bind_some, readLengths, unpackLengths, bytesBits_nil,
          List.nil_append, List.length_cons, List.length_nil, Option.pure_def]
        congr 3
        rw [UInt8.toNat_ofNat', Nat.shiftLeft_eq]
        simp only [List.range, List.range.loop, List.take, List.map, and_three,
          Nat.shiftRight_eq_div_pow, List.append_nil, List.cons.injEq, and_true]
        omega
    | [a, b, c] =>
      have ha := hv a (by simp)
      have hb := hv b (by simp)
      have hc := hv c (by simp)
      refine ⟨[UInt8.ofNat ((4 * (4 * (a - 2) + (b - 2)) + (c - 2)) <<< 2)], ?_, by simp, ?_⟩
      · rw [lengthsLoop, if_neg (by omega), if_neg (by omega), or_low (by omega), lengthsLoop,
          if_neg (by omega), if_neg (by omega), or_low (by omega), lengthsLoop,
          if_neg (by omega), if_neg (by omega), or_low (by omega), lengthsLoop]
        rw [if_neg (by omega), show 4 * 0 + (a - 2) = a - 2 by omega,
          Nat.mod_eq_of_lt (a := a - 2) (by omega), Nat.mod_eq_of_lt (a := 4 * (a - 2) + (b - 2)) (by omega),
          Nat.mod_eq_of_lt (by omega)]
      · intro s
        rw [bytesBits_cons, List.append_assoc, List.length_singleton, readLengths, readByte_byteBits]
        simp only [Option.bind_eq_bind, Option.bind_some, readLengths, unpackLengths, bytesBits_nil,
          List.nil_append, List.length_cons, List.length_nil, Option.pure_def]
        congr 3
        rw [UInt8.toNat_ofNat', Nat.shiftLeft_eq]
        simp only [List.range, List.range.loop, List.take, List.map, and_three,
          Nat.shiftRight_eq_div_pow, List.append_nil, List.cons.injEq, and_true]
        omega
    | a :: b :: c :: d :: ls =>
      have ha := hv a (by simp)
      have hb := hv b (by simp)
      have hc := hv c (by simp)
      have hd := hv d (by simp)
      obtain ⟨w, w1, w2, w3⟩ := ih ls (by simp at hl; omega) (fun l h => hv l (by simp [h]))
      refine ⟨UInt8.ofNat (4 * (4 * (4 * (a - 2) + (b - 2)) + (c - 2)) + (d - 2)) :: w, ?_, ?_, ?_⟩
      · rw [lengthsLoop, if_neg (by omega), if_neg (by omega), or_low (by omega), lengthsLoop,
          if_neg (by omega), if_neg (by omega), or_low (by omega), lengthsLoop,
          if_neg (by omega), if_neg (by omega), or_low (by omega), lengthsLoop,
          if_neg (by omega), if_pos (by omega), or_low (by omega), w1]
        simp only [Option.bind_eq_bind, Option.bind_some, Option.pure_def]
        rw [show 4 * 0 + (a - 2) = a - 2 by omega,
          Nat.mod_eq_of_lt (a := a - 2) (by omega), Nat.mod_eq_of_lt (a := 4 * (a - 2) + (b - 2)) (by omega),
          Nat.mod_eq_of_lt (a := 4 * (4 * (a - 2) + (b - 2)) + (c - 2)) (by omega)]
      · simp only [List.length_cons, w2]
        split <;> split <;> omega
      · intro s
        rw [bytesBits_cons, List.append_assoc, List.length_cons, readLengths, readByte_byteBits]
        simp only [Option.bind_eq_bind, Option.bind_some, List.length_cons, Option.pure_def]
        rw [show ls.length + 1 + 1 + 1 + 1 - 4 = ls.length by omega, w3]
        simp only [Option.bind_some]
        congr 2
        unfold unpackLengths
        rw [UInt8.toNat_ofNat', List.take_of_length_le (by simp)]
        simp only [List.range, List.range.loop, List.map, and_three,
          Nat.shiftRight_eq_div_pow, List.cons_append, List.nil_append, List.cons.injEq, and_true]
        omega

/-! ## Left sides -/

/-- The number of the special pair read as a variable. -/
def keyNumber (enum : UInt8 → Nat) : Key → Option Nat
  | .one _ => none
  | .two a b => some (numberOfSpecialPair (enum a) (enum b))

theorem readVars_spec (enum : UInt8 → Nat) (s : List Bool) : ∀ (ks : List Key) (st : RdVars),
    (∀ k ∈ ks, ∀ e, keyNumber enum k = some e → e < st.original.length) →
    ∃ st', readVars enum (ks.map Key.isLarge) st (bytesBits (ks.flatMap Key.bytes) ++ s) =
        some (st', s) ∧ st'.lhs = st.lhs ++ ks ∧
      (∀ c, st'.freqs c = st.freqs c + (ks.flatMap Key.bytes).count c) ∧
      (∀ c, st'.isVariable c = (st.isVariable c || decide (.one c ∈ ks))) ∧
      st'.original.length = st.original.length ∧
      (∀ (i : Nat), i < st.original.length → st'.original[i]? =
        if some i ∈ ks.map (keyNumber enum) then some false else st.original[i]?) ∧
      st.maxSymbol ≤ st'.maxSymbol ∧
      (∀ k ∈ ks, ∀ e, keyNumber enum k = some e → e ≤ st'.maxSymbol) ∧
      (st'.maxSymbol = st.maxSymbol ∨ some st'.maxSymbol ∈ ks.map (keyNumber enum)) := by
  intro ks
  induction ks with
  | nil =>
    intro st _
    exact ⟨st, rfl, by simp, by simp, by simp, rfl, by simp, Nat.le_refl _, by simp, Or.inl rfl⟩
  | cons k ks ih =>
    intro st hst
    cases k with
    | one v =>
      obtain ⟨st', h1, h2, h3, h4, h5, h6, h7, h8, h9⟩ := ih
        ⟨inc st.freqs v, setFn st.isVariable v true, st.original, st.maxSymbol, st.lhs ++ [.one v]⟩
        (fun k hk => hst k (by simp [hk]))
      refine ⟨st', ?_, ?_, ?_, ?_, h5, ?_, h7, ?_, ?_⟩
      · simp only [List.map_cons, Key.isLarge, List.flatMap_cons, Key.bytes, List.cons_append,
          List.nil_append, bytesBits_cons, List.append_assoc]
        rw [readVars, readByte_byteBits]
        exact h1
      · rw [h2]; simp
      · intro c
        rw [h3]
        simp only [inc, setFn, List.flatMap_cons, Key.bytes, List.cons_append, List.nil_append,
          List.count_cons]
        by_cases h : c = v
        · subst h; simp; omega
        · have : (v == c) = false := by simpa using fun e => h e.symm
          simp [h, this]
      · intro c
        rw [h4]
        simp only [setFn, List.mem_cons, Key.one.injEq]
        by_cases h : c = v <;> simp [h]
      · intro i hi
        rw [h6 i hi]
        simp [keyNumber]
      · intro k hk e he
        rcases List.mem_cons.mp hk with rfl | hk
        · simp [keyNumber] at he
        · exact h8 k hk e he
      · rcases h9 with h9 | h9
        · exact Or.inl h9
        · exact Or.inr (by rw [List.map_cons]; exact List.mem_cons_of_mem _ h9)
    | two v w =>
      have hlt := hst (.two v w) (by simp) _ rfl
      generalize he : numberOfSpecialPair (enum v) (enum w) = e at hlt
      obtain ⟨st', h1, h2, h3, h4, h5, h6, h7, h8, h9⟩ := ih
        ⟨inc (inc st.freqs v) w, st.isVariable, st.original.set e false,
          if st.maxSymbol < e then e else st.maxSymbol, st.lhs ++ [.two v w]⟩
        (fun k hk e' he' => by
          have := hst k (by simp [hk]) e' he'
          simpa using this)
      simp only at h7 h9
      have hmax : st.maxSymbol ≤ st'.maxSymbol ∧ e ≤ st'.maxSymbol := by
        split at h7 <;> omega
      refine ⟨st', ?_, ?_, ?_, ?_, by rw [h5]; simp, ?_, hmax.1, ?_, ?_⟩
      · simp only [List.map_cons, Key.isLarge, List.flatMap_cons, Key.bytes, List.cons_append,
          List.nil_append, bytesBits_cons, List.append_assoc]
        rw [readVars, readByte_byteBits]
        simp only [Option.bind_eq_bind, Option.bind_some, readByte_byteBits, he]
        rw [if_pos hlt]
        exact h1
      · rw [h2]; simp
      · intro c
        rw [h3]
        simp only [inc, setFn, List.flatMap_cons, Key.bytes, List.cons_append, List.nil_append,
          List.count_cons, beq_iff_eq]
        by_cases h : v = c <;> by_cases h' : w = c
        · subst h; subst h'; simp; omega
        · subst h
          have : ¬ v = w := fun e => h' e.symm
          simp [h', this]; omega
        · subst h'
          have : ¬ w = v := fun e => h e.symm
          simp [h, this]; omega
        · have h1 : ¬ c = v := fun e => h e.symm
          have h2 : ¬ c = w := fun e => h' e.symm
          simp [h, h', h1, h2]
      · intro c
        rw [h4]
        simp
      · intro i hi
        rw [h6 i (by simpa using hi)]
        simp only [List.map_cons, List.mem_cons, keyNumber, he, Option.some.injEq]
        by_cases h : i = e
        · subst h; simp [hi]
        · simp only [h, false_or]
          rw [List.getElem?_set_ne (fun e => h e.symm)]
      · intro k hk e' he'
        rcases List.mem_cons.mp hk with rfl | hk
        · simp only [keyNumber, he, Option.some.injEq] at he'
          omega
        · exact h8 k hk e' he'
      · rw [List.map_cons]
        rcases h9 with h9 | h9
        · split at h9
          · right
            rw [h9]
            simp [keyNumber, he]
          · exact Or.inl h9
        · exact Or.inr (List.mem_cons_of_mem _ h9)

/-! ## Special pairs -/

/-- `r` is the root of the first square not below `i`. -/
def Tracks (i r : Nat) : Prop := i ≤ r * r ∧ ∀ k, k < r → k * k < i

theorem Tracks.zero : Tracks 0 0 := ⟨by omega, by omega⟩

theorem Tracks.square {i r : Nat} (h : Tracks i r) {k : Nat} (hk : i = k * k) : r * r = i ∧ r = k := by
  obtain ⟨h1, h2⟩ := h
  have : r ≤ k := by
    apply Decidable.byContradiction
    intro hc
    have := h2 k (by omega)
    omega
  have h3 : r * r ≤ k * k := Nat.mul_le_mul this this
  refine ⟨by omega, ?_⟩
  apply Decidable.byContradiction
  intro hc
  have : (r + 1) * (r + 1) ≤ k * k := Nat.mul_le_mul (by omega) (by omega)
  rw [sq_succ] at this
  omega

theorem Tracks.hit {i r : Nat} (_h : Tracks i r) (he : r * r = i) : Tracks (i + 1) (r + 1) := by
  refine ⟨by rw [sq_succ]; omega, ?_⟩
  intro k hk
  have : k * k ≤ r * r := Nat.mul_le_mul (by omega) (by omega)
  omega

theorem Tracks.miss {i r : Nat} (h : Tracks i r) (he : ¬ r * r = i) : Tracks (i + 1) r :=
  ⟨by have := h.1; omega, fun k hk => by have := h.2 k hk; omega⟩

/-- The freed symbols among the entries from index `i` on. -/
def freedFrom : List (Bool × UInt8) → Nat → Nat → List UInt8
  | [], _, _ => []
  | e :: l, i, r =>
    if r * r = i then freedFrom l (i + 1) (r + 1)
    else if e.1 then freedFrom l (i + 1) r
    else e.2 :: freedFrom l (i + 1) r

theorem countFreed_eq (l : List (Bool × UInt8)) : ∀ (i r num : Nat),
    countFreed l i r num = num + (freedFrom l i r).length := by
  induction l with
  | nil => intro i r num; rfl
  | cons e l ih =>
    intro i r num
    rw [countFreed, freedFrom]
    split
    · exact ih _ _ _
    · split
      · exact ih _ _ _
      · rw [ih, List.length_cons]; omega

theorem writeFreedLoop_eq (l : List (Bool × UInt8)) : ∀ (i r : Nat),
    writeFreedLoop (freedFrom l i r).length l i r = some (freedFrom l i r) := by
  induction l with
  | nil => intro i r; rfl
  | cons e l ih =>
    intro i r
    have key : ∀ i' r', writeFreedLoop (freedFrom l i' r').length l i' r' = some (freedFrom l i' r') := ih
    rw [freedFrom]
    by_cases h : r * r = i
    · rw [if_pos h]
      have := key (i + 1) (r + 1)
      cases hf : (freedFrom l (i + 1) (r + 1)).length with
      | zero =>
        rw [writeFreedLoop, List.eq_nil_of_length_eq_zero hf]
      | succ n =>
        rw [writeFreedLoop, if_pos h, ← hf]
        exact this
    · rw [if_neg h]
      have := key (i + 1) r
      cases he : e.1 with
      | true =>
        rw [if_pos rfl]
        cases hf : (freedFrom l (i + 1) r).length with
        | zero =>
          rw [writeFreedLoop, List.eq_nil_of_length_eq_zero hf]
        | succ n =>
          rw [writeFreedLoop, if_neg h, if_pos he, ← hf]
          exact this
      | false =>
        rw [if_neg (by simp), List.length_cons, writeFreedLoop, if_neg h, if_neg (by simp [he]), this]
        rfl

theorem freedFrom_start (l : List (Bool × UInt8)) : freedFrom l 0 0 = freedFrom (l.drop 2) 2 2 := by
  match l with
  | [] => rfl
  | [e] => simp [freedFrom]
  | e :: f :: l => simp [freedFrom]

theorem writeFreed_eq (g : G) : numberOfFreedSymbols g = (freedFrom g.spr 0 0).length ∧
    writeFreedSymbols g =
      some (UInt8.ofNat (freedFrom g.spr 0 0).length :: freedFrom g.spr 0 0) := by
  have h1 : numberOfFreedSymbols g = (freedFrom g.spr 0 0).length := by
    rw [numberOfFreedSymbols, countFreed_eq]; omega
  refine ⟨h1, ?_⟩
  rw [writeFreedSymbols, h1, freedFrom_start, writeFreedLoop_eq]
  rfl

/-- The freed symbols are the entries `(false, c)` whose index is not a square. -/
theorem mem_freedFrom {c : UInt8} (l : List (Bool × UInt8)) : ∀ (i r : Nat), Tracks i r →
    c ∈ freedFrom l i r → ∃ j, l[j]? = some (false, c) ∧ ∀ k, i + j ≠ k * k := by
  induction l with
  | nil => intro i r _ h; simp [freedFrom] at h
  | cons e l ih =>
    intro i r ht h
    rw [freedFrom] at h
    have lift : ∀ r', Tracks (i + 1) r' → c ∈ freedFrom l (i + 1) r' →
        ∃ j, (e :: l)[j]? = some (false, c) ∧ ∀ k, i + j ≠ k * k := by
      intro r' ht' h'
      obtain ⟨j, h1, h2⟩ := ih _ _ ht' h'
      refine ⟨j + 1, by simpa using h1, ?_⟩
      intro k
      have := h2 k
      omega
    split at h
    · rename_i hr; exact lift _ (ht.hit hr) h
    · rename_i hr
      split at h
      · exact lift _ (ht.miss hr) h
      · rename_i he
        rcases List.mem_cons.mp h with h | h
        · refine ⟨0, ?_, ?_⟩
          · simp only [List.getElem?_cons_zero, Option.some.injEq]
            exact Prod.ext (by simpa using he) h.symm
          · intro k hk
            exact hr (ht.square (by omega)).1
        · exact lift _ (ht.miss hr) h

theorem nodup_freedFrom (l : List (Bool × UInt8)) : ∀ (i r : Nat), Tracks i r →
    (∀ (j j' : Nat) c, l[j]? = some (false, c) → l[j']? = some (false, c) → (∀ k, i + j ≠ k * k) →
      (∀ k, i + j' ≠ k * k) → j = j') → (freedFrom l i r).Nodup := by
  induction l with
  | nil => intro i r _ _; simp [freedFrom]
  | cons e l ih =>
    intro i r ht h
    have h' : ∀ (j j' : Nat) c, l[j]? = some (false, c) → l[j']? = some (false, c) →
        (∀ k, i + 1 + j ≠ k * k) → (∀ k, i + 1 + j' ≠ k * k) → j = j' := by
      intro j j' c h1 h2 h3 h4
      have := h (j + 1) (j' + 1) c (by simpa using h1) (by simpa using h2)
        (fun k => by have := h3 k; omega) (fun k => by have := h4 k; omega)
      omega
    rw [freedFrom]
    split
    · rename_i hr; exact ih _ _ (ht.hit hr) h'
    · rename_i hr
      split
      · exact ih _ _ (ht.miss hr) h'
      · rename_i he
        rw [List.nodup_cons]
        refine ⟨?_, ih _ _ (ht.miss hr) h'⟩
        intro hm
        obtain ⟨j, h1, h2⟩ := mem_freedFrom l _ _ (ht.miss hr) hm
        have := h 0 (j + 1) e.2 (by
            simp only [List.getElem?_cons_zero, Option.some.injEq]
            exact Prod.ext (by simpa using he) rfl)
          (by simpa using h1) (fun k hk => hr (ht.square (by omega)).1)
          (fun k => by have := h2 k; omega)
        omega

/-- The entries as they are read: the second component of an entry for a variable is lost. -/
def normSpr : List (Bool × UInt8) → Nat → Nat → List (Bool × UInt8)
  | [], _, _ => []
  | e :: l, i, r =>
    if r * r = i then e :: normSpr l (i + 1) (r + 1)
    else if e.1 then (true, 0) :: normSpr l (i + 1) r
    else e :: normSpr l (i + 1) r

theorem normSpr_length (l : List (Bool × UInt8)) : ∀ (i r : Nat), (normSpr l i r).length = l.length := by
  induction l with
  | nil => intro i r; rfl
  | cons e l ih =>
    intro i r
    rw [normSpr]
    split
    · simp [ih]
    · split <;> simp [ih]

theorem normSpr_filter (l : List (Bool × UInt8)) : ∀ (i r m : Nat),
    ((normSpr l i r).zipIdx m).filter (fun e => !e.1.1) = (l.zipIdx m).filter (fun e => !e.1.1) := by
  induction l with
  | nil => intro i r m; rfl
  | cons e l ih =>
    intro i r m
    rw [normSpr]
    split
    · simp [List.zipIdx_cons, List.filter_cons, ih]
    · split
      · rename_i he
        simp [List.zipIdx_cons, ih, he]
      · simp [List.zipIdx_cons, List.filter_cons, ih]

/-- What the reader knows about the entries from index `i` on: the values of `original` and the
special symbols. -/
def Lined (sp : List UInt8) : List Bool → List (Bool × UInt8) → Nat → Nat → Prop
  | _, [], _, _ => True
  | [], _ :: _, _, _ => False
  | o :: os, e :: l, i, r =>
    if r * r = i then sp[r]? = some e.2 ∧ e.1 = false ∧ Lined sp os l (i + 1) (r + 1)
    else o = !e.1 ∧ Lined sp os l (i + 1) r

theorem lined_of (sp : List UInt8) (l : List (Bool × UInt8)) : ∀ (os : List Bool) (i r : Nat),
    Tracks i r → (∀ (j : Nat) e, l[j]? = some e → j < os.length ∧
      (∀ k, i + j = k * k → sp[k]? = some e.2 ∧ e.1 = false) ∧
      ((∀ k, i + j ≠ k * k) → os[j]? = some (!e.1))) → Lined sp os l i r := by
  induction l with
  | nil => intro os i r _ _; cases os <;> exact True.intro
  | cons e l ih =>
    intro os i r ht h
    obtain ⟨h1, h2, h3⟩ := h 0 e rfl
    cases os with
    | nil => simp at h1
    | cons o os =>
      have h' : ∀ (j : Nat) e, l[j]? = some e → j < os.length ∧
          (∀ k, i + 1 + j = k * k → sp[k]? = some e.2 ∧ e.1 = false) ∧
          ((∀ k, i + 1 + j ≠ k * k) → os[j]? = some (!e.1)) := by
        intro j f hf
        obtain ⟨a1, a2, a3⟩ := h (j + 1) f (by simpa using hf)
        refine ⟨by simpa using a1, fun k hk => a2 k (by omega), ?_⟩
        intro hk
        simpa using a3 (fun k => by have := hk k; omega)
      rw [Lined]
      split
      · rename_i hr
        obtain ⟨b1, b2⟩ := h2 r (by omega)
        exact ⟨b1, b2, ih _ _ _ (ht.hit hr) h'⟩
      · rename_i hr
        refine ⟨?_, ih _ _ _ (ht.miss hr) h'⟩
        have := h3 (fun k hk => hr (ht.square (by omega)).1)
        simpa using this

/-- Behind the last freed symbol the entries are filled without reading. -/
theorem fill_spec (sp : List UInt8) (l : List (Bool × UInt8)) : ∀ (os : List Bool) (i r : Nat),
    Tracks i r → Lined sp os l i r → freedFrom l i r = [] →
    fillSpr sp l.length i r = some (normSpr l i r) ∧
    ∀ (j : Nat) e, l[j]? = some e → (∃ k, i + j = k * k) ∨ e.1 = true := by
  induction l with
  | nil => intro os i r _ _ _; exact ⟨rfl, by simp⟩
  | cons e l ih =>
    intro os i r ht hl hf
    cases os with
    | nil => exact absurd hl (by simp [Lined])
    | cons o os =>
      rw [Lined] at hl
      rw [freedFrom] at hf
      rw [List.length_cons, fillSpr, normSpr]
      by_cases hr : r * r = i
      · rw [if_pos hr] at hl hf ⊢
        obtain ⟨b1, b2, b3⟩ := hl
        obtain ⟨i1, i2⟩ := ih os _ _ (ht.hit hr) b3 hf
        refine ⟨?_, ?_⟩
        · rw [b1, if_pos hr]
          simp only [Option.bind_eq_bind, Option.bind_some, i1, Option.pure_def]
          rw [← b2]
        · intro j f hj
          cases j with
          | zero => exact Or.inl ⟨r, by omega⟩
          | succ j =>
            rcases i2 j f (by simpa using hj) with ⟨k, hk⟩ | h
            · exact Or.inl ⟨k, by omega⟩
            · exact Or.inr h
      · rw [if_neg hr] at hl hf ⊢
        cases he : e.1 with
        | false => rw [if_neg (by simp [he])] at hf; simp at hf
        | true =>
          rw [if_pos he] at hf
          obtain ⟨i1, i2⟩ := ih os _ _ (ht.miss hr) hl.2 hf
          refine ⟨?_, ?_⟩
          · rw [if_pos rfl, if_neg hr, i1]; rfl
          · intro j f hj
            cases j with
            | zero =>
              simp only [List.getElem?_cons_zero, Option.some.injEq] at hj
              exact Or.inr (by rw [← hj]; exact he)
            | succ j =>
              rcases i2 j f (by simpa using hj) with ⟨k, hk⟩ | h
              · exact Or.inl ⟨k, by omega⟩
              · exact Or.inr h

/-- Reading the freed symbols. -/
theorem freed_spec (sp : List UInt8) (s : List Bool) (l : List (Bool × UInt8)) :
    ∀ (os : List Bool) (i r : Nat), Tracks i r → Lined sp os l i r →
    ∃ pre post curr sqr,
      readFreed sp os (freedFrom l i r).length i r (bytesBits (freedFrom l i r) ++ s) =
        some (pre, curr, sqr, s) ∧ i ≤ curr ∧ curr ≤ i + l.length ∧
      fillSpr sp (i + l.length - curr) curr sqr = some post ∧ pre ++ post = normSpr l i r ∧
      ∀ (j : Nat) e, curr ≤ i + j → l[j]? = some e → (∃ k, i + j = k * k) ∨ e.1 = true := by
  induction l with
  | nil => intro os i r _ _; exact ⟨[], [], i, r, by cases os <;> rfl, by omega, by simp, by simp [fillSpr],
      rfl, by simp⟩
  | cons e l ih =>
    intro os i r ht hl
    by_cases hfr : freedFrom (e :: l) i r = []
    · obtain ⟨f1, f2⟩ := fill_spec sp (e :: l) os i r ht hl hfr
      refine ⟨[], normSpr (e :: l) i r, i, r, ?_, by omega, by omega, ?_, rfl, ?_⟩
      · rw [hfr]; cases os <;> rfl
      · rw [show i + (e :: l).length - i = (e :: l).length by omega]; exact f1
      · intro j f _ hj; exact f2 j f hj
    · cases os with
      | nil => exact absurd hl (by simp [Lined])
      | cons o os =>
        rw [Lined] at hl
        obtain ⟨n, hn⟩ : ∃ n, (freedFrom (e :: l) i r).length = n + 1 := by
          cases h : freedFrom (e :: l) i r with
          | nil => exact absurd h hfr
          | cons a b => exact ⟨b.length, by simp⟩
        have tail : ∀ {curr : Nat}, i + 1 ≤ curr →
            (∀ (j : Nat) e, curr ≤ i + 1 + j → l[j]? = some e → (∃ k, i + 1 + j = k * k) ∨ e.1 = true) →
            ∀ (j : Nat) f, curr ≤ i + j → (e :: l)[j]? = some f → (∃ k, i + j = k * k) ∨ f.1 = true := by
          intro curr hcu h j f hj hf
          cases j with
          | zero => omega
          | succ j =>
            rcases h j f (by omega) (by simpa using hf) with ⟨k, hk⟩ | h
            · exact Or.inl ⟨k, by omega⟩
            · exact Or.inr h
        rw [hn]
        rw [freedFrom] at hn ⊢
        rw [readFreed, normSpr]
        by_cases hr : r * r = i
        · rw [if_pos hr] at hl hn ⊢
          obtain ⟨b1, b2, b3⟩ := hl
          obtain ⟨pre, post, curr, sqr, i1, i2, i3, i4, i5, i6⟩ := ih os _ _ (ht.hit hr) b3
          rw [hn] at i1
          refine ⟨(false, e.2) :: pre, post, curr, sqr, ?_, by omega, by simp; omega, ?_, ?_, tail i2 i6⟩
          · rw [if_pos hr, b1]
            simp only [Option.bind_eq_bind, Option.bind_some, i1, Option.pure_def]
          · rw [show i + (e :: l).length - curr = i + 1 + l.length - curr by simp; omega]; exact i4
          · rw [if_pos hr, List.cons_append, i5, ← b2]
        · rw [if_neg hr] at hl hn ⊢
          cases he : e.1 with
          | true =>
            rw [if_pos he] at hn
            obtain ⟨pre, post, curr, sqr, i1, i2, i3, i4, i5, i6⟩ := ih os _ _ (ht.miss hr) hl.2
            rw [hn] at i1
            refine ⟨(true, 0) :: pre, post, curr, sqr, ?_, by omega, by simp; omega, ?_, ?_, tail i2 i6⟩
            · rw [if_neg hr, if_neg (by rw [hl.1, he]; simp), if_pos rfl]
              simp only [Option.bind_eq_bind, Option.bind_some, i1, Option.pure_def]
            · rw [show i + (e :: l).length - curr = i + 1 + l.length - curr by simp; omega]; exact i4
            · rw [if_neg hr, if_pos rfl, List.cons_append, i5]
          | false =>
            rw [if_neg (by simp [he]), List.length_cons] at hn
            have hn' : (freedFrom l (i + 1) r).length = n := by omega
            obtain ⟨pre, post, curr, sqr, i1, i2, i3, i4, i5, i6⟩ := ih os _ _ (ht.miss hr) hl.2
            rw [hn'] at i1
            refine ⟨(false, e.2) :: pre, post, curr, sqr, ?_, by omega, by simp; omega, ?_, ?_, tail i2 i6⟩
            · rw [if_neg hr, if_pos (by rw [hl.1, he]; simp), if_neg (by simp), bytesBits_cons,
                List.append_assoc, readByte_byteBits]
              simp only [Option.bind_eq_bind, Option.bind_some, i1, Option.pure_def]
            · rw [show i + (e :: l).length - curr = i + 1 + l.length - curr by simp; omega]; exact i4
            · rw [if_neg hr, if_neg (by simp), List.cons_append, i5, ← he]

/-! ## Arrays set up from the special symbols -/

theorem enumerate_spec (sp : List UInt8) (hn : sp.Nodup) (k : Nat) (c : UInt8) (h : sp[k]? = some c) :
    enumerate sp c = k := by
  have keep : ∀ (l : List UInt8) (f : UInt8 → Nat) (m : Nat) (c : UInt8), c ∉ l →
      (l.zipIdx m).foldl (fun f e => setFn f e.1 e.2) f c = f c := by
    intro l
    induction l with
    | nil => intro f m c _; rfl
    | cons a l ih =>
      intro f m c hc
      rw [List.zipIdx_cons, List.foldl_cons, ih _ _ _ (fun h => hc (List.mem_cons_of_mem _ h))]
      simp only [setFn]
      rw [if_neg (fun h => hc (by rw [h]; exact List.mem_cons_self))]
  have key : ∀ (l : List UInt8) (f : UInt8 → Nat) (m k : Nat) (c : UInt8), l.Nodup →
      l[k]? = some c → (l.zipIdx m).foldl (fun f e => setFn f e.1 e.2) f c = m + k := by
    intro l
    induction l with
    | nil => intro f m k c _ h; simp at h
    | cons a l ih =>
      intro f m k c hn h
      rw [List.nodup_cons] at hn
      rw [List.zipIdx_cons, List.foldl_cons]
      cases k with
      | zero =>
        simp only [List.getElem?_cons_zero, Option.some.injEq] at h
        subst h
        rw [keep _ _ _ _ hn.1]
        simp [setFn]
      | succ k =>
        rw [ih _ _ k c hn.2 (by simpa using h)]
        omega
  have := key sp (fun _ => 0) 0 k c hn h
  rw [enumerate, this]
  omega

theorem originalInit_spec (n : Nat) : (originalInit n).length = n * n ∧
    ∀ i, i < n * n → (∀ k, i ≠ k * k) → (originalInit n)[i]? = some true := by
  have key : ∀ (l : List Nat) (o : List Bool), (l.foldl (fun o i => o.set (i * i) false) o).length =
      o.length ∧ ∀ (i : Nat), (∀ k, i ≠ k * k) →
        (l.foldl (fun o i => o.set (i * i) false) o)[i]? = o[i]? := by
    intro l
    induction l with
    | nil => intro o; exact ⟨rfl, fun i _ => rfl⟩
    | cons a l ih =>
      intro o
      obtain ⟨h1, h2⟩ := ih (o.set (a * a) false)
      refine ⟨by rw [List.foldl_cons, h1]; simp, ?_⟩
      intro i hi
      rw [List.foldl_cons, h2 i hi, List.getElem?_set_ne (fun e => hi a e.symm)]
  obtain ⟨h1, h2⟩ := key (List.range n) (List.replicate (n * n) true)
  refine ⟨by rw [originalInit, h1]; simp, ?_⟩
  intro i hi hk
  rw [originalInit, h2 i hk, List.getElem?_replicate, if_pos hi]

end Bwtc.Grammar
