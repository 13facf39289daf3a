import Verif.HuffLookup

/-!
# Table-driven Huffman decoding equals bit-by-bit decoding (helper lemmas)
-/

set_option autoImplicit false

namespace Bwtc.HuffLookup

/-- What the proof needs of the tables. -/
structure Ok (ws : List (Nat × List Bool)) (tab : Table) (len0 code0 : Nat) : Prop where
  pf : PF ws
  hit : ∀ z x k len, z < 50 → x < 256 → tab z x = some (k, len) →
    1 ≤ len ∧ len ≤ 8 ∧ (k, List.replicate z false ++ (bitsOf 8 x).take len) ∈ ws ∧
      (bitsOf 8 x).head? = some true
  look : ∀ z x k len, x < 256 → 1 ≤ len → len ≤ 8 → (bitsOf 8 x).head? = some true →
    (k, List.replicate z false ++ (bitsOf 8 x).take len) ∈ ws → tab z x = some (k, len)
  zero : (code0, List.replicate len0 false) ∈ ws
  len : len0 ≤ 50
  shape : ∀ p ∈ ws, p.2 = List.replicate p.2.length false ∨
    ∃ z t, p.2 = List.replicate z false ++ true :: t ∧ t.length ≤ 7

/-- Bits read but not yet decoded. -/
def pend (st : St) : List Bool := List.replicate st.zc false ++ bitsOf st.bits st.buf

structure Inv (st : St) : Prop where
  bits : st.bits ≤ 8
  buf : st.buf < 256
  top : 0 < st.bits → (bitsOf st.bits st.buf).head? = some true

theorem prefix_zeros_one {z zc : Nat} {t T : List Bool} (hT : T = [] ∨ T.head? = some true)
    (h : List.replicate z false ++ true :: t <+: List.replicate zc false ++ T) : z = zc ∧ true :: t <+: T := by
  induction z generalizing zc with
  | zero =>
    cases zc with
    | zero => exact ⟨rfl, by simpa using h⟩
    | succ zc =>
      simp only [List.replicate_zero, List.nil_append, List.replicate_succ, List.cons_append,
        List.cons_prefix_cons] at h
      exact absurd h.1 (by simp)
  | succ z ih =>
    cases zc with
    | zero =>
      simp only [List.replicate_succ, List.cons_append, List.replicate_zero, List.nil_append] at h
      rcases hT with hT | hT
      · subst hT
        simp at h
      · cases T with
        | nil => simp at hT
        | cons a T =>
          simp at hT
          rw [List.cons_prefix_cons] at h
          rw [hT] at h
          exact absurd h.1 (by simp)
    | succ zc =>
      simp only [List.replicate_succ, List.cons_append, List.cons_prefix_cons, true_and] at h
      have := ih h
      exact ⟨by omega, this.2⟩

theorem prefix_zeros {l zc : Nat} {T : List Bool} (hT : T = [] ∨ T.head? = some true)
    (h : List.replicate l false <+: List.replicate zc false ++ T) : l ≤ zc := by
  induction l generalizing zc with
  | zero => omega
  | succ l ih =>
    cases zc with
    | zero =>
      simp only [List.replicate_succ, List.replicate_zero, List.nil_append] at h
      rcases hT with hT | hT
      · subst hT
        simp at h
      · cases T with
        | nil => simp at hT
        | cons a T =>
          simp at hT
          rw [List.cons_prefix_cons, hT] at h
          exact absurd h.1 (by simp)
    | succ zc =>
      simp only [List.replicate_succ, List.cons_append, List.cons_prefix_cons, true_and] at h
      have := ih h
      omega

theorem Inv.tail {st : St} (h : Inv st) : bitsOf st.bits st.buf = [] ∨ (bitsOf st.bits st.buf).head? = some true := by
  by_cases h0 : 0 < st.bits
  · exact Or.inr (h.top h0)
  · have : st.bits = 0 := by omega
    rw [this]
    exact Or.inl rfl

section
variable {ws : List (Nat × List Bool)} {tab : Table} {len0 code0 : Nat}

theorem Ok.zero_unique (h : Ok ws tab len0 code0) {k l : Nat} (hw : (k, List.replicate l false) ∈ ws) :
    k = code0 ∧ l = len0 := by
  have : (k, List.replicate l false) = (code0, List.replicate len0 false) := by
    by_cases hl : l ≤ len0
    · apply h.pf.1 _ hw _ h.zero
      exact ⟨List.replicate (len0 - l) false, by
        rw [List.replicate_append_replicate]
        congr 1
        omega⟩
    · symm
      apply h.pf.1 _ h.zero _ hw
      exact ⟨List.replicate (l - len0) false, by
        rw [List.replicate_append_replicate]
        congr 1
        omega⟩
  rw [Prod.mk.injEq] at this
  refine ⟨this.1, ?_⟩
  have := congrArg List.length this.2
  simpa using this

theorem Ok.len0_pos (h : Ok ws tab len0 code0) : 0 < len0 := by
  have := h.pf.2 _ h.zero
  cases len0 with
  | zero => simp at this
  | succ n => omega

theorem zeroLoop_spec (h : Ok ws tab len0 code0) (r : Nat) : ∀ zc, (zeroLoop len0 r zc).1 ≤ r ∧
    (zeroLoop len0 r zc).2 ≤ zc ∧ (r - (zeroLoop len0 r zc).1 = 0 ∨ (zeroLoop len0 r zc).2 < len0) ∧
    ((zeroLoop len0 r zc).1 = 0 → (zeroLoop len0 r zc).2 = zc) ∧
    ∀ T, bitDecode ws r (List.replicate zc false ++ T) =
      pre (List.replicate (zeroLoop len0 r zc).1 code0)
        (bitDecode ws (r - (zeroLoop len0 r zc).1) (List.replicate (zeroLoop len0 r zc).2 false ++ T)) := by
  induction r with
  | zero => intro zc; simp [zeroLoop, pre_nil]
  | succ r ih =>
    intro zc
    rw [zeroLoop]
    by_cases hz : len0 ≤ zc
    · rw [if_pos hz]
      obtain ⟨h1, h2, h3, h4, h5⟩ := ih (zc - len0)
      refine ⟨by simp only; omega, by simp only; omega, ?_, by simp, ?_⟩
      · rcases h3 with h3 | h3
        · left
          simp only
          omega
        · right
          exact h3
      · intro T
        have e : List.replicate zc false ++ T = List.replicate len0 false ++ (List.replicate (zc - len0) false ++ T) := by
          rw [← List.append_assoc, List.replicate_append_replicate]
          congr 2
          omega
        rw [e, bitDecode_word h.pf h.zero, h5 T, pre_pre]
        simp only
        rw [show r + 1 - ((zeroLoop len0 r (zc - len0)).1 + 1) = r - (zeroLoop len0 r (zc - len0)).1 by omega]
        rfl
    · rw [if_neg hz]
      exact ⟨by simp, by simp, Or.inr (by simpa using hz), by simp, by intro T; simp [pre_nil]⟩

theorem bitsOf_shl (bits n : Nat) (h : bits ≤ 8) :
    bitsOf 8 ((n <<< (8 - bits)) % 256) = bitsOf bits n ++ List.replicate (8 - bits) false := by
  rw [show 256 = 2 ^ 8 by rfl, bitsOf_mod, Nat.shiftLeft_eq]
  conv => lhs; rw [show 8 = bits + (8 - bits) by omega, bitsOf_add]
  rw [show bits + (8 - bits) - bits = 8 - bits by omega, Nat.mul_div_cancel _ (Nat.pow_pos (by omega))]
  congr 1
  rw [← bitsOf_mod, Nat.mul_mod_left]
  generalize 8 - bits = k
  induction k with
  | zero => rfl
  | succ k ih => simp [bitsOf, List.replicate_succ, ih]

theorem bitsOf_mask (w n : Nat) : bitsOf w (n &&& ((1 <<< w) - 1)) = bitsOf w n := by
  rw [Nat.shiftLeft_eq, Nat.one_mul, Nat.and_two_pow_sub_one_eq_mod, bitsOf_mod]

theorem mask_le (w n : Nat) (h : n < 256) : n &&& ((1 <<< w) - 1) < 256 :=
  Nat.lt_of_le_of_lt Nat.and_le_left h

/-- A codeword that is a prefix of pending bits is all zero or ends inside a byte's reach. -/
theorem Ok.prefix_cases (h : Ok ws tab len0 code0) {p : Nat × List Bool} (hp : p ∈ ws) {zc : Nat} {T : List Bool}
    (hT : T = [] ∨ T.head? = some true) (hpre : p.2 <+: List.replicate zc false ++ T) :
    len0 ≤ zc ∨ ∃ len, 1 ≤ len ∧ len ≤ 8 ∧ len ≤ T.length ∧ p.2 = List.replicate zc false ++ T.take len := by
  rcases h.shape p hp with hz | ⟨z, t, ht, hl⟩
  · left
    rw [hz] at hpre
    have := prefix_zeros hT hpre
    have hp' : (p.1, List.replicate p.2.length false) ∈ ws := by rw [← hz]; exact hp
    have := (h.zero_unique hp').2
    omega
  · right
    rw [ht] at hpre
    obtain ⟨e1, e2⟩ := prefix_zeros_one hT hpre
    refine ⟨t.length + 1, by omega, by omega, by simpa using e2.length_le, ?_⟩
    rw [ht, e1]
    congr 1
    have := List.prefix_iff_eq_take.mp e2
    simpa using this

theorem lookStep_spec (h : Ok ws tab len0 code0) {st : St} (hi : Inv st) (hz : st.zc < 50) :
    (∃ k st1 w, lookStep tab st = some (some k, st1) ∧ Inv st1 ∧ st1.zc + st1.bits ≤ 7 ∧ (k, w) ∈ ws ∧
      pend st = w ++ pend st1) ∨
    (lookStep tab st = some (none, st) ∧ (len0 ≤ st.zc ∨ NoPre ws (pend st))) := by
  have hb := hi.bits
  have hbits := bitsOf_shl st.bits st.buf hb
  have hx : (st.buf <<< (8 - st.bits)) % 256 < 256 := Nat.mod_lt _ (by omega)
  -- a miss
  have hmiss : (∀ k len, tab st.zc ((st.buf <<< (8 - st.bits)) % 256) = some (k, len) → st.bits < len) →
      len0 ≤ st.zc ∨ NoPre ws (pend st) := by
    intro hm
    rcases word_or ws (pend st) with hn | ⟨p, hp, hpre⟩
    · exact Or.inr hn
    · left
      rcases h.prefix_cases hp hi.tail hpre with h1 | ⟨len, g1, g2, g3, g4⟩
      · exact h1
      · rw [bitsOf_length] at g3
        have := h.look st.zc _ p.1 len hx g1 g2 (by
          rw [hbits]
          have := hi.top (by omega)
          cases hT : bitsOf st.bits st.buf with
          | nil => rw [hT] at this; simp at this
          | cons a T => rw [hT] at this; simpa using this) (by
          rw [hbits, List.take_append_of_le_length (by rw [bitsOf_length]; omega), ← g4]
          exact hp)
        have := hm _ _ this
        omega
  unfold lookStep look
  rw [if_pos hb, if_pos hz]
  cases ht : tab st.zc ((st.buf <<< (8 - st.bits)) % 256) with
  | none =>
    right
    refine ⟨rfl, hmiss ?_⟩
    intro k len h'
    rw [ht] at h'
    exact absurd h' (by simp)
  | some q =>
    obtain ⟨k, len⟩ := q
    simp only
    by_cases hl : len ≤ st.bits
    · left
      rw [if_pos hl]
      obtain ⟨g1, g2, g3, g4⟩ := h.hit _ _ k len hz hx ht
      obtain ⟨z, f1, f2, f3, f4⟩ := leadingZeros_table (st.bits - len) (by omega) st.buf hi.buf
      rw [f1]
      refine ⟨k, _, _, rfl, ⟨by show st.bits - len - z ≤ 8; omega, mask_le _ _ hi.buf, ?_⟩, by show z + (st.bits - len - z) ≤ 7; omega, g3, ?_⟩
      · intro h0
        simp only [bitsOf_mask] at h0 ⊢
        exact f4 h0
      · rw [hbits, List.take_append_of_le_length (by rw [bitsOf_length]; omega)]
        unfold pend
        simp only [bitsOf_mask, List.append_assoc]
        congr 1
        rw [← f3]
        conv => lhs; rw [show st.bits = len + (st.bits - len) by omega, bitsOf_add]
        conv => rhs; arg 1; arg 2; rw [show st.bits = len + (st.bits - len) by omega, bitsOf_add]
        rw [List.take_append_of_le_length (by rw [bitsOf_length]; omega)]
        rw [List.take_of_length_le (by rw [bitsOf_length]; omega)]
    · right
      rw [if_neg hl]
      refine ⟨rfl, hmiss ?_⟩
      intro k' len' h'
      rw [ht] at h'
      simp at h'
      omega

theorem pre_some {o : List Nat} {a : Option (List Nat × List Bool)} {b : Option (List Nat × List Bool)}
    (h : a = b) : pre o a = pre o b := by rw [h]

/-- The extraction loop decodes all codes that lie inside the pending bits. -/
theorem extract_spec (h : Ok ws tab len0 code0) (r : Nat) : ∀ (st : St), Inv st → st.zc < 50 →
    ∃ o r' st', extract tab len0 code0 r st = some (o, r', st') ∧ Inv st' ∧
      (∀ s, bitDecode ws r (pend st ++ s) = pre o (bitDecode ws r' (pend st' ++ s))) ∧
      (r' = 0 ∨ NoPre ws (pend st')) := by
  induction r using Nat.strongRecOn with
  | _ r ih =>
    intro st hi hz
    cases r with
    | zero =>
      refine ⟨[], 0, st, by rw [extract], hi, ?_, Or.inl rfl⟩
      intro s
      rw [pre_nil]
    | succ r =>
      rcases lookStep_spec h hi hz with ⟨k, st1, w, e1, e2, e3, e4, e5⟩ | ⟨e1, e2⟩
      · obtain ⟨z1, z2, z3, z4, z5⟩ := zeroLoop_spec h r st1.zc
        obtain ⟨o, r', st', f1, f2, f3, f4⟩ := ih (r - (zeroLoop len0 r st1.zc).1) (by omega)
          ⟨st1.buf, st1.bits, (zeroLoop len0 r st1.zc).2⟩ ⟨e2.bits, e2.buf, e2.top⟩ (by show (zeroLoop len0 r st1.zc).2 < 50; omega)
        refine ⟨k :: List.replicate (zeroLoop len0 r st1.zc).1 code0 ++ o, r', st', ?_, f2, ?_, f4⟩
        · rw [extract, e1]
          simp only
          rw [f1]
        · intro s
          rw [e5, List.append_assoc, bitDecode_word h.pf e4]
          have := z5 (bitsOf st1.bits st1.buf ++ s)
          rw [← List.append_assoc] at this
          rw [show pend st1 = List.replicate st1.zc false ++ bitsOf st1.bits st1.buf from rfl, this]
          have f3' := f3 s
          rw [show pend ⟨st1.buf, st1.bits, (zeroLoop len0 r st1.zc).2⟩ = List.replicate (zeroLoop len0 r st1.zc).2 false ++ bitsOf st1.bits st1.buf from rfl, List.append_assoc] at f3'
          rw [f3', pre_pre, pre_pre]
          simp
      · obtain ⟨z1, z2, z3, z4, z5⟩ := zeroLoop_spec h (r + 1) st.zc
        by_cases h0 : (zeroLoop len0 (r + 1) st.zc).1 = 0
        · refine ⟨[], r + 1, st, ?_, hi, ?_, ?_⟩
          · rw [extract, e1]
            simp only
            rw [dif_pos h0]
          · intro s
            rw [pre_nil]
          · right
            have := z4 h0
            rcases e2 with e2 | e2
            · omega
            · exact e2
        · obtain ⟨o, r', st', f1, f2, f3, f4⟩ := ih (r + 1 - (zeroLoop len0 (r + 1) st.zc).1) (by omega)
            ⟨st.buf, st.bits, (zeroLoop len0 (r + 1) st.zc).2⟩ ⟨hi.bits, hi.buf, hi.top⟩ (by show (zeroLoop len0 (r + 1) st.zc).2 < 50; omega)
          refine ⟨List.replicate (zeroLoop len0 (r + 1) st.zc).1 code0 ++ o, r', st', ?_, f2, ?_, f4⟩
          · rw [extract, e1]
            simp only
            rw [dif_neg h0, f1]
          · intro s
            have := z5 (bitsOf st.bits st.buf ++ s)
            rw [← List.append_assoc] at this
            rw [show pend st = List.replicate st.zc false ++ bitsOf st.bits st.buf from rfl, this]
            have f3' := f3 s
            rw [show pend ⟨st.buf, st.bits, (zeroLoop len0 (r + 1) st.zc).2⟩ = List.replicate (zeroLoop len0 (r + 1) st.zc).2 false ++ bitsOf st.bits st.buf from rfl, List.append_assoc] at f3'
            rw [f3', pre_pre]

theorem bitsOf_cross (bits n b : Nat) (h : bits ≤ 8) (hb : b < 256) :
    bitsOf 8 (((n <<< (8 - bits)) ||| (b >>> bits)) % 256) = bitsOf bits n ++ (bitsOf 8 b).take (8 - bits) := by
  have hlt : b >>> bits < 2 ^ (8 - bits) := by
    rw [Nat.shiftRight_eq_div_pow, Nat.div_lt_iff_lt_mul (Nat.pow_pos (by omega)), ← Nat.pow_add,
      show 8 - bits + bits = 8 by omega]
    exact hb
  rw [← Nat.shiftLeft_add_eq_or_of_lt hlt, show 256 = 2 ^ 8 by rfl, bitsOf_mod, Nat.shiftLeft_eq]
  conv => lhs; rw [show 8 = bits + (8 - bits) by omega, bitsOf_add]
  have hpos : 0 < 2 ^ (8 - bits) := Nat.pow_pos (by omega)
  rw [show bits + (8 - bits) - bits = 8 - bits by omega, Nat.add_comm, Nat.add_mul_div_right _ _ hpos,
    Nat.div_eq_of_lt hlt, Nat.zero_add]
  congr 1
  rw [← bitsOf_mod, Nat.add_mul_mod_self_right, bitsOf_mod]
  conv => rhs; arg 2; rw [show 8 = (8 - bits) + bits by omega, bitsOf_add]
  rw [List.take_append_of_le_length (by rw [bitsOf_length]; omega), List.take_of_length_le (by rw [bitsOf_length]; omega),
    Nat.shiftRight_eq_div_pow]

/-- A code that crosses into the next byte. -/
theorem cross_spec (h : Ok ws tab len0 code0) (keep : Bool) {st : St} (hi : Inv st) (h0 : 0 < st.bits)
    (hz : st.zc < len0) (hn : NoPre ws (pend st)) {b : Nat} (hb : b < 256) {s : List Bool}
    (hex : ∃ p ∈ ws, p.2 <+: pend st ++ (bitsOf 8 b ++ s)) :
    ∃ k st1 w, cross keep tab st b = some (k, st1) ∧ Inv st1 ∧ st1.zc + st1.bits ≤ 7 ∧ (k, w) ∈ ws ∧
      pend st ++ bitsOf 8 b = w ++ pend st1 := by
  obtain ⟨p, hp, hpre⟩ := hex
  have hbits := hi.bits
  have h50 := h.len
  have hx : ((st.buf <<< (8 - st.bits)) ||| (b >>> st.bits)) % 256 < 256 := Nat.mod_lt _ (by omega)
  have hcx := bitsOf_cross st.bits st.buf b hbits hb
  have htop := hi.top h0
  generalize hxe : ((st.buf <<< (8 - st.bits)) ||| (b >>> st.bits)) % 256 = x at hx hcx
  have hT : ∀ s' : List Bool, (bitsOf st.bits st.buf ++ s').head? = some true := by
    intro s'
    cases hT : bitsOf st.bits st.buf with
    | nil => rw [hT] at htop; simp at htop
    | cons a T => rw [hT] at htop; simpa using htop
  have hpre' := hpre
  rw [pend, List.append_assoc] at hpre'
  rcases h.prefix_cases hp (Or.inr (hT _)) hpre' with g | ⟨len, g1, g2, g3, g4⟩
  · omega
  · have e8 : (bitsOf st.bits st.buf ++ (bitsOf 8 b ++ s)).take len = (bitsOf 8 x).take len := by
      rw [hcx, ← List.append_assoc]
      rw [List.take_append_of_le_length (by simp; omega)]
      conv => lhs; arg 2; rw [← List.take_append_drop (8 - st.bits) (bitsOf 8 b)]
      rw [← List.append_assoc, List.take_append_of_le_length (by simp; omega)]
    have ht := h.look st.zc x p.1 len hx g1 g2 (by rw [hcx]; exact hT _) (by rw [← e8, ← g4]; exact hp)
    have hlen : st.bits < len := by
      apply Decidable.byContradiction
      intro hc
      apply hn p hp
      rw [g4, pend, List.take_append_of_le_length (by rw [bitsOf_length]; omega)]
      exact (List.prefix_append_right_inj _).mpr (List.take_prefix _ _)
    obtain ⟨z, f1, f2, f3, f4⟩ := leadingZeros_table (st.bits + (8 - len)) (by omega) b hb
    have hbuf : ∀ w, bitsOf w (if keep then b else b &&& ((1 <<< w) - 1)) = bitsOf w b := by
      intro w
      cases keep
      · simp only [Bool.false_eq_true, if_false]
        exact bitsOf_mask w b
      · rfl
    refine ⟨p.1, ⟨if keep then b else b &&& ((1 <<< (st.bits + (8 - len) - z)) - 1), st.bits + (8 - len) - z, z⟩, p.2,
      ?_, ⟨by show st.bits + (8 - len) - z ≤ 8; omega, ?_, ?_⟩, by show z + (st.bits + (8 - len) - z) ≤ 7; omega, hp, ?_⟩
    · rw [cross, if_pos hbits, look, hxe, if_pos (by omega), ht]
      simp only
      rw [f1]
    · show (if keep then b else _) < 256
      cases keep
      · exact mask_le _ _ hb
      · exact hb
    · intro h'
      simp only [hbuf]
      exact f4 h'
    · unfold pend
      simp only [hbuf]
      rw [g4, ← f3, List.append_assoc, List.append_assoc]
      congr 1
      -- the bits of `b` split at `len - bits`
      have hsplit : bitsOf 8 b = bitsOf (len - st.bits) (b / 2 ^ (st.bits + (8 - len))) ++ bitsOf (st.bits + (8 - len)) b := by
        rw [← bitsOf_add]
        congr 1
        omega
      rw [List.take_append, bitsOf_length, List.take_of_length_le (by rw [bitsOf_length]; omega), List.append_assoc]
      congr 1
      rw [List.take_append_of_le_length (by rw [bitsOf_length]; omega)]
      rw [hsplit, List.take_append_of_le_length (by rw [bitsOf_length]; omega), List.take_of_length_le (by rw [bitsOf_length]; omega)]

theorem crossExtract_spec (h : Ok ws tab len0 code0) (keep : Bool) {st : St} (hi : Inv st) (h0 : 0 < st.bits)
    (hz : st.zc < len0) (hn : NoPre ws (pend st)) {b : Nat} (hb : b < 256) {s : List Bool} {r : Nat} (hr : 0 < r)
    (hex : ∃ p ∈ ws, p.2 <+: pend st ++ (bitsOf 8 b ++ s)) :
    ∃ o r' st', crossExtract keep tab len0 code0 r st b = some (o, r', st') ∧ Inv st' ∧
      bitDecode ws r (pend st ++ (bitsOf 8 b ++ s)) = pre o (bitDecode ws r' (pend st' ++ s)) ∧
      (r' = 0 ∨ NoPre ws (pend st')) := by
  obtain ⟨k, st1, w, e1, e2, e3, e4, e5⟩ := cross_spec h keep hi h0 hz hn hb hex
  obtain ⟨o, r', st', f1, f2, f3, f4⟩ := extract_spec h (r - 1) st1 e2 (by omega)
  refine ⟨k :: o, r', st', by simp [crossExtract, e1, f1], f2, ?_, f4⟩
  obtain ⟨r, rfl⟩ : ∃ r', r = r' + 1 := ⟨r - 1, by omega⟩
  rw [← List.append_assoc, e5, List.append_assoc, bitDecode_word h.pf e4]
  rw [Nat.add_sub_cancel] at f3
  rw [f3 s, pre_pre]
  rfl

/-- Every eight bits starting with a one, after fewer than `len0` zeros, contain a codeword. -/
def Complete (ws : List (Nat × List Bool)) (len0 : Nat) : Prop :=
  ∀ z t, z < len0 → t.length = 7 → ∃ p ∈ ws, p.2 <+: List.replicate z false ++ true :: t

theorem exists_word {st : St} (hi : Inv st) (h0 : 0 < st.bits) (hz : st.zc < len0) {b : Nat} {s : List Bool}
    {r : Nat} (hr : 0 < r) (hc : Complete ws len0 ∨ bitDecode ws r (pend st ++ (bitsOf 8 b ++ s)) ≠ none) :
    ∃ p ∈ ws, p.2 <+: pend st ++ (bitsOf 8 b ++ s) := by
  rcases hc with hc | hc
  · have htop := hi.top h0
    cases hT : bitsOf st.bits st.buf with
    | nil => rw [hT] at htop; simp at htop
    | cons a T =>
      rw [hT] at htop
      simp at htop
      subst htop
      obtain ⟨p, hp, hpre⟩ := hc st.zc ((T ++ (bitsOf 8 b ++ s)).take 7) hz (by simp; omega)
      refine ⟨p, hp, hpre.trans ?_⟩
      rw [pend, hT, List.append_assoc]
      apply (List.prefix_append_right_inj _).mpr
      rw [List.cons_append, List.cons_prefix_cons]
      exact ⟨rfl, List.take_prefix _ _⟩
  · rcases word_or ws (pend st ++ (bitsOf 8 b ++ s)) with hn | h
    · exact absurd (bitDecode_none hn hr) hc
    · exact h

theorem NoPre.zc_lt (h : Ok ws tab len0 code0) {st : St} (hn : NoPre ws (pend st)) : st.zc < len0 := by
  apply Decidable.byContradiction
  intro hc
  apply hn _ h.zero
  refine ⟨List.replicate (st.zc - len0) false ++ bitsOf st.bits st.buf, ?_⟩
  rw [← List.append_assoc, List.replicate_append_replicate, pend]
  congr 2
  omega

theorem small_rest (h : Ok ws tab len0 code0) {P P' S : List Bool} {b : Nat} {r : Nat} {o : List Nat}
    (hn : NoPre ws P) (hr : 0 < r)
    (he : bitDecode ws r (P ++ (bitsOf 8 b ++ S)) = pre o (bitDecode ws 0 (P' ++ S))) : P'.length < 8 := by
  rw [bitDecode] at he
  have := bitDecode_rest h.pf hr hn (by rw [he]; rfl)
  simp at this
  omega

theorem noPre_zeros (h : Ok ws tab len0 code0) {z : Nat} (hz : z < len0) : NoPre ws (List.replicate z false) := by
  intro p hp hpre
  have := h.prefix_cases hp (T := []) (zc := z) (Or.inl rfl) (by simpa using hpre)
  rcases this with h1 | ⟨len, g1, g2, g3, g4⟩
  · omega
  · simp at g3
    omega

/-- Result of one iteration. -/
def IterOk (ws : List (Nat × List Bool)) (r : Nat) (P : List Bool) (bs : List UInt8)
    (res : Option (List Nat × Nat × St × List Bool)) : Prop :=
  (res = none ∧ bitDecode ws r (P ++ bytesBits bs) = none) ∨
  ∃ o r' st' bs', res = some (o, r', st', bytesBits bs') ∧ bs'.length ≤ bs.length ∧ Inv st' ∧
    bitDecode ws r (P ++ bytesBits bs) = pre o (bitDecode ws r' (pend st' ++ bytesBits bs')) ∧
    (r' = 0 ∨ NoPre ws (pend st')) ∧ (r' = 0 → bs' = bs ∨ (pend st').length < 8)

theorem boundary_spec (h : Ok ws tab len0 code0) {st : St} (hi : Inv st) (h0 : 0 < st.bits) {r : Nat}
    (hz : r = 0 ∨ st.zc < len0) (bs : List UInt8)
    (hc : Complete ws len0 ∨ bitDecode ws r (pend st ++ bytesBits bs) ≠ none) :
    IterOk ws r (pend st) bs (boundary tab len0 code0 r st (bytesBits bs)) := by
  have h50 := h.len
  by_cases hr : r = 0
  · subst hr
    right
    refine ⟨[], 0, st, bs, ?_, Nat.le_refl _, hi, by rw [pre_nil], Or.inl rfl, fun _ => Or.inl rfl⟩
    simp [boundary, boundary1]
  · have hz : st.zc < len0 := by omega
    by_cases h8 : st.zc + st.bits > 8
    · rcases lookStep_spec h hi (by omega) with ⟨k, st1, w, e1, e2, e3, e4, e5⟩ | ⟨e1, e2⟩
      · -- a code on the boundary
        have hb1 : boundary1 tab len0 code0 r st = some (k :: List.replicate (zeroLoop len0 (r - 1) st1.zc).1 code0, r - 1 - (zeroLoop len0 (r - 1) st1.zc).1,
        ⟨st1.buf, st1.bits, (zeroLoop len0 (r - 1) st1.zc).2⟩) := by
          rw [boundary1, if_pos ⟨h8, by omega⟩, e1]
        obtain ⟨z1, z2, z3, z4, z5⟩ := zeroLoop_spec h (r - 1) st1.zc
        obtain ⟨o, r', st', f1, f2, f3, f4⟩ := extract_spec h (r - 1 - (zeroLoop len0 (r - 1) st1.zc).1)
          ⟨st1.buf, st1.bits, (zeroLoop len0 (r - 1) st1.zc).2⟩ ⟨e2.bits, e2.buf, e2.top⟩ (by show (zeroLoop len0 (r - 1) st1.zc).2 < 50; omega)
        have hmid : ∀ s, bitDecode ws r (pend st ++ s) = pre (k :: List.replicate (zeroLoop len0 (r - 1) st1.zc).1 code0)
            (bitDecode ws (r - 1 - (zeroLoop len0 (r - 1) st1.zc).1) (pend ⟨st1.buf, st1.bits, (zeroLoop len0 (r - 1) st1.zc).2⟩ ++ s)) := by
          intro s
          have hr1 : r = (r - 1) + 1 := by omega
          conv => lhs; rw [hr1, e5, List.append_assoc, bitDecode_word h.pf e4]
          have := z5 (bitsOf st1.bits st1.buf ++ s)
          rw [← List.append_assoc] at this
          rw [show pend st1 = List.replicate st1.zc false ++ bitsOf st1.bits st1.buf from rfl, this, pre_pre, pend,
            List.append_assoc]
          rfl
        right
        by_cases hr1 : 0 < r - 1 - (zeroLoop len0 (r - 1) st1.zc).1
        · refine ⟨k :: List.replicate (zeroLoop len0 (r - 1) st1.zc).1 code0 ++ o, r', st', bs, ?_, Nat.le_refl _, f2, ?_, f4, fun _ => Or.inl rfl⟩
          · rw [boundary, hb1]
            simp only
            rw [if_pos ⟨by omega, hr1⟩, f1]
          · rw [hmid, f3, pre_pre]
        · refine ⟨k :: List.replicate (zeroLoop len0 (r - 1) st1.zc).1 code0, 0, ⟨st1.buf, st1.bits, (zeroLoop len0 (r - 1) st1.zc).2⟩, bs, ?_, Nat.le_refl _, ⟨e2.bits, e2.buf, e2.top⟩, ?_, Or.inl rfl, fun _ => Or.inl rfl⟩
          · rw [boundary, hb1]
            simp only
            rw [if_neg (by omega), if_neg hr1]
            congr 3
            omega
          · rw [hmid, show r - 1 - (zeroLoop len0 (r - 1) st1.zc).1 = 0 by omega]
      · -- the code goes on in the next byte
        have hn : NoPre ws (pend st) := by
          rcases e2 with e2 | e2
          · omega
          · exact e2
        have hzl : zeroLoop len0 r st.zc = (0, st.zc) := by
          obtain ⟨q, rfl⟩ : ∃ q, r = q + 1 := ⟨r - 1, by omega⟩
          rw [zeroLoop, if_neg (by omega)]
        have hb1 : boundary1 tab len0 code0 r st = some ([], r, st) := by
          rw [boundary1, if_pos ⟨h8, by omega⟩, e1]
          simp only [hzl]
          rfl
        cases bs with
        | nil =>
          left
          refine ⟨?_, ?_⟩
          · rw [boundary, hb1]
            simp only
            rw [if_neg (by omega), if_pos (by omega)]
            rfl
          · rw [bytesBits_nil, List.append_nil]
            exact bitDecode_none hn (by omega)
        | cons nb bs =>
          right
          have hex := exists_word (b := nb.toNat) (s := bytesBits bs) hi h0 hz (show 0 < r by omega) (by
            rw [bytesBits_cons] at hc
            exact hc)
          obtain ⟨o, r', st', g1, g2, g3, g4⟩ := crossExtract_spec h true hi h0 hz hn nb.toNat_lt (show 0 < r by omega) hex
          refine ⟨o, r', st', bs, ?_, by simp, g2, ?_, g4, ?_⟩
          · rw [boundary, hb1]
            simp only
            rw [if_neg (by omega), if_pos (by omega), bytesBits_cons, readByte_byteBits]
            simp only
            rw [g1]
            rfl
          · rw [bytesBits_cons]
            exact g3
          · intro hr'
            subst hr'
            right
            exact small_rest h hn (show 0 < r by omega) g3
    · obtain ⟨o, r', st', f1, f2, f3, f4⟩ := extract_spec h r st hi (by omega)
      right
      refine ⟨o, r', st', bs, ?_, Nat.le_refl _, f2, f3 _, f4, fun _ => Or.inl rfl⟩
      have hb1 : boundary1 tab len0 code0 r st = some ([], r, st) := by
        rw [boundary1, if_neg (by omega)]
      rw [boundary, hb1]
      simp only
      rw [if_pos ⟨by omega, by omega⟩, f1]
      rfl

/-- One iteration, after reading byte `b`. -/
theorem iter_spec (h : Ok ws tab len0 code0) {st : St} (hi : Inv st) {r : Nat} (hr : 0 < r)
    (hn : NoPre ws (pend st)) (b : UInt8) (bs : List UInt8)
    (hc : Complete ws len0 ∨ bitDecode ws r (pend st ++ bytesBits (b :: bs)) ≠ none) :
    (iter tab len0 code0 r st b.toNat (bytesBits bs) = none ∧ bitDecode ws r (pend st ++ bytesBits (b :: bs)) = none) ∨
    ∃ o r' st' bs', iter tab len0 code0 r st b.toNat (bytesBits bs) = some (o, r', st', bytesBits bs') ∧
      bs'.length ≤ bs.length ∧ Inv st' ∧
      bitDecode ws r (pend st ++ bytesBits (b :: bs)) = pre o (bitDecode ws r' (pend st' ++ bytesBits bs')) ∧
      (r' = 0 ∨ NoPre ws (pend st')) ∧ (r' = 0 → (pend st').length < 8) := by
  have hzc := hn.zc_lt h
  have hlt := b.toNat_lt
  have hbb : byteBits b = bitsOf 8 b.toNat := rfl
  rw [bytesBits_cons, hbb] at hc ⊢
  have hb0 := hi.bits
  have h50 := h.len
  obtain ⟨lz, l1, l2, l3, l4⟩ := leadingZeros_table 8 (by omega) b.toNat hlt
  by_cases hA : 0 < st.zc ∧ st.bits = 0
  · have hpend : pend st = List.replicate st.zc false := by
      rw [pend, hA.2]
      simp [bitsOf]
    by_cases hb : b.toNat = 0
    · right
      obtain ⟨z1, z2, z3, z4, z5⟩ := zeroLoop_spec h r (st.zc + 8)
      have heq : bitDecode ws r (pend st ++ (bitsOf 8 b.toNat ++ bytesBits bs)) =
          pre (List.replicate (zeroLoop len0 r (st.zc + 8)).1 code0) (bitDecode ws (r - (zeroLoop len0 r (st.zc + 8)).1)
            (pend ⟨b.toNat, 0, (zeroLoop len0 r (st.zc + 8)).2⟩ ++ bytesBits bs)) := by
        have := z5 (bytesBits bs)
        rw [← List.replicate_append_replicate, List.append_assoc] at this
        rw [hpend, hb, show bitsOf 8 0 = List.replicate 8 false by rfl, this, pend]
        simp [bitsOf]
      refine ⟨_, _, ⟨b.toNat, 0, (zeroLoop len0 r (st.zc + 8)).2⟩, bs, ?_, Nat.le_refl _, ⟨by simp, hlt, by simp⟩, heq, ?_, ?_⟩
      · rw [iter, if_pos hA, if_pos hb]
      · rcases z3 with z3 | z3
        · exact Or.inl z3
        · right
          have := noPre_zeros h z3
          rw [pend]
          simpa [bitsOf] using this
      · intro h0
        rw [h0] at heq
        exact small_rest h hn hr heq
    · obtain ⟨z1, z2, z3, z4, z5⟩ := zeroLoop_spec h r (st.zc + lz)
      have hlz : lz < 8 := by
        apply Decidable.byContradiction
        intro hcc
        have h8 : lz = 8 := by omega
        rw [h8] at l3
        have h1 := congrArg natOf l3
        rw [natOf_bitsOf_of_lt hlt] at h1
        simp [bitsOf] at h1
        exact hb (h1.trans (by decide))
      have hinv : Inv ⟨b.toNat, 8 - lz, (zeroLoop len0 r (st.zc + lz)).2⟩ := ⟨by simp, hlt, l4⟩
      have heq : bitDecode ws r (pend st ++ (bitsOf 8 b.toNat ++ bytesBits bs)) =
          pre (List.replicate (zeroLoop len0 r (st.zc + lz)).1 code0) (bitDecode ws (r - (zeroLoop len0 r (st.zc + lz)).1)
            (pend ⟨b.toNat, 8 - lz, (zeroLoop len0 r (st.zc + lz)).2⟩ ++ bytesBits bs)) := by
        have := z5 (bitsOf (8 - lz) b.toNat ++ bytesBits bs)
        rw [← List.replicate_append_replicate, List.append_assoc, ← List.append_assoc _ _ (bytesBits bs), ← l3] at this
        rw [hpend, this, pend, List.append_assoc]
      have hbd := boundary_spec h hinv (show 0 < 8 - lz by omega) z3 bs (by
        rcases hc with hc | hc
        · exact Or.inl hc
        · right
          intro hnone
          rw [heq, hnone] at hc
          exact hc rfl)
      rcases hbd with ⟨g1, g2⟩ | ⟨o, r', st', bs', g1, g2, g3, g4, g5, g6⟩
      · left
        refine ⟨?_, by rw [heq, g2]; rfl⟩
        rw [iter, if_pos hA, if_neg hb, l1]
        simp only
        rw [g1]
      · right
        refine ⟨_, r', st', bs', ?_, g2, g3, by rw [heq, g4, pre_pre], g5, ?_⟩
        · rw [iter, if_pos hA, if_neg hb, l1]
          simp only
          rw [g1]
        · intro h0
          rcases g6 h0 with g6 | g6
          · subst g6
            rw [h0] at g4
            exact small_rest h hn hr (by rw [heq, g4, pre_pre])
          · exact g6
  · by_cases hB : st.zc = 0 ∧ st.bits = 0
    · right
      have hpend : pend st = [] := by
        rw [pend, hB.1, hB.2]
        rfl
      obtain ⟨o, r', st', f1, f2, f3, f4⟩ := extract_spec h r ⟨b.toNat, 8 - lz, lz⟩ ⟨by simp, hlt, l4⟩ (by show lz < 50; omega)
      have heq : bitDecode ws r (pend st ++ (bitsOf 8 b.toNat ++ bytesBits bs)) = pre o (bitDecode ws r' (pend st' ++ bytesBits bs)) := by
        rw [← f3, hpend, List.nil_append, l3]
        rfl
      refine ⟨o, r', st', bs, ?_, Nat.le_refl _, f2, heq, f4, ?_⟩
      · rw [iter, if_neg hA, if_pos hB, l1]
        simp only
        rw [f1]
      · intro h0
        rw [h0] at heq
        exact small_rest h hn hr heq
    · right
      have hex := exists_word hi (show 0 < st.bits by omega) hzc hr hc
      obtain ⟨o, r', st', g1, g2, g3, g4⟩ := crossExtract_spec h false hi (by omega) hzc hn hlt hr hex
      refine ⟨o, r', st', bs, ?_, Nat.le_refl _, g2, g3, g4, ?_⟩
      · rw [iter, if_neg hA, if_neg hB, g1]
      · intro h0
        rw [h0] at g3
        exact small_rest h hn hr g3

/-- The whole loop. -/
theorem decodeLoop_spec (h : Ok ws tab len0 code0) : ∀ (n : Nat) (bs : List UInt8), bs.length = n →
    ∀ (r : Nat) (st : St), Inv st → (r = 0 ∨ NoPre ws (pend st)) → (r = 0 → (pend st).length < 8) →
      (Complete ws len0 ∨ bitDecode ws r (pend st ++ bytesBits bs) ≠ none) →
      decodeLoop tab len0 code0 r st (bytesBits bs) =
        (bitDecode ws r (pend st ++ bytesBits bs)).map fun x => (x.1, alignIn x.2) := by
  intro n
  induction n using Nat.strongRecOn with
  | _ n ih =>
    intro bs hbs r st hi hn hp hc
    rw [decodeLoop]
    by_cases hr : r = 0
    · subst hr
      rw [if_pos rfl, bitDecode]
      simp only [Option.map_some]
      rw [alignIn_pad _ _ (hp rfl) (by rw [bytesBits_length]; omega)]
    · rw [if_neg hr]
      have hn : NoPre ws (pend st) := by
        rcases hn with hn | hn
        · omega
        · exact hn
      cases bs with
      | nil =>
        rw [bytesBits_nil, List.append_nil, bitDecode_none hn (by omega)]
        rfl
      | cons b bs =>
        rw [show readByte (bytesBits (b :: bs)) = some (b, bytesBits bs) by
          rw [bytesBits_cons, readByte_byteBits]]
        simp only
        rcases iter_spec h hi (show 0 < r by omega) hn b bs hc with ⟨g1, g2⟩ | ⟨o, r', st', bs', g1, g2, g3, g4, g5, g6⟩
        · rw [g1, g2]
          rfl
        · rw [g1]
          simp only
          rw [dif_pos (by rw [bytesBits_length, bytesBits_length, List.length_cons]; omega)]
          have hc' : Complete ws len0 ∨ bitDecode ws r' (pend st' ++ bytesBits bs') ≠ none := by
            rcases hc with hc | hc
            · exact Or.inl hc
            · right
              intro hnone
              rw [g4, hnone] at hc
              exact hc rfl
          rw [ih bs'.length (by rw [← hbs, List.length_cons]; omega) bs' rfl r' st' g3 g5 g6 hc', g4]
          cases bitDecode ws r' (pend st' ++ bytesBits bs') with
          | none => rfl
          | some x => rfl
end

end Bwtc.HuffLookup
