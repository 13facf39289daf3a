import Verif.Basic
import Verif.Varint

/-!
# Table-driven Huffman decoding

Model of the lookup tables and of the decoding loop of `HuffmanDecoder::decodeBlock`
(HuffmanCoders.cpp:373-586).
-/

set_option autoImplicit false

namespace Bwtc.HuffLookup

/-- `leadingZeros[p][k]` (HuffmanCoders.cpp:389-396); `none`: outside the array. -/
def leadingZeros (p k : Nat) : Option Nat :=
  if p ≤ 8 then
    some ((List.range p).foldl (fun r t => if k &&& (1 <<< t) ≠ 0 then p - t - 1 else r) p)
  else none

/-- `max_non0_bit` after its increment (HuffmanCoders.cpp:400-404). -/
def bitLen (code : Nat) : Nat :=
  (List.range 16).foldl (fun m j => if code &&& (1 <<< j) ≠ 0 then j else m) 0 + 1

/-- `lookupWhich` and `lookupLength` (HuffmanCoders.cpp:382, 386): symbol and number of bits;
`none` stands for `lookupWhich == 256` (the length is then uninitialised). -/
abbrev Table := Nat → Nat → Option (Nat × Nat)

/-- The inner loop writing `1 << rest` consecutive entries (HuffmanCoders.cpp:407-410), as its
effect on the table. -/
def fill (lead0 start count k len : Nat) (tab : Table) : Table := fun z x =>
  if z = lead0 ∧ start ≤ x ∧ x < start + count then some (k, len) else tab z x

/-- The loop over the symbols (HuffmanCoders.cpp:399-411), entries (symbol, length, code).
`none`: a negative or too large row, a negative shift or an entry outside the row. -/
def build : List (Nat × Nat × Nat) → Table → Option Table
  | [], tab => some tab
  | (k, l, c) :: es, tab =>
    if l ≠ 0 ∧ c ≠ 0 then
      if bitLen c ≤ l ∧ l - bitLen c < 50 ∧ bitLen c ≤ 8 ∧
          (c <<< (8 - bitLen c)) + (1 <<< (8 - bitLen c)) ≤ 256 then
        build es (fill (l - bitLen c) (c <<< (8 - bitLen c)) (1 <<< (8 - bitLen c)) k (bitLen c) tab)
      else none
    else build es tab

/-- The entries of the arrays `clen` and `code`. -/
def entries (clen code : List Nat) : List (Nat × Nat × Nat) :=
  (clen.zip code).zipIdx.map fun e => (e.2, e.1.1, e.1.2)

/-- `len0` and `code0` (HuffmanCoders.cpp:414-421). -/
def zeroCode (es : List (Nat × Nat × Nat)) : Nat × Nat :=
  es.foldl (fun r e => if 0 < e.2.1 ∧ e.2.2 = 0 then (e.2.1, e.1) else r) (0, 0)

/-- `buffer`, `bitsInBuffer` and `zeroCount`. -/
structure St where
  buf : Nat
  bits : Nat
  zc : Nat

/-- A table access: rows 0..49 exist. -/
def look (tab : Table) (z x : Nat) : Option (Option (Nat × Nat)) :=
  if z < 50 then some (tab z x) else none

/-- The loop emitting the all-zero code (HuffmanCoders.cpp:435-438 and its copies): number of
symbols emitted, of the at most `r` still wanted, and the new `zeroCount`. -/
def zeroLoop (len0 : Nat) : Nat → Nat → Nat × Nat
  | 0, zc => (0, zc)
  | r + 1, zc =>
    if len0 ≤ zc then ((zeroLoop len0 r (zc - len0)).1 + 1, (zeroLoop len0 r (zc - len0)).2) else (0, zc)

/-- One lookup of a code ending inside the buffer (HuffmanCoders.cpp:469-477 and its copies):
the symbol found, if any, and the new state. -/
def lookStep (tab : Table) (st : St) : Option (Option Nat × St) :=
  if st.bits ≤ 8 then
    match look tab st.zc ((st.buf <<< (8 - st.bits)) % 256) with
    | none => none
    | some none => some (none, st)
    | some (some (k, len)) =>
      if len ≤ st.bits then
        match leadingZeros (st.bits - len) st.buf with
        | none => none
        | some z => some (some k, ⟨st.buf &&& ((1 <<< (st.bits - len - z)) - 1), st.bits - len - z, z⟩)
      else some (none, st)
  else none

/-- The "extract codes" loop (HuffmanCoders.cpp:468-483, 505-520, 531-548, 564-582): symbols
emitted, number of symbols still wanted, and the new state. -/
def extract (tab : Table) (len0 code0 : Nat) (r : Nat) (st : St) : Option (List Nat × Nat × St) :=
  match r with
  | 0 => some ([], 0, st)
  | r + 1 =>
    match lookStep tab st with
    | none => none
    | some (some k, st1) =>
      match extract tab len0 code0 (r - (zeroLoop len0 r st1.zc).1) ⟨st1.buf, st1.bits, (zeroLoop len0 r st1.zc).2⟩ with
      | none => none
      | some (o, r', st') => some (k :: List.replicate (zeroLoop len0 r st1.zc).1 code0 ++ o, r', st')
    | some (none, st1) =>
      if _h : (zeroLoop len0 (r + 1) st1.zc).1 = 0 then some ([], r + 1, st1)
      else
        match extract tab len0 code0 (r + 1 - (zeroLoop len0 (r + 1) st1.zc).1)
            ⟨st1.buf, st1.bits, (zeroLoop len0 (r + 1) st1.zc).2⟩ with
        | none => none
        | some (o, r', st') => some (List.replicate (zeroLoop len0 (r + 1) st1.zc).1 code0 ++ o, r', st')
termination_by r
decreasing_by all_goals omega

/-- A code that starts in the buffer and ends in the next byte `b`
(HuffmanCoders.cpp:494-502 and 554-561): its symbol and the new state.  A missing table entry
(the assertions in lines 496 and 555) is `none`.  In the first copy `buffer` keeps the
bits that line 502 was meant to clear; `keep` selects that behaviour. -/
def cross (keep : Bool) (tab : Table) (st : St) (b : Nat) : Option (Nat × St) :=
  if st.bits ≤ 8 then
    match look tab st.zc (((st.buf <<< (8 - st.bits)) ||| (b >>> st.bits)) % 256) with
    | some (some (k, len)) =>
      match leadingZeros (st.bits + (8 - len)) b with
      | none => none
      | some z =>
        some (k, ⟨if keep then b else b &&& ((1 <<< (st.bits + (8 - len) - z)) - 1), st.bits + (8 - len) - z, z⟩)
    | _ => none
  else none

/-- `cross` followed by extraction (HuffmanCoders.cpp:494-521, 554-583). -/
def crossExtract (keep : Bool) (tab : Table) (len0 code0 r : Nat) (st : St) (b : Nat) :
    Option (List Nat × Nat × St) :=
  match cross keep tab st b with
  | none => none
  | some (k, st1) =>
    match extract tab len0 code0 (r - 1) st1 with
    | none => none
    | some (o, r', st') => some (k :: o, r', st')

/-- The code on the boundary of the previous byte (HuffmanCoders.cpp:450-464), with `r` symbols
still wanted. -/
def boundary1 (tab : Table) (len0 code0 r : Nat) (st : St) : Option (List Nat × Nat × St) :=
  if st.zc + st.bits > 8 ∧ 0 < r then
    match lookStep tab st with
    | none => none
    | some (some k, st1) =>
      some (k :: List.replicate (zeroLoop len0 (r - 1) st1.zc).1 code0, r - 1 - (zeroLoop len0 (r - 1) st1.zc).1,
        ⟨st1.buf, st1.bits, (zeroLoop len0 (r - 1) st1.zc).2⟩)
    | some (none, st1) =>
      some (List.replicate (zeroLoop len0 r st1.zc).1 code0, r - (zeroLoop len0 r st1.zc).1,
        ⟨st1.buf, st1.bits, (zeroLoop len0 r st1.zc).2⟩)
  else some ([], r, st)

/-- The part of the first branch after the code 0s have been extracted
(HuffmanCoders.cpp:449-522), with `r` symbols still wanted and remaining input `s`. -/
def boundary (tab : Table) (len0 code0 r : Nat) (st : St) (s : List Bool) :
    Option (List Nat × Nat × St × List Bool) :=
  match boundary1 tab len0 code0 r st with
  | none => none
  | some (o1, r1, st1) =>
    if st1.zc + st1.bits ≤ 8 ∧ 0 < r1 then
      match extract tab len0 code0 r1 st1 with
      | none => none
      | some (o, r', st') => some (o1 ++ o, r', st', s)
    else if 0 < r1 then
      match readByte s with
      | none => none
      | some (nextb, s) =>
        match crossExtract true tab len0 code0 r1 st1 nextb.toNat with
        | none => none
        | some (o, r', st') => some (o1 ++ o, r', st', s)
    else some (o1, r1, st1, s)

/-- One iteration of the decoding loop (HuffmanCoders.cpp:428-584) after reading `b`, with `r ≥ 1`
symbols wanted. -/
def iter (tab : Table) (len0 code0 r : Nat) (st : St) (b : Nat) (s : List Bool) :
    Option (List Nat × Nat × St × List Bool) :=
  if 0 < st.zc ∧ st.bits = 0 then
    if b = 0 then
      let z := zeroLoop len0 r (st.zc + 8)
      some (List.replicate z.1 code0, r - z.1, ⟨b, 0, z.2⟩, s)
    else
      match leadingZeros 8 b with
      | none => none
      | some lz =>
        let z := zeroLoop len0 r (st.zc + lz)
        match boundary tab len0 code0 (r - z.1) ⟨b, 8 - lz, z.2⟩ s with
        | none => none
        | some (o, r', st', s) => some (List.replicate z.1 code0 ++ o, r', st', s)
  else if st.zc = 0 ∧ st.bits = 0 then
    match leadingZeros 8 b with
    | none => none
    | some lz =>
      match extract tab len0 code0 r ⟨b, 8 - lz, lz⟩ with
      | none => none
      | some (o, r', st') => some (o, r', st', s)
  else
    match crossExtract false tab len0 code0 r st b with
    | none => none
    | some (o, r', st') => some (o, r', st', s)

/-- The decoding loop (HuffmanCoders.cpp:427-585): the symbols and the remaining input.  The
test on the length of the remaining input always succeeds (`iter` only removes bytes). -/
def decodeLoop (tab : Table) (len0 code0 : Nat) (r : Nat) (st : St) (s : List Bool) :
    Option (List Nat × List Bool) :=
  if r = 0 then some ([], s)
  else
    match readByte s with
    | none => none
    | some (b, s1) =>
      match iter tab len0 code0 r st b.toNat s1 with
      | none => none
      | some (o, r', st', s2) =>
        if _h : s2.length < s.length then
          match decodeLoop tab len0 code0 r' st' s2 with
          | none => none
          | some (o', s3) => some (o ++ o', s3)
        else none
termination_by s.length

/-- Decoding `n` symbols (HuffmanCoders.cpp:397-586); `haveDecoded` is 32 bits wide, `n` is
assumed below `2^32`. -/
def decode (clen code : List Nat) (n : Nat) (s : List Bool) : Option (List Nat × List Bool) :=
  match build (entries clen code) (fun _ _ => none) with
  | none => none
  | some tab =>
    match decodeLoop tab (zeroCode (entries clen code)).1 (zeroCode (entries clen code)).2 n ⟨0, 0, 0⟩ s with
    | none => none
    | some (o, s) => some (o, alignIn s)

/-! ## Specification: matching codewords bit by bit -/

/-- Codewords of a pair of tables: `clen[k]` bits of `code[k]` for every used symbol `k`. -/
def words (clen code : List Nat) : List (Nat × List Bool) :=
  ((entries clen code).filter fun e => 0 < e.2.1).map fun e => (e.1, bitsOf e.2.1 e.2.2)

/-- Read bits until the bits read are a codeword. -/
def bitMatch (ws : List (Nat × List Bool)) (acc : List Bool) (s : List Bool) : Option (Nat × List Bool) :=
  match ws.find? (fun p => p.2 == acc) with
  | some p => some (p.1, s)
  | none =>
    match s with
    | [] => none
    | b :: s => bitMatch ws (acc ++ [b]) s

/-- Decode `n` symbols bit by bit. -/
def bitDecode (ws : List (Nat × List Bool)) : Nat → List Bool → Option (List Nat × List Bool)
  | 0, s => some ([], s)
  | n + 1, s =>
    match bitMatch ws [] s with
    | none => none
    | some (k, s) =>
      match bitDecode ws n s with
      | none => none
      | some (o, s) => some (k :: o, s)

/-! ## Lemmas about the specification -/

/-- No codeword is a prefix of another one, and none is empty. -/
def PF (ws : List (Nat × List Bool)) : Prop :=
  (∀ p ∈ ws, ∀ q ∈ ws, p.2 <+: q.2 → p = q) ∧ ∀ p ∈ ws, p.2 ≠ []

/-- No codeword is a prefix of the bits. -/
def NoPre (ws : List (Nat × List Bool)) (s : List Bool) : Prop := ∀ p ∈ ws, ¬ p.2 <+: s

theorem bitMatch_word {ws : List (Nat × List Bool)} (h : PF ws) {k : Nat} {w : List Bool}
    (hw : (k, w) ∈ ws) (s : List Bool) : bitMatch ws [] (w ++ s) = some (k, s) := by
  have gen : ∀ (t acc : List Bool), acc ++ t = w → bitMatch ws acc (t ++ s) = some (k, s) := by
    intro t
    induction t with
    | nil =>
      intro acc e
      rw [List.append_nil] at e
      subst e
      rw [bitMatch.eq_def]
      cases hf : ws.find? (fun p => p.2 == acc) with
      | none =>
        rw [List.find?_eq_none] at hf
        exact absurd (by simp) (hf _ hw)
      | some p =>
        have h1 := List.find?_some hf
        have h2 := List.mem_of_find?_eq_some hf
        simp at h1
        have := h.1 p h2 _ hw (by rw [h1]; exact List.prefix_refl _)
        rw [this]
        rfl
    | cons b t ih =>
      intro acc e
      rw [bitMatch.eq_def]
      cases hf : ws.find? (fun p => p.2 == acc) with
      | none =>
        rw [List.cons_append]
        exact ih (acc ++ [b]) (by simpa using e)
      | some p =>
        have h1 := List.find?_some hf
        have h2 := List.mem_of_find?_eq_some hf
        simp at h1
        have h3 := h.1 p h2 _ hw (by rw [h1, ← e]; exact List.prefix_append _ _)
        rw [h3] at h1
        simp only at h1
        rw [← e] at h1
        have := congrArg List.length h1
        simp at this
  exact gen w [] rfl

theorem bitMatch_none {ws : List (Nat × List Bool)} {s : List Bool} (h : NoPre ws s) :
    bitMatch ws [] s = none := by
  have gen : ∀ (s acc : List Bool), NoPre ws (acc ++ s) → bitMatch ws acc s = none := by
    intro s
    induction s with
    | nil =>
      intro acc h
      rw [bitMatch.eq_def]
      cases hf : ws.find? (fun p => p.2 == acc) with
      | none => rfl
      | some p =>
        have h1 := List.find?_some hf
        have h2 := List.mem_of_find?_eq_some hf
        simp at h1
        exact absurd (by rw [h1]; exact List.prefix_append _ _) (h p h2)
    | cons b s ih =>
      intro acc h
      rw [bitMatch.eq_def]
      cases hf : ws.find? (fun p => p.2 == acc) with
      | none => exact ih (acc ++ [b]) (by simpa using h)
      | some p =>
        have h1 := List.find?_some hf
        have h2 := List.mem_of_find?_eq_some hf
        simp at h1
        exact absurd (by rw [h1]; exact List.prefix_append _ _) (h p h2)
  exact gen s [] h

/-- Prepending symbols to a result. -/
def pre (o : List Nat) (r : Option (List Nat × List Bool)) : Option (List Nat × List Bool) :=
  r.map fun x => (o ++ x.1, x.2)

theorem pre_pre (o o' : List Nat) (r : Option (List Nat × List Bool)) : pre o (pre o' r) = pre (o ++ o') r := by
  cases r <;> simp [pre]

theorem pre_nil (r : Option (List Nat × List Bool)) : pre [] r = r := by
  cases r <;> simp [pre]

theorem bitDecode_word {ws : List (Nat × List Bool)} (h : PF ws) {k : Nat} {w : List Bool}
    (hw : (k, w) ∈ ws) (n : Nat) (s : List Bool) :
    bitDecode ws (n + 1) (w ++ s) = pre [k] (bitDecode ws n s) := by
  rw [bitDecode, bitMatch_word h hw]
  simp only
  cases bitDecode ws n s <;> rfl

theorem bitDecode_none {ws : List (Nat × List Bool)} {n : Nat} {s : List Bool} (h : NoPre ws s) (hn : 0 < n) :
    bitDecode ws n s = none := by
  cases n with
  | zero => omega
  | succ n => rw [bitDecode, bitMatch_none h]

theorem NoPre.mono {ws : List (Nat × List Bool)} {a b : List Bool} (h : NoPre ws b) (hab : a <+: b) :
    NoPre ws a := fun p hp hc => h p hp (hc.trans hab)

/-- Either some codeword is a prefix or none is. -/
theorem word_or (ws : List (Nat × List Bool)) (s : List Bool) :
    NoPre ws s ∨ ∃ p ∈ ws, p.2 <+: s := by
  by_cases h : ∃ p ∈ ws, p.2 <+: s
  · exact Or.inr h
  · refine Or.inl ?_
    intro p hp hc
    exact h ⟨p, hp, hc⟩

/-- The unread part is shorter than `s` if the first codeword goes beyond `P`. -/
theorem bitDecode_rest {ws : List (Nat × List Bool)} (h : PF ws) {n : Nat} (hn : 0 < n)
    {P s : List Bool} (hP : NoPre ws P) {o : List Nat} {rest : List Bool}
    (hd : bitDecode ws n (P ++ s) = some (o, rest)) : rest.length < s.length := by
  have gen : ∀ (n : Nat) (s : List Bool) (o : List Nat) (rest : List Bool),
      bitDecode ws n s = some (o, rest) → rest.length ≤ s.length := by
    intro n
    induction n with
    | zero =>
      intro s o rest hd
      simp [bitDecode] at hd
      simp [hd.2]
    | succ n ih =>
      intro s o rest hd
      rcases word_or ws s with h0 | ⟨p, hp, t, ht⟩
      · rw [bitDecode_none h0 (by omega)] at hd
        exact absurd hd (by simp)
      · rw [← ht, bitDecode_word h (k := p.1) (w := p.2) hp] at hd
        cases hb : bitDecode ws n t with
        | none => rw [hb] at hd; exact absurd hd (by simp [pre])
        | some x =>
          rw [hb] at hd
          simp [pre] at hd
          have := ih t x.1 x.2 hb
          rw [← hd.2, ← ht]
          simp
          omega
  cases n with
  | zero => omega
  | succ n =>
    rcases word_or ws (P ++ s) with h0 | ⟨p, hp, t, ht⟩
    · rw [bitDecode_none h0 (by omega)] at hd
      exact absurd hd (by simp)
    · have hlen : P.length < p.2.length := by
        apply Decidable.byContradiction
        intro hc
        apply hP p hp
        have : p.2 <+: P ++ s := ⟨t, ht⟩
        exact List.prefix_of_prefix_length_le this (List.prefix_append _ _) (by omega)
      rw [← ht, bitDecode_word h (k := p.1) (w := p.2) hp] at hd
      cases hb : bitDecode ws n t with
      | none => rw [hb] at hd; exact absurd hd (by simp [pre])
      | some x =>
        rw [hb] at hd
        simp [pre] at hd
        have h1 := gen n t x.1 x.2 hb
        rw [← hd.2]
        have := congrArg List.length ht
        simp at this
        omega

/-! ## Lemmas about the tables -/

theorem bitLen_eq : ∀ c, c < 256 → c ≠ 0 → bitLen c = c.log2 + 1 := by decide +kernel

theorem leadingZeros_table : ∀ p, p < 9 → ∀ b, b < 256 → ∃ z, leadingZeros p b = some z ∧ z ≤ p ∧
    bitsOf p b = List.replicate z false ++ bitsOf (p - z) b ∧ (0 < p - z → (bitsOf (p - z) b).head? = some true) := by
  have h : ∀ p, p < 9 → ∀ b, b < 256 → (leadingZeros p b).any (fun z => decide (z ≤ p ∧
      bitsOf p b = List.replicate z false ++ bitsOf (p - z) b ∧
        (0 < p - z → (bitsOf (p - z) b).head? = some true))) = true := by decide +kernel
  intro p hp b hb
  have := h p hp b hb
  cases hz : leadingZeros p b with
  | none => rw [hz] at this; simp at this
  | some z =>
    rw [hz, Option.any_some, decide_eq_true_eq] at this
    exact ⟨z, rfl, this⟩

end Bwtc.HuffLookup
