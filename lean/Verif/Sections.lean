import Verif.Varint
import Verif.BlockHeader
import Verif.Props.Varint

/-!
# Sections of an entropy-coded block

Model of the section part of `writeBlockHeader` / `readBlockHeader`; the code is the same in
HuffmanCoders.cpp:271-313, 324-336 and WaveletCoders.cpp:173-219, 231-244.
-/

set_option autoImplicit false

namespace Bwtc.Sections

/-- The loop (HuffmanCoders.cpp:284-290): `temp` and `sum` after all of `s`.  The elements of
`temp` are `uint32`. -/
def gather : List Nat → List Nat → Nat → List Nat × Nat
  | [], temp, sum => (temp, sum)
  | x :: s, temp, sum =>
    let sum := sum + x
    if sum ≥ 10000 then gather s (temp ++ [sum % 2 ^ 32]) 0 else gather s temp sum

/-- `temp.back() += sum`. -/
def addLast : List Nat → Nat → List Nat
  | [], _ => []
  | [x], d => [(x + d) % 2 ^ 32]
  | x :: y :: l, d => x :: addLast (y :: l) d

/-- Section lengths deduced from the character counts (HuffmanCoders.cpp:282-296). -/
def sections (stats : List Nat) : List Nat :=
  let (temp, sum) := gather stats [] 0
  if sum ≠ 0 then (if temp.length > 0 then addLast temp sum else temp ++ [sum % 2 ^ 32])
  else temp

/-- Packed integers one after the other (HuffmanCoders.cpp:306-311); the bytes, and the amount added to
`headerLength`. -/
def writeLengths : List Nat → Option (List UInt8 × Nat)
  | [] => some ([], 0)
  | x :: l => do
    let (p, bytes) ← Varint.packInteger x
    let (r, n) ← writeLengths l
    return (Varint.writePacked p ++ r, bytes + n)

/-- The section table as written (HuffmanCoders.cpp:297-311); likewise. -/
def writeSections (secs : List Nat) : Option (List UInt8 × Nat) := do
  let len := if secs.length = 256 then 0 else secs.length % 256
  let (r, n) ← writeLengths secs
  return (UInt8.ofNat len :: r, 1 + n)

/-- Reading `n` packed integers (HuffmanCoders.cpp:331-334). -/
def readLengths : Nat → List Bool → Option (List Nat × List Bool)
  | 0, s => some ([], s)
  | n + 1, s => do
    let (p, s) ← Varint.readPacked s
    let x ← Varint.unpackInteger p
    let (l, s) ← readLengths n s
    return (x :: l, s)

/-- Reading the section table (HuffmanCoders.cpp:329-334). -/
def readSections (s : List Bool) : Option (List Nat × List Bool) := do
  let (b, s) ← readByte s
  readLengths (if b.toNat = 0 then 256 else b.toNat) s

/-- The header of an entropy-coded block after its six length bytes
(HuffmanCoders.cpp:271-313): starting points, then sections; the bytes and `headerLength`. -/
def writeHeader (powers stats : List Nat) : Option (List UInt8 × Nat) := do
  let (r, n) ← writeSections (sections stats)
  return (BlockHeader.writeHeader powers ++ r, BlockHeader.headerBytes powers + n)

/-- `readBlockHeader` (HuffmanCoders.cpp:324-336): length field, starting points, sections. -/
def readHeader (s : List Bool) : Option (Nat × List Nat × List Nat × List Bool) := do
  let (len, s) ← readBits 48 s
  let (ps, s) ← BlockHeader.readHeader s
  let (secs, s) ← readSections s
  return (natOf len, ps, secs, s)

/-! ## Lemmas -/

theorem gather_spec (s temp : List Nat) (sum : Nat) (h : sum + s.sum < 2 ^ 32) (hs : sum < 10000) :
    ∃ t r, gather s temp sum = (temp ++ t, r) ∧ t.sum + r = sum + s.sum ∧ (∀ x ∈ t, 10000 ≤ x) ∧
      r < 10000 ∧ t.length ≤ s.length ∧ (∀ x ∈ t, x + r ≤ sum + s.sum) := by
  induction s generalizing temp sum with
  | nil => exact ⟨[], sum, by simp [gather], by simp, by simp, hs, by simp, by simp⟩
  | cons x s ih =>
    simp only [List.sum_cons] at h
    unfold gather
    simp only
    split
    · rename_i hge
      obtain ⟨t, r, e1, e2, e3, e4, e5, e6⟩ := ih (temp ++ [(sum + x) % 2 ^ 32]) 0 (by omega) (by omega)
      have hm : (sum + x) % 2 ^ 32 = sum + x := Nat.mod_eq_of_lt (by omega)
      rw [hm] at e1
      refine ⟨(sum + x) :: t, r, by rw [hm, e1]; simp, ?_, ?_, e4, by simp; omega, ?_⟩
      · simp only [List.sum_cons]; omega
      · intro y hy
        rcases List.mem_cons.mp hy with rfl | hy
        · omega
        · exact e3 y hy
      · intro y hy
        simp only [List.sum_cons]
        rcases List.mem_cons.mp hy with rfl | hy
        · omega
        · have := e6 y hy; omega
    · obtain ⟨t, r, e1, e2, e3, e4, e5, e6⟩ := ih temp (sum + x) (by omega) (by omega)
      refine ⟨t, r, e1, ?_, e3, e4, by simp; omega, ?_⟩
      · simp only [List.sum_cons]; omega
      · intro y hy
        have := e6 y hy
        simp only [List.sum_cons]; omega

theorem addLast_spec (l : List Nat) (d : Nat) (h : l ≠ []) (hb : ∀ x ∈ l, x + d < 2 ^ 32) :
    (addLast l d).sum = l.sum + d ∧ (addLast l d).length = l.length ∧
      ∀ k, (∀ x ∈ l, k ≤ x) → ∀ x ∈ addLast l d, k ≤ x := by
  induction l with
  | nil => exact absurd rfl h
  | cons x l ih =>
    cases l with
    | nil =>
      have := hb x (by simp)
      have hm : (x + d) % 2 ^ 32 = x + d := Nat.mod_eq_of_lt (by omega)
      simp only [addLast, hm]
      refine ⟨by simp, by simp, ?_⟩
      intro k hk y hy
      simp at hk hy
      omega
    | cons y l =>
      obtain ⟨e1, e2, e3⟩ := ih (by simp) (fun z hz => hb z (List.mem_cons_of_mem _ hz))
      refine ⟨?_, ?_, ?_⟩
      · simp only [addLast, List.sum_cons] at e1 ⊢; omega
      · simp only [addLast, List.length_cons] at e2 ⊢; omega
      · intro k hk z hz
        simp only [addLast] at hz
        rcases List.mem_cons.mp hz with rfl | hz
        · exact hk _ (by simp)
        · exact e3 k (fun w hw => hk w (List.mem_cons_of_mem _ hw)) z hz

theorem sections_spec (stats : List Nat) (h : stats.sum < 2 ^ 32) :
    (sections stats).sum = stats.sum ∧ (∀ x ∈ sections stats, 0 < x) ∧
      (1 < (sections stats).length → ∀ x ∈ sections stats, 10000 ≤ x) ∧
      (sections stats).length ≤ max stats.length (if stats.sum = 0 then 0 else 1) ∧
      (0 < stats.sum → sections stats ≠ []) := by
  obtain ⟨t, r, e1, e2, e3, e4, e5, e6⟩ := gather_spec stats [] 0 (by omega) (by omega)
  simp only [List.nil_append, Nat.zero_add] at e1 e2 e6
  unfold sections
  rw [e1]
  simp only
  by_cases hr : r = 0
  · subst hr
    simp only [ne_eq, not_true_eq_false, if_false]
    refine ⟨by omega, fun x hx => by have := e3 x hx; omega, fun _ => e3, by omega, ?_⟩
    intro hp hc
    subst hc
    simp at e2
    omega
  · rw [if_pos hr]
    cases t with
    | nil =>
      simp only [List.length_nil, gt_iff_lt, Nat.lt_irrefl, if_false, List.nil_append]
      have hm : r % 2 ^ 32 = r := Nat.mod_eq_of_lt (by omega)
      rw [hm]
      refine ⟨by simpa using e2, by simp; omega, by simp, ?_, by simp⟩
      rw [if_neg (by simp at e2; omega)]
      simp
      omega
    | cons y t =>
      rw [if_pos (by simp)]
      obtain ⟨f1, f2, f3⟩ := addLast_spec (y :: t) r (by simp) (fun x hx => by have := e6 x hx; omega)
      refine ⟨by omega, ?_, ?_, by omega, ?_⟩
      · intro x hx
        have := f3 10000 e3 x hx
        omega
      · intro _ x hx
        exact f3 10000 e3 x hx
      · intro _ hc
        rw [hc] at f2
        simp at f2

theorem readLengths_write (l : List Nat) (h : ∀ x ∈ l, x < 2 ^ 56) :
    ∃ w, writeLengths l = some (w, w.length) ∧ ∀ rest, readLengths l.length (bytesBits w ++ rest) = some (l, rest) := by
  induction l with
  | nil => exact ⟨[], rfl, fun rest => rfl⟩
  | cons x l ih =>
    obtain ⟨w, e1, e2⟩ := ih (fun y hy => h y (List.mem_cons_of_mem _ hy))
    obtain ⟨p, k, f1, f2, f3, f4, f5, f6, f7, f8⟩ :=
      Props.C01_packed_integer_roundtrip x (h x List.mem_cons_self)
    refine ⟨Varint.writePacked p ++ w, by simp [writeLengths, f1, e1, f6], ?_⟩
    intro rest
    rw [bytesBits_append, List.append_assoc]
    simp only [List.length_cons, readLengths, (f8 (bytesBits w ++ rest)).1, Option.bind_eq_bind,
      Option.bind_some, f2, e2]
    rfl

theorem readSections_write (l : List Nat) (h : ∀ x ∈ l, x < 2 ^ 56) (h1 : l ≠ []) (h2 : l.length ≤ 256) :
    ∃ w, writeSections l = some (w, w.length) ∧ ∀ rest, readSections (bytesBits w ++ rest) = some (l, rest) := by
  obtain ⟨w, e1, e2⟩ := readLengths_write l h
  have hpos : 0 < l.length := List.length_pos_iff.mpr h1
  refine ⟨UInt8.ofNat (if l.length = 256 then 0 else l.length % 256) :: w,
    by simp [writeSections, e1, Nat.add_comm], ?_⟩
  intro rest
  have hn : (if (UInt8.ofNat (if l.length = 256 then 0 else l.length % 256)).toNat = 0 then 256
      else (UInt8.ofNat (if l.length = 256 then 0 else l.length % 256)).toNat) = l.length := by
    rw [UInt8.toNat_ofNat']
    by_cases hc : l.length = 256
    · simp [hc]
    · simp only [hc, if_false]
      rw [if_neg (by omega)]
      omega
  simp only [readSections, bytesBits_cons, List.append_assoc, readByte_byteBits, Option.bind_eq_bind,
    Option.bind_some, hn, e2]

theorem le_sum {l : List Nat} {x : Nat} (h : x ∈ l) : x ≤ l.sum := by
  induction l with
  | nil => simp at h
  | cons y l ih =>
    rw [List.sum_cons]
    rcases List.mem_cons.mp h with rfl | h
    · omega
    · have := ih h; omega

theorem readHeader_write (powers stats : List Nat) (h1 : 1 ≤ powers.length) (h2 : powers.length ≤ 256)
    (h3 : ∀ p ∈ powers, p < 2 ^ 31) (h4 : 0 < stats.sum) (h5 : stats.sum < 2 ^ 32)
    (h6 : stats.length ≤ 256) :
    ∃ w, writeHeader powers stats = some (w, w.length) ∧ ∀ (len : Nat) (rest : List Bool), len < 2 ^ 48 →
      rest.length % 8 = 0 →
      readHeader (bitsOf 48 len ++ bytesBits w ++ rest) = some (len, powers, sections stats, rest) := by
  obtain ⟨s1, s2, s3, s4, s5⟩ := sections_spec stats h5
  have hle : ∀ x ∈ sections stats, x ≤ (sections stats).sum := fun x hx => le_sum hx
  obtain ⟨w, e1, e2⟩ := readSections_write (sections stats)
    (fun x hx => by have := hle x hx; omega) (s5 h4) (by
      rw [if_neg (by omega)] at s4
      omega)
  refine ⟨BlockHeader.writeHeader powers ++ w,
    by simp [writeHeader, e1, BlockHeader.headerBytes_eq], ?_⟩
  intro len rest hlen hr
  have hb := BlockHeader.readHeader_writeHeader powers h1 h2 h3 (bytesBits w ++ rest)
    (by simp [bytesBits_length]; omega)
  simp only [readHeader, List.append_assoc, bytesBits_append]
  rw [readBits_append' (bitsOf_length _ _)]
  simp only [Option.bind_eq_bind, Option.bind_some, hb, e2, Option.pure_def, natOf_bitsOf_of_lt hlen]

/-- The bytes counted for a packed integer are those written. -/
theorem packInteger_size {x p k : Nat} (h : Varint.packInteger x = some (p, k)) :
    (Varint.writePacked p).length = k ∧ (Varint.writeCounted k p).length = k := by
  by_cases hx : x < 2 ^ 56
  · obtain ⟨p', k', h1, _, _, _, _, h2, h3, _⟩ := Props.C01_packed_integer_roundtrip x hx
    rw [h, Option.some.injEq, Prod.mk.injEq] at h1
    obtain ⟨rfl, rfl⟩ := h1
    exact ⟨h2, by rw [h3, h2]⟩
  · rw [Props.C01_limit_is_sharp x (by omega)] at h
    cases h

theorem writeLengths_size : ∀ {l : List Nat} {w : List UInt8} {n : Nat}, writeLengths l = some (w, n) → n = w.length := by
  intro l
  induction l with
  | nil =>
    intro w n h
    simp only [writeLengths, Option.some.injEq, Prod.mk.injEq] at h
    rw [← h.1, ← h.2]
    rfl
  | cons x l ih =>
    intro w n h
    simp only [writeLengths, Option.bind_eq_bind, Option.bind_eq_some_iff, Option.pure_def, Option.some.injEq,
      Prod.mk.injEq] at h
    obtain ⟨⟨p, k⟩, h1, ⟨r, m⟩, h2, rfl, rfl⟩ := h
    rw [List.length_append, (packInteger_size h1).1, ih h2]

/-- The header counts its bytes. -/
theorem writeHeader_size {powers stats : List Nat} {w : List UInt8} {n : Nat} (h : writeHeader powers stats = some (w, n)) :
    n = w.length := by
  simp only [writeHeader, writeSections, Option.bind_eq_bind, Option.bind_eq_some_iff, Option.pure_def, Option.some.injEq,
      Prod.mk.injEq] at h
  obtain ⟨⟨r, m⟩, ⟨⟨r', m'⟩, h1, rfl, rfl⟩, rfl, rfl⟩ := h
  rw [List.length_append, BlockHeader.headerBytes_eq, writeLengths_size h1, List.length_cons]
  simp only
  omega

end Bwtc.Sections
