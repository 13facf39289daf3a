import Verif.BitCodes
import Verif.Varint

/-!
# Serialisation of Huffman code lengths

Model of `HuffmanEncoder::serializeShape` and `HuffmanDecoder::deserializeShape`
(HuffmanCoders.cpp:63-117).
-/

set_option autoImplicit false

namespace Bwtc.HuffShape
open Varint BitCodes

/-- Pairs (length, symbol) of the used symbols in increasing order of symbol
(HuffmanCoders.cpp:66-72). -/
def usedPairs (clen : List Nat) : List (Nat × Nat) := clen.zipIdx.filter fun p => 0 < p.1

/-- `maxLen` of the scanning loop (HuffmanCoders.cpp:64, 70). -/
def maxLenOf (clen : List Nat) : Nat := clen.foldl max 0

/-- `serializeShape` (HuffmanCoders.cpp:63-86): the bits appended to `vec`.
`symbols.back()` of an empty vector is undefined. -/
def serializeShape (clen : List Nat) : Option (List Bool) := do
  let ps := usedPairs clen
  let symbols := ps.map (·.2)
  let back ← symbols.getLast?
  let maxLen := maxLenOf clen
  let (packed, bytes) ← packInteger maxLen
  let alpha ← interpCode0 symbols back
  return bitsOf 8 back ++ bitsOf 8 symbols.length ++ bitsOf (bytes * 8) packed ++ alpha ++
    ps.flatMap fun p => unaryCode (maxLen - p.1 + 1)

/-- `table[i] = v` on an array: `none` outside of it. -/
def setAt (t : List Nat) (i v : Nat) : Option (List Nat) :=
  if i < t.length then some (t.set i v) else none

/-- The loop over the alphabet (HuffmanCoders.cpp:108-113): `k` more symbols; `len` is a
64-bit difference stored in 32 bits.  Reading `alphabet[i]` past the end is undefined. -/
def readLens (maxLen : Nat) : Nat → List Nat → List Nat → Nat → List Bool →
    Option (List Nat × Nat × List Bool)
  | 0, _, t, bits, s => some (t, bits, s)
  | _ + 1, [], _, _, _ => none
  | k + 1, a :: as, t, bits, s => do
    let (n, s) ← unaryDecode s
    let t ← setAt t a ((usub maxLen n + 1) % 2 ^ 32)
    readLens maxLen k as t (bits + n) s

/-- `deserializeShape` (HuffmanCoders.cpp:88-117) on the table `clen`: the new table, the
returned number of bytes, and the remaining input. -/
def deserializeShape (t : List Nat) (s : List Bool) : Option (List Nat × Nat × List Bool) := do
  let (maxSym, s) ← readByte s
  let (symbols, s) ← readByte s
  let symbols := if symbols.toNat = 0 then 256 else symbols.toNat
  let (maxLen, bytes, s) ← readVar s
  let (alphabet, n, s) ← interpDecode 256 0 maxSym.toNat symbols s
  let (t, bits, s) ← readLens maxLen symbols alphabet t (16 + 8 * bytes + n) s
  return (t, (bits + 7) / 8, alignIn s)

/-! ## Lemmas -/

theorem le_foldl_max (l : List Nat) (a : Nat) : a ≤ l.foldl max a ∧ ∀ x ∈ l, x ≤ l.foldl max a := by
  induction l generalizing a with
  | nil => simp
  | cons b l ih =>
    obtain ⟨h1, h2⟩ := ih (max a b)
    rw [List.foldl_cons]
    refine ⟨by omega, ?_⟩
    intro x hx
    rcases List.mem_cons.mp hx with rfl | hx
    · omega
    · exact h2 x hx

theorem foldl_max_le (l : List Nat) (a b : Nat) (ha : a ≤ b) (h : ∀ x ∈ l, x ≤ b) : l.foldl max a ≤ b := by
  induction l generalizing a with
  | nil => simpa
  | cons c l ih =>
    rw [List.foldl_cons]
    have := h c (by simp)
    exact ih _ (by omega) (fun x hx => h x (by simp [hx]))

theorem le_maxLenOf {clen : List Nat} {l : Nat} (h : l ∈ clen) : l ≤ maxLenOf clen :=
  (le_foldl_max clen 0).2 l h

theorem maxLenOf_le {clen : List Nat} {b : Nat} (h : ∀ l ∈ clen, l ≤ b) : maxLenOf clen ≤ b :=
  foldl_max_le clen 0 b (Nat.zero_le _) h

theorem mem_usedPairs {clen : List Nat} {p : Nat × Nat} :
    p ∈ usedPairs clen ↔ clen[p.2]? = some p.1 ∧ 0 < p.1 := by
  rw [usedPairs, List.mem_filter, List.mem_zipIdx_iff_getElem?]
  simp

theorem zipIdx_snd_sorted (l : List Nat) : ∀ k, ((l.zipIdx k).map (·.2)).Pairwise (· < ·) := by
  intro k
  have : (l.zipIdx k).map (·.2) = List.range' k l.length := by
    induction l generalizing k with
    | nil => rfl
    | cons a l ih => simp [List.range'_succ, ih]
  rw [this]
  exact List.pairwise_lt_range'

theorem used_sorted (clen : List Nat) : ((usedPairs clen).map (·.2)).Pairwise (· < ·) := by
  have h := zipIdx_snd_sorted clen 0
  exact List.Pairwise.sublist (List.Sublist.map _ List.filter_sublist) h

theorem used_length_le (clen : List Nat) : (usedPairs clen).length ≤ clen.length := by
  have := List.length_filter_le (fun p : Nat × Nat => decide (0 < p.1)) clen.zipIdx
  rw [List.length_zipIdx] at this
  exact this

/-- Writing pairs with distinct positions into a table. -/
def setAll : List (Nat × Nat) → List Nat → Option (List Nat)
  | [], t => some t
  | p :: ps, t => do
    let t ← setAt t p.2 p.1
    setAll ps t

theorem setAll_spec (ps : List (Nat × Nat)) (hd : (ps.map (·.2)).Nodup) (t : List Nat)
    (hb : ∀ p ∈ ps, p.2 < t.length) :
    ∃ t', setAll ps t = some t' ∧ t'.length = t.length ∧ (∀ p ∈ ps, t'[p.2]? = some p.1) ∧
      ∀ i, i ∉ ps.map (·.2) → t'[i]? = t[i]? := by
  induction ps generalizing t with
  | nil => exact ⟨t, rfl, rfl, by simp, by simp⟩
  | cons p ps ih =>
    rw [List.map_cons, List.nodup_cons] at hd
    have hp := hb p (by simp)
    obtain ⟨t', h1, h2, h3, h4⟩ := ih hd.2 (t.set p.2 p.1) (by
      intro q hq
      rw [List.length_set]
      exact hb q (by simp [hq]))
    refine ⟨t', ?_, by rw [h2, List.length_set], ?_, ?_⟩
    · simp [setAll, setAt, hp, h1]
    · intro q hq
      rcases List.mem_cons.mp hq with rfl | hq
      · rw [h4 _ hd.1, List.getElem?_set_self hp]
      · exact h3 q hq
    · intro i hi
      simp only [List.map_cons, List.mem_cons, not_or] at hi
      rw [h4 i hi.2, List.getElem?_set_ne (by omega)]

/-- Writing the used pairs of a table into a cleared table gives the table. -/
theorem setAll_used (clen : List Nat) :
    setAll (usedPairs clen) (List.replicate clen.length 0) = some clen := by
  have hd : ((usedPairs clen).map (·.2)).Nodup := (used_sorted clen).imp (fun h => by omega)
  obtain ⟨t', h1, h2, h3, h4⟩ := setAll_spec _ hd (List.replicate clen.length 0) (by
    intro p hp
    have := (mem_usedPairs.mp hp).1
    obtain ⟨h, _⟩ := List.getElem?_eq_some_iff.mp this
    simpa using h)
  rw [h1]
  congr 1
  rw [List.length_replicate] at h2
  apply List.ext_getElem? 
  intro i
  by_cases hi : i < clen.length
  · have he := List.getElem?_eq_getElem hi
    by_cases h0 : 0 < clen[i]
    · have := h3 (clen[i], i) (mem_usedPairs.mpr ⟨he, h0⟩)
      rw [this, he]
    · rw [h4 i ?_, List.getElem?_replicate, if_pos hi, he]
      · congr 1
        omega
      · intro hm
        obtain ⟨p, hp, rfl⟩ := List.mem_map.mp hm
        have := mem_usedPairs.mp hp
        rw [he] at this
        simp at this
        omega
  · rw [List.getElem?_eq_none (by omega), List.getElem?_eq_none (by omega)]

theorem unaryCode_length (n : Nat) (h : 1 ≤ n) : (unaryCode n).length = n := by
  rw [unaryCode_eq n h]
  simp
  omega

theorem readLens_spec (m : Nat) (hm : m < 2 ^ 32) (ps : List (Nat × Nat)) (s : List Bool) :
    ∀ (t : List Nat) (bits : Nat), (∀ p ∈ ps, p.1 ≤ m ∧ 0 < p.1) → 
      readLens m ps.length (ps.map (·.2)) t bits ((ps.flatMap fun p => unaryCode (m - p.1 + 1)) ++ s) =
        (setAll ps t).map fun t' => (t', bits + (ps.flatMap fun p => unaryCode (m - p.1 + 1)).length, s) := by
  induction ps with
  | nil => intro t bits _; simp [readLens, setAll]
  | cons p ps ih =>
    intro t bits h
    obtain ⟨hp1, hp2⟩ := h p (by simp)
    rw [List.flatMap_cons, List.append_assoc, List.length_cons, List.map_cons, readLens,
      unaryDecode_code _ (by omega)]
    simp only [Option.bind_eq_bind, Option.bind_some, setAll]
    have e : (usub m (m - p.1 + 1) + 1) % 2 ^ 32 = p.1 := by
      rw [usub_of_le (by omega) (by omega)]
      rw [Nat.mod_eq_of_lt (by omega)]
      omega
    rw [e]
    cases hs : setAt t p.2 p.1 with
    | none => simp
    | some t' =>
      simp only [Option.bind_some]
      rw [ih t' _ (fun q hq => h q (by simp [hq])), List.length_append, unaryCode_length _ (by omega),
        Nat.add_assoc]

theorem used_ne {clen : List Nat} {l : Nat} (h : l ∈ clen) (h0 : 0 < l) : usedPairs clen ≠ [] := by
  obtain ⟨i, hi⟩ := List.getElem?_of_mem h
  intro he
  have : (l, i) ∈ usedPairs clen := mem_usedPairs.mpr ⟨hi, h0⟩
  rw [he] at this
  simp at this

theorem getLast_max (l : List Nat) (h : l.Pairwise (· < ·)) (hne : l ≠ []) :
    ∃ b, l.getLast? = some b ∧ b ∈ l ∧ ∀ x ∈ l, x ≤ b := by
  refine ⟨l.getLast hne, List.getLast?_eq_some_getLast hne, List.getLast_mem hne, ?_⟩
  intro x hx
  have e := List.dropLast_concat_getLast hne
  rw [← e] at h hx
  rw [List.pairwise_append] at h
  rcases List.mem_append.mp hx with hx | hx
  · have := h.2.2 x hx _ (List.mem_singleton.mpr rfl)
    omega
  · simp at hx
    omega

/-- Serialisation and deserialisation of a table of 256 lengths below 128. -/
theorem shape_roundtrip (clen : List Nat) (h256 : clen.length = 256) (hlt : ∀ l ∈ clen, l < 128)
    (hne : ∃ l ∈ clen, 0 < l) :
    ∃ bits, serializeShape clen = some bits ∧ ∀ s : List Bool,
      deserializeShape (List.replicate 256 0) (bits ++ s) =
        some (clen, (bits.length + 7) / 8, alignIn s) := by
  obtain ⟨l0, hl0, hl1⟩ := hne
  have hused := used_ne hl0 hl1
  have hsorted := used_sorted clen
  have hset := setAll_used clen
  have hlen := used_length_le clen
  have hmem : ∀ p ∈ usedPairs clen, p.1 ≤ maxLenOf clen ∧ 0 < p.1 := by
    intro p hp
    have := mem_usedPairs.mp hp
    exact ⟨le_maxLenOf (List.mem_of_getElem? this.1), this.2⟩
  have hm : maxLenOf clen ≤ 127 := maxLenOf_le (fun l hl => by have := hlt l hl; omega)
  have hidx : ∀ x ∈ (usedPairs clen).map (·.2), x < 256 := by
    intro x hx
    obtain ⟨p, hp, rfl⟩ := List.mem_map.mp hx
    obtain ⟨h, _⟩ := List.getElem?_eq_some_iff.mp (mem_usedPairs.mp hp).1
    omega
  unfold serializeShape
  rw [h256] at hset
  generalize maxLenOf clen = m at *
  generalize usedPairs clen = ps at *
  have hne : ps.map (·.2) ≠ [] := by simpa using hused
  obtain ⟨b, hb1, hb2, hb3⟩ := getLast_max _ hsorted hne
  have hb256 := hidx b hb2
  have hplen : 0 < ps.length := List.length_pos_iff.mpr hused
  obtain ⟨al, ha1, ha2⟩ := interp_list_roundtrip (M := 256) (lo := 0) (hi := b) hne hsorted
    (fun x hx => ⟨Nat.zero_le _, hb3 x hx⟩) (by omega) (by omega) hb256
  have hi0 : interpCode0 (ps.map (·.2)) b = some al := by
    rw [interpCode0, usub_of_le (by rw [List.length_map]; omega) (by rw [List.length_map]; omega)]
    exact ha1
  have hv : vbytes m = [UInt8.ofNat m] := by
    rw [vbytes, if_pos (by omega)]
  refine ⟨_, by
    simp only [hb1, Option.bind_eq_bind, Option.bind_some, packInteger_eq (show m < 2 ^ 56 by omega), hi0]
    rfl, ?_⟩
  intro s
  have hpk : bitsOf ((vbytes m).length * 8) (leNat (vbytes m)) = bytesBits (vbytes m) := by
    rw [hv]
    have : (UInt8.ofNat m).toNat = m := vbytes_head_small (by omega)
    simp [leNat, bytesBits, byteBits, this]
  rw [hpk]
  have hr : ∀ (n : Nat) (s : List Bool), readByte (bitsOf 8 n ++ s) = some (UInt8.ofNat n, s) := by
    intro n s
    have := readByte_byteBits (UInt8.ofNat n) s
    rw [byteBits] at this
    rw [show bitsOf 8 n = bitsOf 8 (UInt8.ofNat n).toNat by
      rw [UInt8.toNat_ofNat', bitsOf_mod]]
    exact this
  have hu : readVar (bytesBits (vbytes m) ++ (al ++ ((ps.flatMap fun p => unaryCode (m - p.1 + 1)) ++ s)))
      = some (m, 1, al ++ ((ps.flatMap fun p => unaryCode (m - p.1 + 1)) ++ s)) := by
    rw [readVar, readVarGo_eq _ _ _ _ _ (by simp) (by rw [hv]; simp)]
    rw [hv]
    simp
  have hbt : (UInt8.ofNat b).toNat = b := by
    rw [UInt8.toNat_ofNat']
    exact Nat.mod_eq_of_lt hb256
  have hsym : (if (UInt8.ofNat ps.length).toNat = 0 then 256 else (UInt8.ofNat ps.length).toNat) = ps.length := by
    rw [UInt8.toNat_ofNat']
    by_cases h : ps.length = 256
    · rw [h]; rfl
    · rw [Nat.mod_eq_of_lt (by omega), if_neg (by omega)]
  have e1 := ha2 ((ps.flatMap fun p => unaryCode (m - p.1 + 1)) ++ s)
  rw [List.length_map] at e1
  unfold deserializeShape
  simp only [List.append_assoc, List.length_map, hr, hbt, Option.bind_eq_bind, Option.bind_some, hsym]
  simp only [hu, Option.bind_some, e1]
  rw [readLens_spec m (by omega) ps s _ _ hmem, hset]
  simp only [Option.map_some, Option.bind_some, List.length_append, bitsOf_length, bytesBits_length, hv,
    List.length_cons, List.length_nil]
  congr 4
  omega

end Bwtc.HuffShape
