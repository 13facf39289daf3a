import Verif.Runs
import Verif.Sections
import Verif.HuffShape
import Verif.BitBuffer
import Verif.Props.HuffLookup

/-!
# The Huffman coder of a whole block

Model of `HuffmanEncoder::encodeData`, `finishBlock` and `HuffmanDecoder::decodeBlock`
(HuffmanCoders.cpp:51-61, 119-261, 338-616), composed from the models of their parts.
-/

set_option autoImplicit false

namespace Bwtc.HuffBlock
open Varint BitCodes HuffShape BitBuffer HuffLookup HuffCodes Huff

/-- The array `freqs` (HuffmanCoders.cpp:141-144) from the table of run frequencies. -/
def freqList (fr : UInt8 → Nat) : List Nat := (List.range 256).map fun i => fr (UInt8.ofNat i)

/-- `clen[c]` and `code[c]` (HuffmanCoders.cpp:203-211). -/
def codeOf (clen code : List Nat) (c : UInt8) : Option (Nat × Nat) := do
  let l ← clen[c.toNat]?
  let v ← code[c.toNat]?
  return (l, v)

/-- One section (HuffmanCoders.cpp:138-251): the bytes written and the amount added to
`m_compressedBlockLength`. -/
def encodeSection (sec : List UInt8) : Option (List UInt8 × Nat) := do
  let (nRuns, fr, runs) ← Runs.storeRuns 0 (fun _ => 0) [] sec
  let lens ← calculateHuffmanLengths (freqList fr)
  let clen ← setAll lens (List.replicate 256 0)
  let (p, bytes) ← packInteger nRuns
  let shape ← serializeShape clen
  let code ← computeHuffmanCodes clen
  let cs ← runs.mapM fun r => codeOf clen code r.1
  let w ← writeCodes cs
  let g ← writeGammas (runs.map (·.2))
  return (writePacked p ++ packBits shape ++ w ++ g,
    bytes + (packBits shape).length + w.length + g.length)

/-- The loop over the sections (HuffmanCoders.cpp:134-254): empty sections are skipped.  `none`
if a section reaches outside the block. -/
def encodeSections : List Nat → List UInt8 → Option (List UInt8 × Nat)
  | [], _ => some ([], 0)
  | n :: ns, data =>
    if n = 0 then encodeSections ns data
    else if n ≤ data.length then do
      let (a, x) ← encodeSection (data.take n)
      let (b, y) ← encodeSections ns (data.drop n)
      return (a ++ b, x + y)
    else none

/-- `transformAndEncode` after the transform (HuffmanCoders.cpp:57-60): starting points `powers`,
character counts `stats`, transformed block `data`; the bytes written (the six reserved bytes
are filled in at the end) and the returned size. -/
def encodeBlock (powers stats : List Nat) (data : List UInt8) : Option (List UInt8 × Nat) := do
  let (h, k) ← Sections.writeHeader powers stats
  let (body, n) ← encodeSections (Sections.sections stats) data
  return (packBits (bitsOf 48 (k + n)) ++ h ++ body, k + n + 6)

/-- One section of the decoder (HuffmanCoders.cpp:360-609): the bytes written to the block.  The
arrays `runseq` and `runlen` have `size` elements. -/
def decodeSection (size : Nat) (s : List Bool) : Option (List UInt8 × List Bool) := do
  let (p, s) ← readPacked s
  let nRuns ← unpackInteger p
  let (clen, _, s) ← deserializeShape (List.replicate 256 0) s
  let code ← computeHuffmanCodes clen
  if nRuns ≤ size then
    let (syms, s) ← decode clen code nRuns s
    let (lens, s) ← readGammas nRuns s
    return (Runs.expand ((syms.map UInt8.ofNat).zip lens), alignIn s)
  else none

/-- The loop over the sections (HuffmanCoders.cpp:357-610). -/
def decodeSections (size : Nat) : List Nat → List Bool → Option (List UInt8 × List Bool)
  | [], s => some ([], s)
  | n :: ns, s =>
    if n = 0 then decodeSections size ns s
    else do
      let (a, s) ← decodeSection size s
      let (b, s) ← decodeSections size ns s
      return (a ++ b, s)

/-- What `decodeBlock` leaves in the block: the starting points, the bytes stored from
`block.begin()` on, and the size set in the end. -/
structure Decoded where
  powers : List Nat
  data : List UInt8
  size : Nat

/-- `decodeBlock` after the end test (HuffmanCoders.cpp:342-612).  The length field is read but
used only for a message. -/
def decodeBlock (s : List Bool) : Option (Decoded × List Bool) := do
  let (_, powers, secs, s) ← Sections.readHeader s
  let (data, s) ← decodeSections secs.sum secs s
  return (⟨powers, data, secs.sum⟩, s)

/-! ## Lemmas -/

theorem usedPairs_fst (clen : List Nat) :
    (usedPairs clen).map (·.1) = clen.filter fun l => 0 < l := by
  have gen : ∀ (l : List Nat) (k : Nat), (((l.zipIdx k).filter fun p => decide (0 < p.1)).map (·.1)) =
      l.filter fun l => decide (0 < l) := by
    intro l
    induction l with
    | nil => intro k; rfl
    | cons a l ih =>
      intro k
      rw [List.zipIdx_cons, List.filter_cons, List.filter_cons]
      split
      · simp [ih (k + 1)]
      · exact ih (k + 1)
  exact gen clen 0

theorem nodup_map {α β : Type} (f : α → β) {l : List α} (h : (l.map f).Nodup) : l.Nodup :=
  (List.pairwise_map.mp h).imp fun h e => h (by rw [e])

theorem setAll_lengths {ps : List (Nat × Nat)} (hd : (ps.map (·.2)).Nodup) (hp : ∀ p ∈ ps, 0 < p.1)
    {n : Nat} (hb : ∀ p ∈ ps, p.2 < n) :
    ∃ t, setAll ps (List.replicate n 0) = some t ∧ t.length = n ∧ (∀ p ∈ ps, t[p.2]? = some p.1) ∧
      (t.filter fun l => 0 < l).Perm (ps.map (·.1)) ∧ (∀ i, i ∉ ps.map (·.2) → i < n → t[i]? = some 0) := by
  obtain ⟨t, h1, h2, h3, h4⟩ := setAll_spec ps hd (List.replicate n 0) (by
    intro p h; rw [List.length_replicate]; exact hb p h)
  rw [List.length_replicate] at h2
  refine ⟨t, h1, h2, h3, ?_, ?_⟩
  · rw [← usedPairs_fst]
    apply List.Perm.map
    rw [List.perm_ext_iff_of_nodup (nodup_map _ ((used_sorted t).imp (fun h => by omega))) (nodup_map _ hd)]
    intro p
    rw [mem_usedPairs]
    constructor
    · rintro ⟨e1, e2⟩
      by_cases hm : p.2 ∈ ps.map (·.2)
      · obtain ⟨q, hq, hqe⟩ := List.mem_map.mp hm
        have := h3 q hq
        rw [hqe, e1] at this
        simp only [Option.some.injEq] at this
        obtain ⟨a, b⟩ := p
        obtain ⟨c, d⟩ := q
        simp only at this hqe
        subst this; subst hqe
        exact hq
      · rw [h4 _ hm, List.getElem?_replicate] at e1
        split at e1
        · simp at e1; omega
        · simp at e1
    · intro h
      exact ⟨h3 p h, hp p h⟩
  · intro i hi hn
    rw [h4 i hi, List.getElem?_replicate, if_pos hn]


theorem single_codes {k n : Nat} (hk : k < n) :
    computeHuffmanCodes ((List.replicate n 0).set k 1) = some (List.replicate n 0) := by
  have hget : ∀ i : Nat, i < n → ((List.replicate n 0).set k 1)[i]? = some (if i = k then 1 else 0) := by
    intro i hi
    by_cases h : i = k
    · subst h
      rw [List.getElem?_set_self (by rw [List.length_replicate]; exact hi), if_pos rfl]
    · rw [List.getElem?_set_ne (Ne.symm h), List.getElem?_replicate, if_pos hi, if_neg h]
  have hlen : ((List.replicate n 0).set k 1).length = n := by rw [List.length_set, List.length_replicate]
  generalize (List.replicate n 0).set k 1 = ls at hget hlen
  have hmem : ∀ l ∈ ls, l = 0 ∨ l = 1 := by
    intro l hl
    obtain ⟨i, hi, he⟩ := List.mem_iff_getElem.mp hl
    have := hget i (by omega)
    rw [List.getElem?_eq_getElem hi, he] at this
    simp only [Option.some.injEq] at this
    split at this <;> omega
  have h1 : 1 ∈ ls := by
    have := hget k hk
    rw [if_pos rfl] at this
    exact List.mem_of_getElem? this
  obtain ⟨c, e1, e2⟩ := countLens_spec ls (fun l hl => by have := hmem l hl; omega) (fun _ => 0)
  simp only [Nat.zero_add] at e2
  have hc1 : 0 < c 1 := by rw [e2]; exact List.count_pos_iff.mpr h1
  have hm : maxLen c 256 = 1 := by
    obtain ⟨m1, m2⟩ := maxLen_spec c 256
    rcases m2 with m2 | ⟨m2, m3⟩
    · have := m1 1 (by omega) (by omega)
      omega
    · rw [e2] at m2
      have := hmem _ (List.count_pos_iff.mp m2)
      rcases this with h | h
      · have := m1 1 (by omega) (by omega)
        omega
      · exact h
  rw [computeHuffmanCodes, e1]
  simp only [hm]
  have hs : startLoop c (1 + 1) 0 (fun _ => 0) 1 = 0 := (startLoop_rec c 1 0 _).2
  generalize startLoop c (1 + 1) 0 (fun _ => 0) = st at hs
  congr 1
  apply List.ext_getElem?
  intro i
  by_cases hi : i < n
  · rw [List.getElem?_replicate, if_pos hi]
    have hgi := hget i hi
    by_cases hik : i = k
    · subst hik
      rw [if_pos rfl] at hgi
      rw [assign_get ls st i 1 hgi (by omega), hs]
      have : (ls.take i).count 1 = 0 := by
        rw [List.count_eq_zero]
        intro hc
        obtain ⟨j, hj, he⟩ := List.mem_iff_getElem.mp hc
        have hji : j < i := by rw [List.length_take] at hj; omega
        rw [List.getElem_take] at he
        have := hget j (by omega)
        rw [List.getElem?_eq_getElem (by omega), he, if_neg (by omega)] at this
        simp at this
      rw [this]
    · rw [if_neg hik] at hgi
      exact assign_zero ls st i hgi
  · rw [List.getElem?_eq_none (by rw [assign_length]; omega), List.getElem?_eq_none (by rw [List.length_replicate]; omega)]

/-- Facts about the tables of a section used by encoder and decoder. -/
structure Good (clen code : List Nat) (ks : List UInt8) : Prop where
  codes : computeHuffmanCodes clen = some code
  fits : ∀ (i l c : Nat), clen[i]? = some l → code[i]? = some c → l ≤ 50 ∧ c < 2 ^ l
  pf : PF (words clen code)
  pos : ∀ k ∈ ks, ∃ l c, clen[k.toNat]? = some l ∧ 0 < l ∧ code[k.toNat]? = some c
  dec : ∀ (n : Nat) (bs : List UInt8), bitDecode (words clen code) n (bytesBits bs) ≠ none →
      decode clen code n (bytesBits bs) =
        (bitDecode (words clen code) n (bytesBits bs)).map fun x => (x.1, alignIn x.2)

open Props in
theorem good_complete {clen : List Nat} {ks : List UInt8} (h256 : clen.length = 256)
    (h50 : ∀ l ∈ clen, l ≤ 50) (hk : KraftEquality (clen.filter fun l => 0 < l))
    (hpos : ∀ k ∈ ks, ∃ l, clen[k.toNat]? = some l ∧ 0 < l) : ∃ code, Good clen code ks := by
  obtain ⟨code, h1, h2, h3, h4⟩ := C19_canonical_codes clen h256 hk
  obtain ⟨code', g1, g2⟩ := C42_lookup_decoding_partial clen h256 h50 hk
  rw [h1] at g1
  simp only [Option.some.injEq] at g1
  subst g1
  refine ⟨code, h1, ?_, (pf_words h4).1, ?_, fun n bs _ => g2 n bs⟩
  · intro i l c hl hc
    exact ⟨h50 l (List.mem_of_getElem? hl), (h3 i l c hl hc).2⟩
  · intro k hkm
    obtain ⟨l, e1, e2⟩ := hpos k hkm
    have hb : k.toNat < code.length := by rw [h2]; exact k.toNat_lt
    exact ⟨l, code[k.toNat], e1, e2, List.getElem?_eq_getElem hb⟩

open Props in
theorem good_single {k : UInt8} : Good ((List.replicate 256 0).set k.toNat 1) (List.replicate 256 0) [k] := by
  have hk : k.toNat < 256 := k.toNat_lt
  have hget : ∀ (i l : Nat), ((List.replicate 256 0).set k.toNat 1)[i]? = some l → (l = 0 ∨ (i = k.toNat ∧ l = 1)) := by
    intro i l h
    by_cases hi : i = k.toNat
    · subst hi
      rw [List.getElem?_set_self (by rw [List.length_replicate]; exact hk)] at h
      simp at h
      exact Or.inr ⟨rfl, h.symm⟩
    · rw [List.getElem?_set_ne (Ne.symm hi), List.getElem?_replicate] at h
      split at h
      · simp at h
        omega
      · simp at h
  have hcode : ∀ (i c : Nat), (List.replicate 256 0)[i]? = some c → c = 0 := by
    intro i c h
    rw [List.getElem?_replicate] at h
    split at h
    · simp at h
      omega
    · simp at h
  refine ⟨single_codes hk, ?_, ?_, ?_, fun n bs h => C42_single_symbol k.toNat n hk bs h⟩
  · intro i l c hl hc
    have := hcode i c hc
    subst this
    have := hget i l hl
    exact ⟨by omega, Nat.pow_pos (by omega)⟩
  · apply (pf_words ?_).1
    intro i j li lj ci cj hij hi hj hi0 hj0 _ _
    have a := hget i li hi
    have b := hget j lj hj
    omega
  · intro c hc
    rw [List.mem_singleton] at hc
    subst hc
    refine ⟨1, 0, ?_, by omega, ?_⟩
    · rw [List.getElem?_set_self (by rw [List.length_replicate]; exact hk)]
    · rw [List.getElem?_replicate, if_pos hk]

/-- Encoding symbols with a good table, and decoding them again. -/
theorem Good.roundtrip {clen code : List Nat} {ks : List UInt8} (h : Good clen code ks) :
    ∃ cs, ks.mapM (codeOf clen code) = some cs ∧ (∀ c ∈ cs, c.1 ≤ 57 ∧ c.2 < 2 ^ c.1) ∧
      ∀ s, bitDecode (words clen code) ks.length ((cs.flatMap fun c => bitsOf c.1 c.2) ++ s) =
        some (ks.map UInt8.toNat, s) := by
  have hpf := h.pf
  have hfits := h.fits
  have hpos := h.pos
  clear h
  induction ks with
  | nil => exact ⟨[], rfl, by simp, by simp [bitDecode]⟩
  | cons k ks ih =>
    obtain ⟨cs, e1, e2, e3⟩ := ih (fun c hc => hpos c (by simp [hc]))
    obtain ⟨l, c, p1, p2, p3⟩ := hpos k (by simp)
    refine ⟨(l, c) :: cs, ?_, ?_, ?_⟩
    · rw [List.mapM_cons, e1]
      simp [codeOf, p1, p3]
    · intro x hx
      rcases List.mem_cons.mp hx with rfl | hx
      · have := hfits _ _ _ p1 p3
        exact ⟨by simp; omega, this.2⟩
      · exact e2 x hx
    · intro s
      rw [List.length_cons, List.flatMap_cons, List.append_assoc, bitDecode_word hpf (k := k.toNat), e3]
      · rfl
      · exact mem_wordsOf.mpr ⟨(k.toNat, l, c), mem_entries.mpr ⟨p1, p3⟩, p2, rfl⟩

theorem alignIn_replicate {k : Nat} (hk : k < 8) (rest : List UInt8) :
    alignIn (List.replicate k false ++ bytesBits rest) = bytesBits rest := by
  apply alignIn_pad
  · rw [List.length_replicate]; exact hk
  · rw [bytesBits_length]; omega

theorem indicator_sum (k : Nat) (hk : k < 256) :
    ((List.range 256).map fun i => if UInt8.ofNat i = UInt8.ofNat k then 1 else 0).sum = 1 := by
  have gen : ∀ n, n ≤ 256 →
      ((List.range n).map fun i => if UInt8.ofNat i = UInt8.ofNat k then 1 else 0).sum = if k < n then 1 else 0 := by
    intro n
    induction n with
    | zero => intro _; rfl
    | succ n ih =>
      intro hn
      rw [List.range_succ, List.map_append, List.sum_append, ih (by omega)]
      simp only [List.map_cons, List.map_nil, List.sum_cons, List.sum_nil]
      have : (UInt8.ofNat n = UInt8.ofNat k) ↔ n = k := by
        rw [← UInt8.toNat_inj, UInt8.toNat_ofNat', UInt8.toNat_ofNat', Nat.mod_eq_of_lt (by omega), Nat.mod_eq_of_lt (by omega)]
      by_cases h : n = k
      · rw [if_pos (this.mpr h), if_neg (by omega), if_pos (by omega)]
        rfl
      · rw [if_neg (fun hc => h (this.mp hc))]
        split <;> split <;> omega
  rw [gen 256 (by omega), if_pos hk]

theorem freqList_sum (ks : List UInt8) : (freqList fun c => ks.count c).sum = ks.length := by
  induction ks with
  | nil =>
    simp only [freqList, List.count_nil, List.length_nil]
    generalize List.range 256 = r
    induction r with
    | nil => rfl
    | cons a r ih => simpa using ih
  | cons k ks ih =>
    have h1 := indicator_sum k.toNat k.toNat_lt
    rw [UInt8.ofNat_toNat] at h1
    simp only [freqList] at ih h1 ⊢
    rw [List.length_cons, ← ih, ← h1]
    generalize List.range 256 = r
    clear ih h1
    induction r with
    | nil => rfl
    | cons a r ih =>
      simp only [List.map_cons, List.sum_cons, List.count_cons] at ih ⊢
      rw [ih]
      have : (if (k == UInt8.ofNat a) = true then 1 else 0) = (if UInt8.ofNat a = k then 1 else 0) := by
        by_cases h : UInt8.ofNat a = k
        · simp [h]
        · simp [h, Ne.symm h]
      rw [this]
      omega

open Props in
/-- The code lengths of a section. -/
theorem lengths_good (ks : List UInt8) (hne : ks ≠ []) (hlen : ks.length < 2 ^ 31)
    (hadj : ∀ k, (∀ x ∈ ks, x = k) → ks = [k]) :
    ∃ lens clen code, calculateHuffmanLengths (freqList fun c => ks.count c) = some lens ∧
      setAll lens (List.replicate 256 0) = some clen ∧ clen.length = 256 ∧ (∀ l ∈ clen, l ≤ 50) ∧
      (∃ l ∈ clen, 0 < l) ∧ Good clen code ks := by
  have hsum := freqList_sum ks
  have hfl : (freqList fun c => ks.count c).length = 256 := by
    rw [freqList, List.length_map, List.length_range]
  have hfget : ∀ (i f : Nat), (freqList fun c => ks.count c)[i]? = some f ↔ i < 256 ∧ f = ks.count (UInt8.ofNat i) := by
    intro i f
    rw [freqList, List.getElem?_map]
    by_cases hi : i < 256
    · rw [List.getElem?_range hi]
      simp [hi, eq_comm]
    · rw [List.getElem?_eq_none (by rw [List.length_range]; omega)]
      simp [hi]
  generalize (freqList fun c => ks.count c) = fs at hsum hfl hfget
  have hmem : ∀ i, i ∈ presentSymbols fs ↔ i < 256 ∧ UInt8.ofNat i ∈ ks := by
    intro i
    rw [presentSymbols, List.mem_filter, List.mem_range, hfl, decide_eq_true_eq]
    constructor
    · rintro ⟨h1, f, h2, h3⟩
      have := (hfget i f).mp h2
      exact ⟨h1, List.count_pos_iff.mp (by omega)⟩
    · rintro ⟨h1, h2⟩
      exact ⟨h1, _, (hfget i _).mpr ⟨h1, rfl⟩, List.count_pos_iff.mpr h2⟩
  have hnd : (presentSymbols fs).Nodup := List.Pairwise.filter _ List.nodup_range
  have hmem' : ∀ k ∈ ks, k.toNat ∈ presentSymbols fs := by
    intro k hk
    rw [hmem]
    exact ⟨k.toNat_lt, by rw [UInt8.ofNat_toNat]; exact hk⟩
  by_cases h2 : 2 ≤ (presentSymbols fs).length
  · obtain ⟨lens, e1, e2, e3, e4⟩ := C17_huffman_lengths fs h2
    have e5 := C17_length_bound fs (by omega) lens e1
    have hnd2 : (lens.map (·.2)).Nodup := e2.nodup_iff.mpr hnd
    obtain ⟨clen, t1, t2, t3, t4, t5⟩ := setAll_lengths hnd2 (fun p hp => (e3 p hp).1) (n := 256) (by
      intro p hp
      have := e2.mem_iff.mp (List.mem_map_of_mem (f := (·.2)) hp)
      exact ((hmem _).mp this).1)
    have h50 : ∀ l ∈ clen, l ≤ 50 := by
      intro l hl
      by_cases h0 : 0 < l
      · have : l ∈ clen.filter fun l => 0 < l := List.mem_filter.mpr ⟨hl, by simpa using h0⟩
        obtain ⟨p, hp, rfl⟩ := List.mem_map.mp (t4.mem_iff.mp this)
        have := e5 p hp
        omega
      · omega
    have hpos : ∀ k ∈ ks, ∃ l, clen[k.toNat]? = some l ∧ 0 < l := by
      intro k hk
      obtain ⟨p, hp, hpe⟩ := List.mem_map.mp (e2.mem_iff.mpr (hmem' k hk))
      exact ⟨p.1, by rw [← hpe]; exact t3 p hp, (e3 p hp).1⟩
    have hkraft : KraftEquality (clen.filter fun l => 0 < l) := by
      intro m hm
      have h1 := e4 m (fun l hl => hm l (t4.mem_iff.mpr hl))
      rw [← h1]
      exact (t4.map _).sum_nat
    obtain ⟨code, hg⟩ := good_complete t2 h50 hkraft hpos
    refine ⟨lens, clen, code, e1, t1, t2, h50, ?_, hg⟩
    obtain ⟨k, hk⟩ := List.exists_mem_of_ne_nil ks hne
    obtain ⟨l, hl, h0⟩ := hpos k hk
    exact ⟨l, List.mem_of_getElem? hl, h0⟩
  · obtain ⟨k, hk⟩ := List.exists_mem_of_ne_nil ks hne
    have hk' := hmem' k hk
    have hone : presentSymbols fs = [k.toNat] := by
      match hp : presentSymbols fs with
      | [] => rw [hp] at hk'; simp at hk'
      | [a] => rw [hp] at hk'; simp at hk'; rw [hk']
      | a :: b :: l => rw [hp] at h2; simp at h2
    have hks := hadj k (by
      intro x hx
      have := hmem' x hx
      rw [hone, List.mem_singleton] at this
      exact UInt8.toNat_inj.mp this)
    refine ⟨_, (List.replicate 256 0).set k.toNat 1, List.replicate 256 0, C17_single_symbol fs _ hone, ?_, ?_, ?_, ?_, ?_⟩
    · have : k.toNat < (List.replicate 256 0).length := by rw [List.length_replicate]; exact k.toNat_lt
      simp only [setAll, setAt, this, if_true, Option.bind_eq_bind, Option.bind_some]
    · rw [List.length_set, List.length_replicate]
    · intro l hl
      rcases List.mem_or_eq_of_mem_set hl with hl | hl
      · rw [List.mem_replicate] at hl; omega
      · omega
    · exact ⟨1, List.mem_of_getElem? (List.getElem?_set_self (by rw [List.length_replicate]; exact k.toNat_lt)), by omega⟩
    · rw [hks]
      exact good_single

/-- All symbols of a list of runs are equal only if there is one run. -/
theorem adj_single {rs : List (UInt8 × Nat)} (h : Runs.AdjDiff rs) (hne : rs ≠ []) (k : UInt8)
    (hall : ∀ x ∈ rs.map (·.1), x = k) : rs.map (·.1) = [k] := by
  match rs, h with
  | [], _ => exact absurd rfl hne
  | [a], _ => simp at hall; simp [hall]
  | a :: b :: l, h =>
    exfalso
    simp only [Runs.AdjDiff] at h
    have h1 := hall a.1 (by simp)
    have h2 := hall b.1 (by simp)
    exact h.1 (by rw [h1, h2])

open Props in
/-- One section: it is encoded, the counted length is the number of bytes, and it is decoded
again. -/
theorem section_roundtrip (sec : List UInt8) (hne : sec ≠ []) (hlen : sec.length < 2 ^ 31)
    (hrun : ∀ r ∈ Runs.runsOf sec, r.2 < 2 ^ 29) :
    ∃ w, encodeSection sec = some (w, w.length) ∧ ∀ (size : Nat) (rest : List UInt8), sec.length ≤ size →
      decodeSection size (bytesBits (w ++ rest)) = some (sec, bytesBits rest) := by
  have hR := Runs.runsOf_isRuns sec
  have hRl := Runs.runsOf_length_le sec
  have hstore := Runs.storeRuns_eq 0 (fun _ => 0) [] sec hne (by omega)
  generalize Runs.runsOf sec = rs at *
  have hrs : rs ≠ [] := by
    rintro rfl
    have := hR.expands
    simp [Runs.expand] at this
    exact hne this
  obtain ⟨lens, clen, code, l1, l2, l3, l4, l5, g⟩ := lengths_good (rs.map (·.1)) (by simpa using hrs)
    (by rw [List.length_map]; omega) (adj_single hR.adj hrs)
  obtain ⟨cs, c1, c2, c3⟩ := g.roundtrip
  obtain ⟨shape, s1, s2⟩ := shape_roundtrip clen l3 (fun l hl => by have := l4 l hl; omega) l5
  have hfr : freqList ((rs.map (·.1)).foldl Runs.bump fun _ => 0) = freqList fun c => (rs.map (·.1)).count c := by
    rw [freqList, freqList]
    apply List.map_congr_left
    intro i _
    rw [Runs.bump_foldl]
    omega
  obtain ⟨p, k, p1, p2, p3, _, _, p6, _, p8⟩ := C01_packed_integer_roundtrip rs.length (by omega)
  have hg := writeGammas_spec (rs.map (·.2)) (by
    intro n hn
    obtain ⟨r, hr, rfl⟩ := List.mem_map.mp hn
    exact ⟨hR.pos r hr, hrun r hr⟩)
  have hw := writeCodes_spec cs c2
  have hmap : rs.mapM (fun r => codeOf clen code r.1) = some cs := by
    rw [← c1, List.mapM_map]
    rfl
  refine ⟨writePacked p ++ packBits shape ++ packBits (cs.flatMap fun c => bitsOf c.1 c.2) ++
    packBits ((rs.map (·.2)).flatMap fun n => bitsOf (n.log2 * 2 + 1) n), ?_, ?_⟩
  · unfold encodeSection
    rw [hstore]
    simp only [Nat.zero_add, List.nil_append, Option.bind_eq_bind, Option.bind_some, hfr, l1, l2, p1, s1, g.codes,
      hmap, hw, hg, Option.pure_def]
    congr 2
    simp only [List.length_append, p6]
  · intro size rest hsize
    unfold decodeSection
    simp only [List.append_assoc]
    rw [bytesBits_append, (p8 _).1]
    simp only [Option.bind_eq_bind, Option.bind_some, p2]
    obtain ⟨k1, hk1, b1⟩ := bytesBits_packBits_append shape
      (packBits (cs.flatMap fun c => bitsOf c.1 c.2) ++
        (packBits ((rs.map (·.2)).flatMap fun n => bitsOf (n.log2 * 2 + 1) n) ++ rest))
    rw [b1, s2]
    simp only [Option.bind_some, alignIn_replicate hk1, g.codes]
    rw [if_pos (by omega)]
    obtain ⟨k2, hk2, b2⟩ := bytesBits_packBits_append (cs.flatMap fun c => bitsOf c.1 c.2)
      (packBits ((rs.map (·.2)).flatMap fun n => bitsOf (n.log2 * 2 + 1) n) ++ rest)
    have hd := c3 (List.replicate k2 false ++
      bytesBits (packBits ((rs.map (·.2)).flatMap fun n => bitsOf (n.log2 * 2 + 1) n) ++ rest))
    rw [← b2, List.length_map] at hd
    rw [g.dec _ _ (by rw [hd]; simp), hd]
    simp only [Option.map_some, Option.bind_some, alignIn_replicate hk2]
    obtain ⟨k3, hk3, b3⟩ := bytesBits_packBits_append ((rs.map (·.2)).flatMap fun n => bitsOf (n.log2 * 2 + 1) n) rest
    have hgm := readGammas_spec (rs.map (·.2)) (by
      intro n hn
      obtain ⟨r, hr, rfl⟩ := List.mem_map.mp hn
      have := hrun r hr
      exact ⟨hR.pos r hr, by omega⟩) (List.replicate k3 false ++ bytesBits rest)
    rw [List.length_map] at hgm
    rw [b3, hgm]
    simp only [Option.bind_some, alignIn_replicate hk3, Option.pure_def]
    congr 2
    rw [List.map_map, List.map_map]
    have : ((UInt8.ofNat ∘ UInt8.toNat) ∘ fun x : UInt8 × Nat => x.1) = fun x => x.1 := by
      funext x
      simp
    rw [this]
    have hz : ∀ l : List (UInt8 × Nat), (l.map fun x => x.1).zip (l.map fun x => x.2) = l := by
      intro l
      induction l with
      | nil => rfl
      | cons a l ih => simp [ih]
    rw [hz]
    exact hR.expands

/-- A long run of a part of the data is a long run of the data. -/
theorem runs_infix {sec data : List UInt8} (h : sec <:+: data) {m : Nat}
    (hd : ∀ c, ¬ List.replicate m c <:+: data) : ∀ r ∈ Runs.runsOf sec, r.2 < m := by
  intro r hr
  apply Decidable.byContradiction
  intro hc
  apply hd r.1
  have hR := (Runs.runsOf_isRuns sec).expands
  generalize Runs.runsOf sec = rs at hr hR
  obtain ⟨a, b, rfl⟩ := List.append_of_mem hr
  refine List.IsInfix.trans ?_ h
  rw [← hR]
  refine ⟨Runs.expand a, List.replicate (r.2 - m) r.1 ++ Runs.expand b, ?_⟩
  have : List.replicate r.2 r.1 = List.replicate m r.1 ++ List.replicate (r.2 - m) r.1 := by
    rw [List.replicate_append_replicate]
    congr 1
    omega
  simp only [Runs.expand, List.flatMap_append, List.flatMap_cons, this, List.append_assoc]

theorem sections_roundtrip (ns : List Nat) (data : List UInt8) (hsum : ns.sum = data.length)
    (hlen : data.length < 2 ^ 31) (hrun : ∀ c, ¬ List.replicate (2 ^ 29) c <:+: data) :
    ∃ w, encodeSections ns data = some (w, w.length) ∧
      ∀ (size : Nat) (rest : List UInt8), data.length ≤ size →
        decodeSections size ns (bytesBits (w ++ rest)) = some (data, bytesBits rest) := by
  induction ns generalizing data with
  | nil =>
    have : data = [] := by simpa using hsum.symm
    subst this
    exact ⟨[], rfl, by intro size rest _; rfl⟩
  | cons n ns ih =>
    rw [List.sum_cons] at hsum
    by_cases h0 : n = 0
    · obtain ⟨w, e1, e2⟩ := ih data (by omega) hlen hrun
      refine ⟨w, by rw [encodeSections, if_pos h0, e1], ?_⟩
      intro size rest hs
      rw [decodeSections, if_pos h0, e2 size rest hs]
    · have ht : (data.take n).length = n := by rw [List.length_take]; omega
      obtain ⟨w1, a1, a2⟩ := section_roundtrip (data.take n) (by
        intro hc; rw [hc] at ht; simp at ht; omega) (by omega)
        (runs_infix (List.take_prefix n data).isInfix hrun)
      obtain ⟨w2, b1, b2⟩ := ih (data.drop n) (by rw [List.length_drop]; omega) (by rw [List.length_drop]; omega)
        (fun c hc => hrun c (hc.trans (List.drop_suffix n data).isInfix))
      refine ⟨w1 ++ w2, ?_, ?_⟩
      · rw [encodeSections, if_neg h0, if_pos (by omega), a1]
        simp only [Option.bind_eq_bind, Option.bind_some, b1, Option.pure_def, List.length_append]
      · intro size rest hs
        rw [decodeSections, if_neg h0, List.append_assoc, a2 size _ (by omega)]
        simp only [Option.bind_eq_bind, Option.bind_some]
        rw [b2 size rest (by rw [List.length_drop]; omega)]
        simp only [Option.bind_some, Option.pure_def, List.take_append_drop]

end Bwtc.HuffBlock
