import Verif.HuffLookupTable
import Verif.Props.HuffCodes

/-!
# C42: table-driven Huffman decoding
-/

set_option autoImplicit false

namespace Bwtc.Props
open Huff HuffCodes HuffLookup

/-- The claim of C42: for every Kraft-complete table of 256 lengths, and every byte stream, the
decoder of the code gives the symbols found by matching codewords bit by bit, and stops at the
byte boundary after the last codeword.  (`none` on both sides: the data ends too early.) -/
def C42_claim : Prop :=
  ∀ clen : List Nat, clen.length = 256 → KraftEquality (clen.filter fun l => 0 < l) →
    ∃ code, computeHuffmanCodes clen = some code ∧ ∀ (n : Nat) (bs : List UInt8),
      decode clen code n (bytesBits bs) =
        (bitDecode (words clen code) n (bytesBits bs)).map fun x => (x.1, alignIn x.2)

/-- C42 (partial: lengths at most 50; all tables of blocks below 2^31 symbols satisfy this by
`C17_length_bound`). -/
theorem C42_lookup_decoding_partial (clen : List Nat) (h256 : clen.length = 256) (h50 : ∀ l ∈ clen, l ≤ 50)
    (hk : KraftEquality (clen.filter fun l => 0 < l)) :
    ∃ code, computeHuffmanCodes clen = some code ∧ ∀ (n : Nat) (bs : List UInt8),
      decode clen code n (bytesBits bs) =
        (bitDecode (words clen code) n (bytesBits bs)).map fun x => (x.1, alignIn x.2) := by
  obtain ⟨code, h1, h2, h3, h4⟩ := C19_canonical_codes clen h256 hk
  refine ⟨code, h1, ?_⟩
  obtain ⟨p1, p2⟩ := pf_words h4
  have hall : ∀ s : List Bool, 50 ≤ s.length → ∃ p ∈ words clen code, p.2 <+: s := by
    intro s hs
    have hlen := words_lengths clen code (by omega)
    obtain ⟨w, hw, hpre⟩ := kraft_complete 50 _ p2 (by
      intro w hw
      have := List.mem_map_of_mem (f := List.length) hw
      rw [hlen] at this
      exact h50 _ (List.mem_filter.mp this).1) (by
      rw [hlen]
      exact hk 50 (fun l hl => h50 l (List.mem_filter.mp hl).1)) s hs
    obtain ⟨p, hp, rfl⟩ := List.mem_map.mp hw
    exact ⟨p, hp, hpre⟩
  intro n bs
  refine decode_eq ?_ p1 ?_ n bs (Or.inl ⟨50, hall⟩)
  · intro e he _
    have m := mem_entries.mp he
    obtain ⟨c1, c2⟩ := h3 _ _ _ m.1 m.2
    exact ⟨c1, c2, h50 _ (List.mem_of_getElem? m.1)⟩
  · obtain ⟨p, hp, hpre⟩ := hall (List.replicate 50 false) (by rw [List.length_replicate]; omega)
    obtain ⟨e, he, e1, e2⟩ := mem_wordsOf.mp hp
    refine ⟨e, he, e1, ?_⟩
    have m := mem_entries.mp he
    obtain ⟨c1, c2⟩ := h3 _ _ _ m.1 m.2
    rw [e2] at hpre
    have hz : bitsOf e.2.1 e.2.2 = List.replicate e.2.1 false := by
      rw [List.eq_replicate_iff]
      refine ⟨by simp, ?_⟩
      intro b hb
      have := hpre.subset hb
      exact (List.mem_replicate.mp this).2
    rw [← zeros_bitsOf] at hz
    have := congrArg natOf hz
    rw [natOf_bitsOf_of_lt c2, natOf_bitsOf_of_lt (Nat.pow_pos (by omega))] at this
    exact this

/-- A table with a single symbol (length 1, not Kraft-complete): every encoding is decoded. -/
theorem C42_single_symbol (k n : Nat) (hk : k < 256) (bs : List UInt8) :
    let clen := (List.replicate 256 0).set k 1
    let code := List.replicate 256 0
    bitDecode (words clen code) n (bytesBits bs) ≠ none →
    decode clen code n (bytesBits bs) =
      (bitDecode (words clen code) n (bytesBits bs)).map fun x => (x.1, alignIn x.2) := by
  intro clen code hne
  have hget : ∀ (i l : Nat), clen[i]? = some l → l ≠ 0 → i = k ∧ l = 1 := by
    intro i l h h0
    by_cases hi : i = k
    · subst hi
      rw [List.getElem?_set_self (by rw [List.length_replicate]; exact hk)] at h
      simp at h
      exact ⟨rfl, h.symm⟩
    · rw [List.getElem?_set_ne (Ne.symm hi), List.getElem?_replicate] at h
      split at h
      · simp at h
        omega
      · simp at h
  have hcode : ∀ (i c : Nat), code[i]? = some c → c = 0 := by
    intro i c h
    rw [List.getElem?_replicate] at h
    split at h
    · simp at h
      omega
    · simp at h
  refine decode_eq ?_ (pf_words ?_).1 ?_ n bs (Or.inr hne)
  · intro e he h0
    have m := mem_entries.mp he
    obtain ⟨g1, g2⟩ := hget _ _ m.1 h0
    rw [hcode _ _ m.2, g2]
    exact ⟨by omega, by decide, by omega⟩
  · intro i j li lj ci cj hij hi hj hi0 hj0 _ _
    have a := (hget i li hi (by omega)).1
    have b := (hget j lj hj (by omega)).1
    omega
  · refine ⟨(k, 1, 0), mem_entries.mpr ⟨?_, ?_⟩, Nat.one_pos, rfl⟩
    · exact List.getElem?_set_self (by rw [List.length_replicate]; exact hk)
    · rw [List.getElem?_replicate, if_pos hk]

/-- Lengths 1, 2, …, 59, 60, 60. -/
def C42_witness : List Nat := (List.range 60).map (· + 1) ++ 60 :: List.replicate 195 0

/-- C42 is false of the code: with longer codewords the tables are indexed outside their 50 rows,
so that decoding is undefined even for no symbols at all. -/
theorem C42_fails : ¬ C42_claim := by
  intro h
  obtain ⟨code, h1, h2⟩ := h C42_witness (by decide +kernel) (by
    intro m hm
    have e : (C42_witness.filter fun l => decide (0 < l)) = (List.range 60).map (· + 1) ++ [60] := by
      decide +kernel
    rw [e] at hm ⊢
    have hm1 : 60 ≤ m := hm 60 (by decide +kernel)
    obtain ⟨k, rfl⟩ : ∃ k, m = k + 60 := ⟨m - 60, by omega⟩
    have e2 : (((List.range 60).map (· + 1) ++ [60]).map fun l => 2 ^ (k + 60 - l)) =
        (((List.range 60).map (· + 1) ++ [60]).map fun l => 2 ^ k * 2 ^ (60 - l)) := by
      apply List.map_congr_left
      intro l hl
      have : l ≤ 60 := by
        have hall : ∀ l ∈ (List.range 60).map (· + 1) ++ [60], l ≤ 60 := by decide +kernel
        exact hall l hl
      rw [← Nat.pow_add]
      congr 1
      omega
    rw [e2]
    have e3 : ∀ (ls : List Nat) (c : Nat), (ls.map fun l => c * 2 ^ (60 - l)).sum =
        c * (ls.map fun l => 2 ^ (60 - l)).sum := by
      intro ls c
      induction ls with
      | nil => rfl
      | cons a ls ih => simp [ih, Nat.mul_add]
    have e4 : ((((List.range 60).map (· + 1) ++ [60]).map fun l => 2 ^ (60 - l)).sum) = 2 ^ 60 := by
      decide +kernel
    rw [e3, e4, Nat.pow_add])
  have h3 := h2 0 []
  have h4 : ((computeHuffmanCodes C42_witness).map fun code =>
      (build (entries C42_witness code) (fun _ _ => none)).isSome) = some false := by decide +kernel
  rw [h1] at h4
  simp only [Option.map_some, Option.some.injEq] at h4
  rw [decode] at h3
  cases hb : build (entries C42_witness code) (fun _ _ => none) with
  | none => rw [hb] at h3; simp [bitDecode] at h3
  | some tab => rw [hb] at h4; simp at h4

/-- Non-vacuity: the table of the example of C19 has lengths at most 50; a byte stream with the
codewords of the symbols 2, 0, 5 (000 01 001). -/
example : (∀ l ∈ [2, 2, 3, 2, 0, 3] ++ List.replicate 250 0, l ≤ 50) ∧
    decode [2, 2, 3, 2, 0, 3] [1, 2, 0, 3, 0, 1] 3 (bytesBits [9, 77]) = some ([2, 0, 5], bytesBits [77]) := by
  decide +kernel

/-- Non-vacuity of the single-symbol theorem: ten symbols in two zero bytes. -/
example : bitDecode [(3, [false])] 10 (bytesBits [0, 0]) ≠ none := by decide +kernel

end Bwtc.Props
