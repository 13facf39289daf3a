import Verif.WaveWords

/-!
# C26, C27, C28: the codes of the wavelet coder
-/

set_option autoImplicit false

namespace Bwtc.Props
open Wave Huff

/-- The run lengths of a block with their numbers of occurrences, as pairs (number, length): every
length is listed once and is at least 1. -/
def IsDistribution (dist : List (Nat × Nat)) : Prop :=
  (dist.map (·.2)).Nodup ∧ (∀ p ∈ dist, p.2 ≠ 0) ∧ ∀ p ∈ dist, p.1 ≠ 0

theorem present_of_pos {freqs : List Nat} (hne : ∃ f ∈ freqs, 0 < f) : presentSymbols freqs ≠ [] := by
  obtain ⟨f, hf, h0⟩ := hne
  obtain ⟨i, hi, e⟩ := List.mem_iff_getElem.mp hf
  intro hnil
  have hm : i ∈ presentSymbols freqs := by
    rw [presentSymbols, List.mem_filter]
    refine ⟨List.mem_range.mpr hi, ?_⟩
    simp [hi, e]
    omega
  rw [hnil] at hm
  simp at hm

/-! ## C26 -/

/-- C26 (partial: run lengths below `2^30`, and the search for the parameters must not leave its
containers, see C27).  For all frequencies of bytes and of run lengths and all outcomes of the
floating-point comparisons: the encoder finds codes, and from the written shape - padded to whole
bytes and followed by any bytes - the decoder rebuilds the very same trees, codes and parameter,
and is left at the end of the shape. -/
theorem C26_shape_roundtrip_partial (cheap : Nat → Nat → Nat × Nat → Bool) (freqs : List Nat)
    (dist : List (Nat × Nat)) (h256 : freqs.length = 256) (hne : ∃ f ∈ freqs, 0 < f)
    (hd : IsDistribution dist) (h30 : ∀ p ∈ dist, p.2 < 2 ^ 30)
    (hsearch : findParameters cheap dist ≠ none) :
    ∃ c bits, chooseCodes cheap freqs dist = some c ∧ treeShape c = some bits ∧
      ∀ rest : List UInt8, (readShape (bytesBits (packBits bits ++ rest))).map (fun r => (r.1, alignIn r.2)) =
        some (c, bytesBits rest) := by
  have hp := present_of_pos hne
  cases hf : findParameters cheap dist with
  | none => exact absurd hf hsearch
  | some r =>
    obtain ⟨w, lens⟩ := r
    obtain ⟨c, bits, h1, _, h2, h3, _⟩ := shape_roundtrip h256 hp hd.1 hd.2.1 h30 hf
    refine ⟨c, bits, h1, h2, ?_⟩
    intro rest
    obtain ⟨k, hk, e⟩ := bytesBits_packBits_append bits rest
    rw [e, h3]
    simp only [Option.map_some]
    congr 2
    exact alignIn_pad _ _ (by simpa using hk) (by rw [bytesBits_length]; omega)

/-- The full claim: whenever the encoder has chosen codes for a block of less than `2^31` bytes,
they are written and read back. -/
def C26_claim : Prop :=
  ∀ (cheap : Nat → Nat → Nat × Nat → Bool) (freqs : List Nat) (dist : List (Nat × Nat)),
    freqs.length = 256 → (∃ f ∈ freqs, 0 < f) → IsDistribution dist →
    (dist.map fun p => p.1 * p.2).sum < 2 ^ 31 → ∀ c, chooseCodes cheap freqs dist = some c →
    ∃ bits, treeShape c = some bits ∧ ∀ rest : List UInt8,
      (readShape (bytesBits (packBits bits ++ rest))).map (fun r => (r.1, alignIn r.2)) = some (c, bytesBits rest)

/-- Frequencies of the runs of the block `a^(2^30+5) b a^2 b^3 a^3`. -/
def C26_freqs : List Nat := (List.range 256).map fun i => if i = 97 then 3 else if i = 98 then 2 else 0

/-- Run lengths of that block. -/
def C26_dist : List (Nat × Nat) := [(1, 1), (1, 2), (2, 3), (1, 2 ^ 30 + 5)]

/-- The codes chosen for that block. -/
def C26_codes : Codes where
  root := .node none (.leaf 97) (.leaf 98)
  codes := [(97, [false]), (98, [true])]
  itree := .node none (.leaf 3) (.node none (.leaf 0) (.leaf (2 ^ 30 + 5)))
  icodes := [(0, [true, false]), (3, [false]), (2 ^ 30 + 5, [true, true])]
  w := 0

/-- C26 is false of the code: `a^(2^30+5) b a^2 b^3 a^3` gets a table with the run lengths 3 and
`2^30+5`, and the interpolative code of the table shifts an `int` by 31. -/
theorem C26_fails : ¬ C26_claim := by
  intro h
  obtain ⟨bits, h1, _⟩ := h (fun _ _ _ => false) C26_freqs C26_dist (by decide +kernel)
    ⟨2, by decide +kernel, by decide⟩ ⟨by decide, by decide, by decide⟩ (by decide +kernel) C26_codes
    (by decide +kernel)
  have h2 : BitCodes.interpCode [0, 3, 2 ^ 30 + 5] 0 2 0 (2 ^ 30 + 5) = none := by
    rw [BitCodes.interpCode]
    have : BitCodes.binaryCode 3 1 (2 ^ 30 + 4) = none := by decide +kernel
    simp [BitCodes.usub]
    intro x hx
    rw [this] at hx
    simp at hx
  have h3 : integerShape C26_codes.icodes 0 = none := by
    rw [integerShape]
    simp [C26_codes]
    intro p k hp
    have hpos := (packInteger_pos (n := 2 ^ 30 + 5) (by decide) hp).mpr (by decide)
    rw [if_pos hpos]
    have h2 : BitCodes.interpCode [0, 3, 1073741829] 0 2 0 1073741829 = none := h2
    rw [h2]
    cases packedRev 3 with
    | none => rfl
    | some x => cases packedRev (longest [[true, false], [false], [true, true]]) <;> rfl
  rw [treeShape, show C26_codes.w = 0 from rfl, h3] at h1
  cases charShape C26_codes.codes <;> simp at h1

/-- A case of the hypotheses with a table of run lengths: 60 runs of length 1, 30 of length 2,
3 of length 7. -/
example : IsDistribution [(60, 1), (30, 2), (3, 7)] := ⟨by decide, by decide, by decide⟩

example : ((chooseCodes (fun _ _ p => decide (30 ≤ p.1)) C26_freqs [(60, 1), (30, 2), (3, 7)]).map
    (fun c => (c.icodes, c.w))) =
    some ([(0, [true, true, false]), (1, [false]), (2, [true, false]), (7, [true, true, true])], 0) := by decide +kernel

/-! ## C27 -/

/-- The claim: the search succeeds for every distribution and every outcome of the floating-point
comparisons; `none` is the dereferenced `rend()` (or any other access outside of a container). -/
def C27_claim : Prop :=
  ∀ (cheap : Nat → Nat → Nat × Nat → Bool) (dist : List (Nat × Nat)), IsDistribution dist →
    findParameters cheap dist ≠ none

theorem select_congr {f g : Nat × Nat → Bool} {l : List (Nat × Nat)}
    (h : ∀ p ∈ l, (f p = true ∧ 10 ≤ p.1) ↔ (g p = true ∧ 10 ≤ p.1)) (s : Sel) : select f l s = select g l s := by
  induction l generalizing s with
  | nil => rfl
  | cons p l ih =>
    have ih := fun s => ih (fun q hq => h q (List.mem_cons_of_mem _ hq)) s
    rw [select, select]
    by_cases hp : f p = true ∧ 10 ≤ p.1
    · rw [if_pos hp, if_pos ((h p List.mem_cons_self).mp hp), ih]
    · rw [if_neg hp, if_neg (fun x => hp ((h p List.mem_cons_self).mpr x)), ih]

theorem findParameters_rare (f g : Nat → Nat → Nat × Nat → Bool) {dist : List (Nat × Nat)}
    (h : ∀ p ∈ dist, p.1 < 10) : findParameters f dist = findParameters g dist := by
  have h' : ∀ p ∈ sortPairs dist, p.1 < 10 := fun p hp => h p ((sortPairs_perm dist).mem_iff.mp hp)
  have h1 : ∀ w depth, bitsForIntegers f w depth (sortPairs dist) = bitsForIntegers g w depth (sortPairs dist) := by
    intro w depth
    rw [bitsForIntegers, bitsForIntegers, integerLengths, integerLengths,
      select_congr (f := f w depth) (g := g w depth)]
    intro p hp
    have := h' p hp
    constructor <;> intro hx <;> omega
  have h2 : ∀ w ds st, searchDepth f (sortPairs dist) w ds st = searchDepth g (sortPairs dist) w ds st := by
    intro w ds
    induction ds with
    | nil => intro st; rfl
    | cons d ds ih => intro st; rw [searchDepth, searchDepth, h1]; simp only [ih]
  have h3 : ∀ ws st, searchW f (sortPairs dist) ws st = searchW g (sortPairs dist) ws st := by
    intro ws
    induction ws with
    | nil => intro st; rfl
    | cons w ws ih => intro st; rw [searchW, searchW, h2]; simp only [ih]
  rw [findParameters, findParameters, h3]

/-- C27 is false of the code: for a block like "abbccc" with one run each of the lengths 1, 2 and 3
the search dereferences `rend()`, however the comparisons come out. -/
theorem C27_fails (cheap : Nat → Nat → Nat × Nat → Bool) :
    IsDistribution [(1, 1), (1, 2), (1, 3)] ∧ findParameters cheap [(1, 1), (1, 2), (1, 3)] = none := by
  refine ⟨⟨by decide, by decide, by decide⟩, ?_⟩
  rw [findParameters_rare cheap (fun _ _ _ => false) (by decide)]
  decide +kernel

theorem C27_fails_claim : ¬ C27_claim := fun h =>
  h (fun _ _ _ => false) _ (C27_fails fun _ _ _ => false).1 (C27_fails fun _ _ _ => false).2

/-- C27 (partial: distributions with at most two lengths, or with two different frequencies, or
with a length of frequency at least 10 that the comparison favours for the depth 3 and every `w`).
Then the search stays inside its containers for every outcome of the comparisons, and the parameter fits
the four bits it is written with. -/
theorem C27_search_partial (cheap : Nat → Nat → Nat × Nat → Bool) (dist : List (Nat × Nat))
    (hd : IsDistribution dist)
    (h : dist.length ≤ 2 ∨ (∃ p ∈ dist, ∃ q ∈ dist, p.1 ≠ q.1) ∨
      ∀ w < 16, ∃ p ∈ dist, cheap w 3 p = true ∧ 10 ≤ p.1) :
    ∃ w lens, findParameters cheap dist = some (w, lens) ∧ w < 16 := by
  obtain ⟨h1, h2⟩ := findParameters_spec cheap hd.1 hd.2.1
  cases hf : findParameters cheap dist with
  | none =>
    obtain ⟨w, hw, ha, hb, hc⟩ := h2 hf
    rcases h with h | ⟨p, hp, q, hq, hne⟩ | h
    · omega
    · exact absurd (hc p hp q hq) hne
    · obtain ⟨p, hp, h3⟩ := h w hw
      have := hb p hp
      rw [deserves, decide_eq_false_iff_not] at this
      exact absurd h3 this
  | some r => exact ⟨r.1, r.2, rfl, (h1 _ _ hf).1⟩

/-- Frequencies that meet the hypotheses. -/
example : IsDistribution [(5, 1), (5, 2), (4, 3), (4, 8)] ∧
    ∃ p ∈ [(5, 1), (5, 2), (4, 3), (4, 8)], ∃ q ∈ [(5, 1), (5, 2), (4, 3), (4, 8)], p.1 ≠ q.1 :=
  ⟨⟨by decide, by decide, by decide⟩, (5, 1), by decide, (4, 3), by decide, by decide⟩

/-! ## C28 -/

/-- C28.  For every parameter and every run length: the fixed code exists, has the length the search
for parameters computes with, and is decoded to the same run length, in front of any bits. -/
theorem C28_fixed_code_roundtrip (w n : Nat) (hw : w < 16) (hn : 0 < n) (h32 : n < 2 ^ 32) :
    ∃ code, fixedCode n w = some code ∧ code.length = fixedLen n w ∧
      ∀ rest, readFixed w (code ++ rest) = some (n, rest) := by
  have h := fixedCode_eq hn (by omega : w < 64)
  exact ⟨_, h, fixedCode_length h, fun rest => readFixed_code hn h32 hw h rest⟩

/-- C28, for the codes chosen by the encoder: every run length - in the table or not - has a code,
and it is decoded to the same run length, in front of any bits. -/
theorem C28_run_code_roundtrip (cheap : Nat → Nat → Nat × Nat → Bool) (freqs : List Nat)
    (dist : List (Nat × Nat)) (h256 : freqs.length = 256) (hne : ∃ f ∈ freqs, 0 < f)
    (hd : IsDistribution dist) (c : Codes) (hc : chooseCodes cheap freqs dist = some c)
    (n : Nat) (hn : 0 < n) (h32 : n < 2 ^ 32) :
    ∃ code, runCode c n = some code ∧ ∀ rest, decodeRun c (code ++ rest) = some (n, rest) := by
  have hg := chooseCodes_good h256 (present_of_pos hne) hd.1 hd.2.1 hc
  obtain ⟨code, h⟩ := runCode_some hg hn
  exact ⟨code, h, fun rest => decodeRun_code hg hn h32 h rest⟩

/-- Codes with a table: the code of 5 is the escape code 110 followed by the fixed code of 5. -/
example : ((chooseCodes (fun _ _ p => decide (30 ≤ p.1)) C26_freqs [(60, 1), (30, 2), (3, 7)]).bind fun c =>
    (runCode c 5)) = some [true, true, false, true, true, false, false, true] := by decide +kernel

end Bwtc.Props
