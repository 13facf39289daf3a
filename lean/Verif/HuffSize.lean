import Verif.HuffBlock

/-!
# The size of the output of the Huffman coder

Bounds for the parts of an encoded section (HuffmanCoders.cpp:138-251): the shape of the code, the codes of the symbols and the
codes of the run lengths.
-/

set_option autoImplicit false

namespace Bwtc.HuffSize
open Varint BitCodes HuffShape BitBuffer HuffLookup HuffCodes Huff HuffBlock

/-! ## Interpolative code -/

theorem binary_len {n lo hi : Nat} {c : List Bool} (h1 : lo ≤ hi) (h2 : hi < lo + 256) (h3 : hi < 2 ^ 62)
    (h : binaryCode n lo hi = some c) : c.length ≤ 8 := by
  rw [binaryCode, usub_of_le h1 (by omega)] at h
  have hm : (hi - lo + 1) % 2 ^ 64 = hi - lo + 1 := Nat.mod_eq_of_lt (by omega)
  rw [hm] at h
  simp only at h
  by_cases he : hi - lo + 1 = 1
  · rw [if_pos he] at h
    simp at h
    simp [h]
  · rw [if_neg he] at h
    obtain ⟨L, e1, e2, e3, e4⟩ := codeParams_spec (R := hi - lo + 1) (by omega) (by omega)
    have hL : L < 8 := by
      apply Decidable.byContradiction
      intro hc
      have := Nat.pow_le_pow_right (show 0 < 2 by omega) (show 8 ≤ L by omega)
      omega
    rw [e1] at h
    simp only [Option.bind_eq_bind, Option.bind_some, Option.pure_def] at h
    split at h
    · simp only [Option.some.injEq] at h
      rw [← h, bitsOf_length]; omega
    · split at h
      · simp only [Option.some.injEq] at h
        rw [← h, bitsOf_length]; omega
      · simp only [Option.some.injEq] at h
        rw [← h, bitsOf_length]; omega

/-- At most eight bits for each element of a list of bytes. -/
theorem interp_len (list : List Nat) (f : Nat → Nat)
    (hf : ∀ i, i < list.length → list[i]? = some (f i))
    (hmono : ∀ i, i + 1 < list.length → f i < f (i + 1)) (hL : list.length ≤ 2 ^ 62) :
    ∀ (n b lo hi : Nat), b + n ≤ list.length →
      (∀ i, i < n → lo ≤ f (b + i) ∧ f (b + i) ≤ hi) →
      hi < lo + 256 → hi < 2 ^ 62 → 0 < n →
      ∀ c, interpCode list b (b + n - 1) lo hi = some c → c.length ≤ 8 * n := by
  intro n
  induction n using Nat.strongRecOn with
  | ind n ih =>
  intro b lo hi hlen hrange hr h62 hn c hc
  have hsp : ∀ i k, i + k < n → f (b + i) + k ≤ f (b + i + k) :=
    fun i k hik => spaced hmono (b + i) k (by omega)
  have hlast := hrange (n - 1) (by omega)
  have hfirst := hrange 0 hn
  have hlohi : lo ≤ hi := by omega
  have husub : usub hi lo = hi - lo := usub_of_le hlohi (by omega)
  rw [interpCode, if_neg (by omega), husub] at hc
  by_cases hfull : b + n - 1 - b = hi - lo
  · rw [if_pos hfull] at hc
    simp at hc
    simp [hc]
  · rw [if_neg hfull] at hc
    by_cases hone : n = 1
    · subst hone
      rw [if_pos (by omega), hf b (by omega)] at hc
      simp only [Option.bind_eq_bind, Option.bind_some] at hc
      have := binary_len hlohi hr h62 hc
      omega
    · have hne : ¬ b = b + n - 1 := by omega
      rw [if_neg hne] at hc
      have he : b + n - 1 - b = n - 1 := by omega
      rw [he] at hc
      obtain ⟨h, hhdef⟩ : ∃ h, (n - 1) / 2 = h := ⟨_, rfl⟩
      have hh : h < n - 1 := by omega
      simp only [hhdef] at hc
      have hx := hrange h (by omega)
      have hs1 := hsp 0 h (by omega)
      have hs2 := hsp h (n - 1 - h) (by omega)
      simp only [Nat.add_zero] at hs1 hfirst
      rw [show b + h + (n - 1 - h) = b + (n - 1) by omega] at hs2
      have hub : usub (hi + (b + h)) (b + n - 1) = hi - (n - 1 - h) := by
        rw [usub_of_le (by omega) (by have := hlen; omega)]; omega
      rw [hf (b + h) (by omega)] at hc
      simp only [Option.bind_eq_bind, Option.bind_some, hub] at hc
      rw [Option.bind_eq_some_iff] at hc
      obtain ⟨c1, hc1, hc⟩ := hc
      rw [Option.bind_eq_some_iff] at hc
      obtain ⟨c2, hc2, hc⟩ := hc
      rw [Option.bind_eq_some_iff] at hc
      obtain ⟨c3, hc3, hc⟩ := hc
      simp only [Option.pure_def, Option.some.injEq] at hc
      subst hc
      have l1 := binary_len (by omega) (by omega) (by omega) hc1
      have l3 := ih (n - h - 1) (by omega) (b + h + 1) (f (b + h) + 1) hi (by omega)
        (fun i hi' => by
          have := hrange (h + 1 + i) (by omega)
          have h' := hsp h (1 + i) (by omega)
          rw [show b + h + 1 + i = b + (h + 1 + i) by omega]
          rw [show b + h + (1 + i) = b + (h + 1 + i) by omega] at h'
          omega)
        (by omega) h62 (by omega) c3 (by
          rw [show b + h + 1 + (n - h - 1) - 1 = b + n - 1 by omega]
          exact hc3)
      have l2 : c2.length ≤ 8 * h := by
        by_cases h0 : 0 < h
        · have hu : usub (f (b + h)) 1 = f (b + h) - 1 := usub_of_le (by omega) (by omega)
          rw [if_pos (by omega), hu] at hc2
          exact ih h (by omega) b lo (f (b + h) - 1) (by omega)
            (fun i hi' => by
              have := hrange i (by omega)
              have h' := hsp i (h - i) (by omega)
              rw [show b + i + (h - i) = b + h by omega] at h'
              omega)
            (by omega) (by omega) h0 c2 hc2
        · rw [if_neg (by omega), Option.some.injEq] at hc2
          rw [← hc2]
          simp
      simp only [List.length_append]
      omega

theorem interp0_len {list : List Nat} {hi : Nat} {c : List Bool} (hne : list ≠ []) (hmono : list.Pairwise (· < ·))
    (hmem : ∀ x ∈ list, x ≤ hi) (h256 : hi < 256) (h : interpCode0 list hi = some c) : c.length ≤ 8 * list.length := by
  have hpos : 0 < list.length := List.length_pos_iff.mpr hne
  have hf : ∀ i, i < list.length → list[i]? = some (list[i]?.getD 0) := by
    intro i hi'
    simp [List.getElem?_eq_getElem hi']
  have hmono' : ∀ i, i + 1 < list.length → list[i]?.getD 0 < list[i + 1]?.getD 0 := by
    intro i hi'
    rw [List.getElem?_eq_getElem (by omega), List.getElem?_eq_getElem hi']
    exact List.pairwise_iff_getElem.mp hmono i (i + 1) (by omega) hi' (by omega)
  have hmem' : ∀ i, i < list.length → list[i]?.getD 0 ≤ hi := by
    intro i hi'
    rw [List.getElem?_eq_getElem hi']
    exact hmem _ (List.getElem_mem hi')
  have hL : list.length ≤ 2 ^ 62 := by
    have := spaced (f := fun i => list[i]?.getD 0) hmono' 0 (list.length - 1) (by omega)
    have := hmem' (list.length - 1) (by omega)
    simp only [Nat.zero_add] at *
    omega
  rw [interpCode0, usub_of_le (by omega) (by omega)] at h
  exact interp_len list (fun i => list[i]?.getD 0) hf hmono' hL list.length 0 0 hi (by omega)
    (fun i hi' => ⟨Nat.zero_le _, by simpa using hmem' i hi'⟩) (by omega) (by omega) hpos c (by simpa using h)

/-! ## Shape -/

theorem unary_sum_le (m : Nat) (ps : List (Nat × Nat)) (h : ∀ p ∈ ps, 0 < p.1 ∧ p.1 ≤ m) :
    (ps.flatMap fun p => unaryCode (m - p.1 + 1)).length ≤ ps.length * m := by
  induction ps with
  | nil => simp
  | cons p ps ih =>
    have := ih (fun q hq => h q (by simp [hq]))
    have := h p (by simp)
    rw [List.flatMap_cons, List.length_append, unaryCode_length _ (by omega), List.length_cons, Nat.add_mul]
    omega

/-- The shape of a code with at most 256 symbols and lengths up to `m` takes `259 + 32 m` bytes at most. -/
theorem shape_len {clen : List Nat} {m : Nat} {bits : List Bool} (h256 : clen.length = 256) (hm : m < 128)
    (hlt : ∀ l ∈ clen, l ≤ m) (h : serializeShape clen = some bits) : (packBits bits).length ≤ 259 + 32 * m := by
  have hsorted := used_sorted clen
  have hlen := used_length_le clen
  have hmx : maxLenOf clen ≤ m := maxLenOf_le hlt
  have hmem : ∀ p ∈ usedPairs clen, 0 < p.1 ∧ p.1 ≤ maxLenOf clen := by
    intro p hp
    have := mem_usedPairs.mp hp
    exact ⟨this.2, le_maxLenOf (List.mem_of_getElem? this.1)⟩
  have hidx : ∀ x ∈ (usedPairs clen).map (·.2), x < 256 := by
    intro x hx
    obtain ⟨p, hp, rfl⟩ := List.mem_map.mp hx
    obtain ⟨h, _⟩ := List.getElem?_eq_some_iff.mp (mem_usedPairs.mp hp).1
    omega
  unfold serializeShape at h
  generalize maxLenOf clen = k at *
  generalize usedPairs clen = ps at *
  by_cases hne : ps.map (·.2) = []
  · simp only [hne, List.getLast?_nil, Option.bind_eq_bind, Option.bind_none] at h
    exact absurd h (by simp)
  obtain ⟨b, hb1, hb2, hb3⟩ := getLast_max _ hsorted hne
  have hb256 := hidx b hb2
  have hv : vbytes k = [UInt8.ofNat k] := by
    rw [vbytes, if_pos (by omega)]
  simp only [hb1, Option.bind_eq_bind, Option.bind_some, packInteger_eq (show k < 2 ^ 56 by omega)] at h
  rw [Option.bind_eq_some_iff] at h
  obtain ⟨al, ha, h⟩ := h
  simp only [Option.pure_def, Option.some.injEq] at h
  have l1 := interp0_len hne hsorted hb3 hb256 ha
  rw [List.length_map] at l1
  have l2 := unary_sum_le k ps hmem
  have l3 : ps.length * k ≤ 256 * m := Nat.mul_le_mul (by omega) hmx
  have l4 := congrArg List.length h
  simp only [List.length_append, bitsOf_length, hv, List.length_cons, List.length_nil] at l4
  rw [packBits_length]
  omega

/-! ## Symbols -/

theorem sum_indicator_ge {S : List Nat} {f : Nat → Nat} {k : UInt8} (h : k.toNat ∈ S) :
    f k.toNat ≤ (S.map fun s => (if UInt8.ofNat s = k then 1 else 0) * f s).sum := by
  induction S with
  | nil => simp at h
  | cons a S ih =>
    rw [List.map_cons, List.sum_cons]
    rcases List.mem_cons.mp h with h | h
    · subst h
      rw [UInt8.ofNat_toNat, if_pos rfl]
      omega
    · have := ih h
      omega

/-- Summing over the symbols of a text is summing over the alphabet, weighted with the counts. -/
theorem sum_le_weighted {S : List Nat} {f : Nat → Nat} {ks : List UInt8} (h : ∀ k ∈ ks, k.toNat ∈ S) :
    (ks.map fun k => f k.toNat).sum ≤ (S.map fun s => ks.count (UInt8.ofNat s) * f s).sum := by
  induction ks with
  | nil => simp
  | cons k ks ih =>
    have h1 := ih (fun x hx => h x (by simp [hx]))
    have h2 := sum_indicator_ge (f := f) (h k (by simp))
    have h3 : (S.map fun s => (k :: ks).count (UInt8.ofNat s) * f s).sum =
        (S.map fun s => ks.count (UInt8.ofNat s) * f s).sum +
          (S.map fun s => (if UInt8.ofNat s = k then 1 else 0) * f s).sum := by
      clear h h1 h2 ih
      induction S with
      | nil => rfl
      | cons a S ih =>
        rw [List.map_cons, List.sum_cons, ih, List.map_cons, List.map_cons, List.sum_cons, List.sum_cons, List.count_cons]
        have : (if (k == UInt8.ofNat a) = true then 1 else 0) = (if UInt8.ofNat a = k then 1 else 0) := by
          by_cases h : UInt8.ofNat a = k
          · simp [h]
          · simp [h, Ne.symm h]
        rw [this, Nat.add_mul]
        omega
    rw [List.map_cons, List.sum_cons, h3]
    omega

theorem bitsOf_inj8 {i j : Nat} (hi : i < 256) (hj : j < 256) (h : bitsOf 8 i = bitsOf 8 j) : i = j := by
  have := congrArg natOf h
  rw [natOf_bitsOf, natOf_bitsOf] at this
  omega

open Props in
/-- No code is longer than the weight allows: at least `fib l` runs for a code of `l > 1` bits. -/
theorem lengths_fib (freqs : List Nat) (h : freqs.sum < 2 ^ 31) (out : List (Nat × Nat))
    (ho : calculateHuffmanLengths freqs = some out) : ∀ p ∈ out, p.1 = 1 ∨ fib p.1 ≤ freqs.sum := by
  have hmem : ∀ p ∈ freqs.zipIdx.filter fun p => p.1 ≠ 0, 0 < p.1 := fun p hp => (mem_pairs hp).2
  have hsum : ((freqs.zipIdx.filter fun p => p.1 ≠ 0).map (·.1)).sum ≤ freqs.sum := by
    have gen : ∀ (l : List Nat) (k : Nat), (((l.zipIdx k).filter fun p => p.1 ≠ 0).map (·.1)).sum ≤ l.sum := by
      intro l
      induction l with
      | nil => intro k; simp
      | cons x l ih =>
        intro k
        have := ih (k + 1)
        rw [List.zipIdx_cons, List.filter_cons]
        split
        · rw [List.map_cons, List.sum_cons, List.sum_cons]
          omega
        · rw [List.sum_cons]
          omega
    exact gen freqs 0
  unfold calculateHuffmanLengths at ho
  generalize (freqs.zipIdx.filter fun p => p.1 ≠ 0) = ps at *
  by_cases hn : 2 ≤ ps.length
  · obtain ⟨ls, T, e1, e2, e3, e4, e5, e6⟩ := code_spec ps hn
    rw [e1] at ho
    simp only [Option.some.injEq] at ho
    subst ho
    have hS := sortPairs_perm ps
    generalize sortPairs ps = S at *
    have hSl : ls.length = (S.map (·.2)).length := by rw [List.length_map, hS.length_eq, e2]
    have hTl : T.lws.length = ps.length := by rw [e5.length_eq, List.length_map, hS.length_eq]
    have hW : 2 ^ 31 ≤ W64 := by
      unfold W64
      exact Nat.pow_le_pow_right (by omega) (by omega)
    have hg := e6 (by omega)
    have hh := greedy_height hg (by
      intro w hw
      obtain ⟨p, hp, rfl⟩ := List.mem_map.mp hw
      exact hmem p (hS.mem_iff.mp hp))
    rw [(hS.map (·.1)).sum_nat] at hh
    intro p hp
    have : p.1 ∈ ls := by
      rw [← zip_map_fst _ _ hSl]
      exact List.mem_map_of_mem hp
    have := (tree_lengths (T := T) (by omega)).1 p.1 (e4.mem_iff.mp this)
    have := fib_mono this.2
    omega
  · match ps, hn with
    | [], _ => simp [calculateCodeLengths] at ho
    | [q], _ =>
      simp [calculateCodeLengths] at ho
      subst ho
      intro p hp
      simp at hp
      subst hp
      simp
    | _ :: _ :: _, hn => simp at hn

open Props in
/-- The codes of the symbols of a text take eight bits on average at most. -/
theorem cost_le {ks : List UInt8} (hne : ks ≠ []) (hlen : ks.length < 2 ^ 31) (hadj : ∀ k, (∀ x ∈ ks, x = k) → ks = [k])
    {lens : List (Nat × Nat)} {clen : List Nat}
    (l1 : calculateHuffmanLengths (freqList fun c => ks.count c) = some lens)
    (l2 : setAll lens (List.replicate 256 0) = some clen) :
    (ks.map fun k => clen[k.toNat]?.getD 0).sum ≤ 8 * ks.length ∧ ∀ l ∈ clen, l ≤ 1 ∨ fib l ≤ ks.length := by
  have hsum := freqList_sum ks
  have hfib := lengths_fib _ (by omega) lens l1
  rw [hsum] at hfib
  obtain ⟨syms, hsyms⟩ : ∃ s, s = (List.range 256).filter fun i => 0 < ks.count (UInt8.ofNat i) := ⟨_, rfl⟩
  have hmem : ∀ i, i ∈ syms ↔ i < 256 ∧ UInt8.ofNat i ∈ ks := by
    intro i
    rw [hsyms, List.mem_filter, List.mem_range, decide_eq_true_eq, List.count_pos_iff]
  have hmem' : ∀ k ∈ ks, k.toNat ∈ syms := by
    intro k hk
    rw [hmem]
    exact ⟨k.toNat_lt, by rw [UInt8.ofNat_toNat]; exact hk⟩
  have hnd : syms.Nodup := by rw [hsyms]; exact List.Pairwise.filter _ List.nodup_range
  by_cases h2 : 2 ≤ syms.length
  · obtain ⟨out, e1, e2, e3⟩ := C18_huffman_optimal 256 (fun i => ks.count (UInt8.ofNat i)) syms hsyms h2 (by
      rw [freqList] at hsum
      rw [hsum]
      omega) (fun i => bitsOf 8 i) (by
      intro i hi j hj hij hc
      have := hc.eq_of_length (by rw [bitsOf_length, bitsOf_length])
      exact hij (bitsOf_inj8 ((hmem i).mp hi).1 ((hmem j).mp hj).1 this))
    rw [freqList, e1] at l1
    simp only [Option.some.injEq] at l1
    subst l1
    have hnd2 : (out.map (·.2)).Nodup := e2.nodup_iff.mpr hnd
    obtain ⟨t, s1, s2, s3, s4⟩ := setAll_spec out hnd2 (List.replicate 256 0) (by
      intro p hp
      rw [List.length_replicate]
      exact ((hmem _).mp (e2.mem_iff.mp (List.mem_map_of_mem (f := (·.2)) hp))).1)
    rw [l2] at s1
    simp only [Option.some.injEq] at s1
    subst s1
    constructor
    · refine Nat.le_trans (sum_le_weighted (S := out.map (·.2)) (f := fun i => clen[i]?.getD 0) (fun k hk => e2.mem_iff.mpr (hmem' k hk))) ?_
      rw [List.map_map]
      have g1 : (out.map ((fun s => ks.count (UInt8.ofNat s) * clen[s]?.getD 0) ∘ fun x => x.2)) =
          out.map fun p => ks.count (UInt8.ofNat p.2) * p.1 := by
        apply List.map_congr_left
        intro p hp
        simp only [Function.comp_apply, s3 p hp, Option.getD_some]
      rw [g1]
      refine Nat.le_trans e3 ?_
      rw [← hsum, freqList]
      simp only [bitsOf_length]
      rw [hsyms]
      generalize List.range 256 = r
      clear e1 e2 e3 hmem hmem' hnd hsyms h2 s2 s3 s4 hnd2 g1 hsum
      induction r with
      | nil => simp
      | cons a r ih =>
        rw [List.filter_cons]
        split
        · simp only [List.map_cons, List.sum_cons]
          omega
        · simp only [List.map_cons, List.sum_cons]
          omega
    · intro l hl
      obtain ⟨i, hi, he⟩ := List.mem_iff_getElem.mp hl
      by_cases hm : i ∈ out.map (·.2)
      · obtain ⟨p, hp, rfl⟩ := List.mem_map.mp hm
        have h3 := s3 p hp
        rw [List.getElem?_eq_getElem hi, he] at h3
        simp only [Option.some.injEq] at h3
        rw [h3]
        rcases hfib p hp with h | h
        · exact .inl (by omega)
        · exact .inr h
      · have h4 := s4 i hm
        rw [List.getElem?_eq_getElem hi, he, List.getElem?_replicate] at h4
        split at h4
        · simp at h4
          exact .inl (by omega)
        · simp at h4
  · obtain ⟨k, hk⟩ := List.exists_mem_of_ne_nil ks hne
    have hk' := hmem' k hk
    have hone : syms = [k.toNat] := by
      clear hsyms hmem hmem' hnd
      match syms with
      | [] => simp at hk'
      | [a] => simp at hk'; rw [hk']
      | a :: b :: l => simp at h2
    have hks := hadj k (by
      intro x hx
      have := hmem' x hx
      rw [hone, List.mem_singleton] at this
      exact UInt8.toNat_inj.mp this)
    have hps : presentSymbols (freqList fun c => ks.count c) = [k.toNat] := by
      rw [← hone, hsyms, presentSymbols, freqList, List.length_map, List.length_range]
      apply List.filter_congr
      intro i hi
      have hi' := List.mem_range.mp hi
      have : ((List.range 256).map fun i => ks.count (UInt8.ofNat i))[i]? = some (ks.count (UInt8.ofNat i)) := by simp [hi']
      rw [this]
      simp
    rw [C17_single_symbol _ _ hps] at l1
    simp only [Option.some.injEq] at l1
    subst l1
    have hkl : k.toNat < (List.replicate 256 0).length := by rw [List.length_replicate]; exact k.toNat_lt
    simp only [setAll, setAt, hkl, if_true, Option.bind_eq_bind, Option.bind_some, Option.some.injEq] at l2
    subst l2
    constructor
    · rw [hks]
      simp only [List.map_cons, List.map_nil, List.sum_cons, List.sum_nil, List.length_cons, List.length_nil]
      rw [List.getElem?_set_self hkl]
      simp
    · intro l hl
      rcases List.mem_or_eq_of_mem_set hl with hl | hl
      · rw [List.mem_replicate] at hl
        exact .inl (by omega)
      · exact .inl (by omega)

/-! ## A section -/

theorem codes_len {clen code : List Nat} : ∀ {ks : List UInt8} {cs : List (Nat × Nat)},
    ks.mapM (codeOf clen code) = some cs →
    (cs.flatMap fun c => bitsOf c.1 c.2).length = (ks.map fun k => clen[k.toNat]?.getD 0).sum := by
  intro ks
  induction ks with
  | nil =>
    intro cs h
    simp at h
    simp [h]
  | cons k ks ih =>
    intro cs h
    rw [List.mapM_cons] at h
    simp only [Option.bind_eq_bind] at h
    rw [Option.bind_eq_some_iff] at h
    obtain ⟨c, h1, h⟩ := h
    rw [Option.bind_eq_some_iff] at h
    obtain ⟨cs', h2, h⟩ := h
    simp only [Option.pure_def, Option.some.injEq] at h
    subst h
    rw [codeOf] at h1
    simp only [Option.bind_eq_bind] at h1
    rw [Option.bind_eq_some_iff] at h1
    obtain ⟨l, h3, h1⟩ := h1
    rw [Option.bind_eq_some_iff] at h1
    obtain ⟨v, h4, h1⟩ := h1
    simp only [Option.pure_def, Option.some.injEq] at h1
    subst h1
    rw [List.flatMap_cons, List.length_append, ih h2, List.map_cons, List.sum_cons, h3, bitsOf_length, Option.getD_some]

theorem log2_lt_self {n : Nat} (h : 1 ≤ n) : n.log2 < n := by
  have hb := log2_bounds (n := n) (by omega)
  have := Nat.lt_two_pow_self (n := n.log2)
  omega

/-- Eight bits for the symbol and the code of the length of a run are nine bits per byte at most. -/
theorem gammas_len (rs : List (UInt8 × Nat)) (h : ∀ r ∈ rs, 1 ≤ r.2) :
    8 * rs.length + ((rs.map (·.2)).flatMap fun n => bitsOf (n.log2 * 2 + 1) n).length ≤ 9 * (Runs.expand rs).length := by
  induction rs with
  | nil => simp [Runs.expand]
  | cons r rs ih =>
    have h1 := ih (fun q hq => h q (by simp [hq]))
    have h2 := log2_lt_self (h r (by simp))
    rw [List.map_cons, List.flatMap_cons, List.length_append, bitsOf_length, List.length_cons]
    have : (Runs.expand (r :: rs)).length = r.2 + (Runs.expand rs).length := by
      simp [Runs.expand]
    omega

theorem fib_large {n : Nat} (h : 19 ≤ n) : 512 * n ≤ fib n := by
  obtain ⟨k, rfl⟩ : ∃ k, n = k + 19 := ⟨n - 19, by omega⟩
  clear h
  have : 512 * (k + 19) ≤ fib (k + 19) ∧ 512 * (k + 20) ≤ fib (k + 20) := by
    induction k with
    | zero => decide +kernel
    | succ k ih =>
      refine ⟨by rw [show k + 1 + 19 = k + 20 by omega]; exact ih.2, ?_⟩
      rw [show k + 1 + 20 = (k + 19) + 2 by omega, fib]
      rw [show k + 19 + 1 = k + 20 by omega]
      omega
  exact this.1

/-- The code of a length of a section needs one sixteenth of the section, or 576 bytes, for the longest code. -/
theorem max_len {R : Nat} {clen : List Nat} (h31 : R < 2 ^ 31) (h : ∀ l ∈ clen, l ≤ 1 ∨ fib l ≤ R) :
    ∃ m, m < 128 ∧ (∀ l ∈ clen, l ≤ m) ∧ (m ≤ 18 ∨ 512 * m ≤ R) := by
  have hb : ∀ {l : Nat}, l ∈ clen → l ≤ maxLenOf clen := fun h => le_maxLenOf h
  refine ⟨maxLenOf clen, ?_, fun l hl => hb hl, ?_⟩
  · apply Nat.lt_of_le_of_lt (maxLenOf_le (b := 44) ?_) (by omega)
    intro l hl
    rcases h l hl with h | h
    · omega
    · apply Decidable.byContradiction
      intro hc
      have := fib_mono (show 45 ≤ l by omega)
      rw [fib_45] at this
      omega
  · by_cases hc : maxLenOf clen ≤ 18
    · exact .inl hc
    · apply Or.inr
      apply Decidable.byContradiction
      intro hcc
      have : maxLenOf clen ≤ maxLenOf clen - 1 := by
        apply maxLenOf_le
        intro l hl
        have := hb hl
        by_cases h19 : 19 ≤ l
        · rcases h l hl with h | h
          · omega
          · have := fib_large h19
            omega
        · omega
      omega

/-- One section: at most one byte in eight is added, plus 841 bytes or, for the shape of the code, one byte in sixteen. -/
theorem section_size (sec : List UInt8) (hne : sec ≠ []) (hlen : sec.length < 2 ^ 31)
    (hrun : ∀ r ∈ Runs.runsOf sec, r.2 < 2 ^ 29) {w : List UInt8} {n : Nat} (h : encodeSection sec = some (w, n)) :
    8 * w.length ≤ 9 * sec.length + 7 + 8 * 840 ∨
      16 * w.length ≤ 19 * sec.length + 14 + 16 * 264 := by
  have hR := Runs.runsOf_isRuns sec
  have hRl := Runs.runsOf_length_le sec
  have hstore := Runs.storeRuns_eq 0 (fun _ => 0) [] sec hne (by omega)
  generalize Runs.runsOf sec = rs at *
  have hrs : rs ≠ [] := by
    rintro rfl
    have := hR.expands
    simp [Runs.expand] at this
    exact hne this
  obtain ⟨lens, clen, code, l1, l2, l3, l4, l5, g⟩ := lengths_good (rs.map (·.1)) (by simpa using hrs)
    (by rw [List.length_map]; omega) (adj_single hR.adj hrs)
  obtain ⟨cs, c1, c2, c3⟩ := g.roundtrip
  obtain ⟨shape, s1, s2⟩ := shape_roundtrip clen l3 (fun l hl => by have := l4 l hl; omega) l5
  have hfr : freqList ((rs.map (·.1)).foldl Runs.bump fun _ => 0) = freqList fun c => (rs.map (·.1)).count c := by
    rw [freqList, freqList]
    apply List.map_congr_left
    intro i _
    rw [Runs.bump_foldl]
    omega
  have hg := writeGammas_spec (rs.map (·.2)) (by
    intro n hn
    obtain ⟨r, hr, rfl⟩ := List.mem_map.mp hn
    exact ⟨hR.pos r hr, hrun r hr⟩)
  have hw := writeCodes_spec cs c2
  have hmap : rs.mapM (fun r => codeOf clen code r.1) = some cs := by
    rw [← c1, List.mapM_map]
    rfl
  obtain ⟨q1, q2⟩ := cost_le (by simpa using hrs) (by rw [List.length_map]; omega) (adj_single hR.adj hrs) l1 l2
  rw [List.length_map] at q1 q2
  obtain ⟨m, m1, m2, m3⟩ := max_len (by omega) q2
  have b1 := shape_len l3 m1 m2 s1
  have b2 := codes_len c1
  have b3 := gammas_len rs hR.pos
  rw [hR.expands] at b3
  have b4 := vbytes_length_le (n := rs.length) (k := 5) (by omega) (by omega)
  unfold encodeSection at h
  rw [hstore] at h
  simp only [Nat.zero_add, List.nil_append, Option.bind_eq_bind, Option.bind_some, hfr, l1, l2, s1, g.codes,
      hmap, hw, hg, Option.pure_def, packInteger_eq (show rs.length < 2 ^ 56 by omega), Option.some.injEq, Prod.mk.injEq] at h
  have h := congrArg List.length h.1
  simp only [List.length_append, writePacked_vbytes, packBits_length (List.flatMap _ _)] at h
  rw [b2] at h
  generalize ((rs.map (·.2)).flatMap fun n => bitsOf (n.log2 * 2 + 1) n).length = G at *
  generalize ((rs.map (·.1)).map fun k => clen[k.toNat]?.getD 0).sum = S at *
  rcases m3 with m3 | m3
  · left; omega
  · right; omega

/-! ## A block -/

/-- A section together with its length in the header of the block. -/
theorem section_size' (sec : List UInt8) (hne : sec ≠ []) (hlen : sec.length < 2 ^ 31)
    (hrun : ∀ r ∈ Runs.runsOf sec, r.2 < 2 ^ 29) {w : List UInt8} {n : Nat} (h : encodeSection sec = some (w, n)) :
    32 * (w.length + 5) ≤ 39 * sec.length + 32 * 846 ∧ (10000 ≤ sec.length → 32 * (w.length + 5) ≤ 39 * sec.length) := by
  have := section_size sec hne hlen hrun h
  omega

theorem encodeSections_cons {n : Nat} {ns : List Nat} {data w : List UInt8} {k : Nat} (h0 : n ≠ 0)
    (h : encodeSections (n :: ns) data = some (w, k)) : n ≤ data.length ∧ ∃ a x b y,
      encodeSection (data.take n) = some (a, x) ∧ encodeSections ns (data.drop n) = some (b, y) ∧ w = a ++ b := by
  rw [encodeSections, if_neg h0] at h
  by_cases hn : n ≤ data.length
  · rw [if_pos hn] at h
    simp only [Option.bind_eq_bind] at h
    rw [Option.bind_eq_some_iff] at h
    obtain ⟨⟨a, x⟩, h1, h⟩ := h
    rw [Option.bind_eq_some_iff] at h
    obtain ⟨⟨b, y⟩, h2, h⟩ := h
    simp only [Option.pure_def, Option.some.injEq, Prod.mk.injEq] at h
    exact ⟨hn, a, x, b, y, h1, h2, h.1.symm⟩
  · rw [if_neg hn] at h
    simp at h

theorem sections_size : ∀ (ns : List Nat) (data w : List UInt8) (k : Nat), (∀ x ∈ ns, 10000 ≤ x) → ns.sum = data.length →
    data.length < 2 ^ 31 → (∀ c, ¬ List.replicate (2 ^ 29) c <:+: data) → encodeSections ns data = some (w, k) →
    32 * (w.length + 5 * ns.length) ≤ 39 * data.length := by
  intro ns
  induction ns with
  | nil =>
    intro data w k _ _ _ _ h
    simp only [encodeSections, Option.some.injEq, Prod.mk.injEq] at h
    rw [← h.1]
    simp
  | cons n ns ih =>
    intro data w k hn hsum hlen hrun h
    have h1 := hn n (by simp)
    rw [List.sum_cons] at hsum
    obtain ⟨h2, a, x, b, y, h3, h4, rfl⟩ := encodeSections_cons (by omega) h
    have ht : (data.take n).length = n := by rw [List.length_take]; omega
    have h5 := ih (data.drop n) b y (fun x hx => hn x (by simp [hx])) (by rw [List.length_drop]; omega)
      (by rw [List.length_drop]; omega) (fun c hc => hrun c (hc.trans (List.drop_suffix n data).isInfix)) h4
    have h6 := (section_size' (data.take n) (by intro hc; rw [hc] at ht; simp at ht; omega) (by omega)
      (runs_infix (List.take_prefix n data).isInfix hrun) h3).2 (by omega)
    rw [List.length_drop] at h5
    rw [List.length_append, List.length_cons]
    omega

/-- The sections of a block, and their lengths in its header. -/
theorem sections_size' {stats : List Nat} {data w : List UInt8} {k : Nat} (hsum : stats.sum = data.length) (hne : data ≠ [])
    (hlen : data.length < 2 ^ 31) (hrun : ∀ c, ¬ List.replicate (2 ^ 29) c <:+: data)
    (h : encodeSections (Sections.sections stats) data = some (w, k)) :
    32 * (w.length + 5 * (Sections.sections stats).length) ≤ 39 * data.length + 32 * 846 := by
  have hpos : 0 < data.length := List.length_pos_iff.mpr hne
  obtain ⟨s1, s2, s3, s4, s5⟩ := Sections.sections_spec stats (by omega)
  generalize Sections.sections stats = ns at *
  by_cases h1 : 1 < ns.length
  · have := sections_size ns data w k (s3 h1) (by omega) hlen hrun h
    omega
  · match ns, h1, s5 (by omega) with
    | [n], _, _ =>
      have hn := s2 n (by simp)
      rw [List.sum_cons, List.sum_nil] at s1
      obtain ⟨h2, a, x, b, y, h3, h4, rfl⟩ := encodeSections_cons (by omega) h
      simp only [encodeSections, Option.some.injEq, Prod.mk.injEq] at h4
      have ht : data.take n = data := List.take_of_length_le (by omega)
      rw [ht] at h3
      have := (section_size' data hne hlen (runs_infix (List.infix_refl _) hrun) h3).1
      rw [← h4.1, List.append_nil, List.length_singleton]
      omega
    | _ :: _ :: _, h1, _ => simp at h1

theorem writeLengths_len : ∀ (l : List Nat), (∀ x ∈ l, x < 2 ^ 31) → ∀ r n, Sections.writeLengths l = some (r, n) →
    r.length ≤ 5 * l.length := by
  intro l
  induction l with
  | nil =>
    intro _ r n h
    simp only [Sections.writeLengths, Option.some.injEq, Prod.mk.injEq] at h
    simp [← h.1]
  | cons x l ih =>
    intro hx r n h
    have h1 := hx x (by simp)
    rw [Sections.writeLengths, packInteger_eq (by omega)] at h
    simp only [Option.bind_eq_bind, Option.bind_some] at h
    rw [Option.bind_eq_some_iff] at h
    obtain ⟨⟨a, y⟩, h2, h⟩ := h
    simp only [Option.pure_def, Option.some.injEq, Prod.mk.injEq, writePacked_vbytes] at h
    have h3 := ih (fun y hy => hx y (by simp [hy])) a y h2
    have h4 := vbytes_length_le (n := x) (k := 5) (by omega) (by omega)
    rw [← h.1, List.length_append, List.length_cons]
    omega

/-- A block with `p` starting points. -/
theorem block_size {powers stats : List Nat} {data w : List UInt8} {k : Nat} (hsum : stats.sum = data.length) (hne : data ≠ [])
    (hlen : data.length < 2 ^ 31) (hrun : ∀ c, ¬ List.replicate (2 ^ 29) c <:+: data)
    (h : encodeBlock powers stats data = some (w, k)) :
    32 * w.length ≤ 39 * data.length + 32 * (854 + (31 * powers.length + 7) / 8) := by
  have hpos : 0 < data.length := List.length_pos_iff.mpr hne
  obtain ⟨s1, s2, _, _, _⟩ := Sections.sections_spec stats (by omega)
  have hle : ∀ x ∈ Sections.sections stats, x ≤ (Sections.sections stats).sum := fun x hx => Sections.le_sum hx
  rw [encodeBlock, Sections.writeHeader, Sections.writeSections] at h
  simp only [Option.bind_eq_bind] at h
  rw [Option.bind_eq_some_iff] at h
  obtain ⟨⟨hd, n1⟩, h1, h⟩ := h
  rw [Option.bind_eq_some_iff] at h
  obtain ⟨⟨b, n2⟩, h2, h⟩ := h
  simp only [Option.pure_def, Option.some.injEq, Prod.mk.injEq] at h
  rw [Option.bind_eq_some_iff] at h1
  obtain ⟨⟨r, n3⟩, h3, h1⟩ := h1
  simp only [Option.pure_def, Option.some.injEq, Prod.mk.injEq] at h1
  rw [Option.bind_eq_some_iff] at h3
  obtain ⟨⟨r', n4⟩, h4, h3⟩ := h3
  simp only [Option.pure_def, Option.some.injEq, Prod.mk.injEq] at h3
  have l1 := writeLengths_len _ (fun x hx => by have := hle x hx; omega) _ _ h4
  have l2 := sections_size' hsum hne hlen hrun h2
  have l3 := BlockHeader.writeHeader_length powers
  rw [← h.1, ← h1.1, ← h3.1]
  simp only [List.length_append, List.length_cons, packBits_length, bitsOf_length]
  omega

end Bwtc.HuffSize
