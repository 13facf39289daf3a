import Verif.HuffOpt

/-!
# C17, C18: Huffman code lengths
-/

set_option autoImplicit false

namespace Bwtc.Props
open Huff

/-- The symbols with a positive frequency. -/
def presentSymbols (freqs : List Nat) : List Nat :=
  (List.range freqs.length).filter fun i => ∃ f, freqs[i]? = some f ∧ 0 < f

/-- Sum of `2^-l` equals 1 (all terms brought to the common denominator `2^m`). -/
def KraftEquality (ls : List Nat) : Prop :=
  ∀ m, (∀ l ∈ ls, l ≤ m) → (ls.map fun l => 2 ^ (m - l)).sum = 2 ^ m

theorem zipIdx_present (freqs : List Nat) :
    ((freqs.zipIdx.filter fun p => p.1 ≠ 0).map (·.2)) = presentSymbols freqs := by
  have gen : ∀ (pre l : List Nat), ((l.zipIdx pre.length).filter fun p => p.1 ≠ 0).map (·.2) =
      ((List.range' pre.length l.length).filter fun i => ∃ f, (pre ++ l)[i]? = some f ∧ 0 < f) := by
    intro pre l
    induction l generalizing pre with
    | nil => rfl
    | cons x l ih =>
      have h := ih (pre ++ [x])
      simp only [List.length_append, List.length_cons, List.length_nil, Nat.zero_add, List.append_assoc,
        List.singleton_append] at h
      rw [List.zipIdx_cons, List.length_cons, List.range'_succ, List.filter_cons, List.filter_cons]
      have hx : (pre ++ x :: l)[pre.length]? = some x := by simp
      simp only [hx]
      by_cases h0 : x = 0
      · subst h0
        simp only [ne_eq, not_true_eq_false, decide_false, Option.some.injEq, Bool.false_eq_true, if_false]
        have : ¬ ∃ f, 0 = f ∧ 0 < f := by rintro ⟨f, rfl, h⟩; omega
        rw [if_neg (by simp)]
        exact h
      · have : ∃ f, x = f ∧ 0 < f := ⟨x, rfl, by omega⟩
        simp only [ne_eq, h0, not_false_eq_true, decide_true, if_true, Option.some.injEq, this, List.map_cons]
        rw [← h]
  have := gen [] freqs
  simp only [List.length_nil, List.nil_append] at this
  rw [presentSymbols, List.range_eq_range']
  exact this

theorem mem_pairs {freqs : List Nat} {p : Nat × Nat} (h : p ∈ freqs.zipIdx.filter fun p => p.1 ≠ 0) :
    freqs[p.2]? = some p.1 ∧ 0 < p.1 := by
  rw [List.mem_filter] at h
  obtain ⟨h1, h2⟩ := h
  rw [List.mem_zipIdx_iff_getElem?] at h1
  simp at h2
  exact ⟨h1, by omega⟩

/-- C17.  For every table with at least two positive frequencies the computed code lengths
(one for each present symbol, in some order) are between 1 and the number of present symbols
minus 1 and satisfy the Kraft equality. -/
theorem C17_huffman_lengths (freqs : List Nat) (h : 2 ≤ (presentSymbols freqs).length) :
    ∃ out, calculateHuffmanLengths freqs = some out ∧ (out.map (·.2)).Perm (presentSymbols freqs) ∧
      (∀ p ∈ out, 1 ≤ p.1 ∧ p.1 ≤ (presentSymbols freqs).length - 1) ∧
      KraftEquality (out.map (·.1)) := by
  have hpres := zipIdx_present freqs
  unfold calculateHuffmanLengths
  generalize (freqs.zipIdx.filter fun p => p.1 ≠ 0) = ps at *
  rw [← hpres, List.length_map] at h ⊢
  obtain ⟨ls, T, e1, e2, e3, e4, e5, _⟩ := code_spec ps h
  have hS := sortPairs_perm ps
  generalize sortPairs ps = S at *
  have hSl : ls.length = (S.map (·.2)).length := by rw [List.length_map, hS.length_eq, e2]
  have hTl : T.lws.length = ps.length := by rw [e5.length_eq, List.length_map, hS.length_eq]
  obtain ⟨t1, t2⟩ := tree_lengths (T := T) (by omega)
  have hh := height_lt T
  refine ⟨_, e1, ?_, ?_, ?_⟩
  · rw [zip_map_snd _ _ hSl]
    exact hS.map _
  · intro p hp
    have : p.1 ∈ ls := by
      rw [← zip_map_fst _ _ hSl]
      exact List.mem_map_of_mem hp
    have := t1 p.1 (e4.mem_iff.mp this)
    omega
  · rw [zip_map_fst _ _ hSl]
    intro m hm
    show kraft m ls = 2 ^ m
    -- compare with a large scale
    have h1 : kraft (m + T.height) ls = 2 ^ (m + T.height) := by
      rw [kraft_perm _ e4]
      exact t2 _ (by omega)
    rw [kraft_scale m T.height ls hm, Nat.pow_add, Nat.mul_comm (2 ^ m)] at h1
    exact Nat.eq_of_mul_eq_mul_left (Nat.pow_pos (by omega)) h1

/-- C17, single symbol: its length is one. -/
theorem C17_single_symbol (freqs : List Nat) (s : Nat) (h : presentSymbols freqs = [s]) :
    calculateHuffmanLengths freqs = some [(1, s)] := by
  have hpres := zipIdx_present freqs
  unfold calculateHuffmanLengths
  generalize (freqs.zipIdx.filter fun p => p.1 ≠ 0) = ps at *
  rw [h] at hpres
  match ps, hpres with
  | [p], hpres =>
    simp at hpres
    simp [calculateCodeLengths, hpres]

/-- C17, bound used by the coders ("max_code_len <= 47 (roughly)", HuffmanCoders.cpp:199): with a
total frequency below 2^31 no code is longer than 44 bits. -/
theorem C17_length_bound (freqs : List Nat) (h : freqs.sum < 2 ^ 31) (out : List (Nat × Nat))
    (ho : calculateHuffmanLengths freqs = some out) : ∀ p ∈ out, p.1 ≤ 44 := by
  have hmem : ∀ p ∈ freqs.zipIdx.filter fun p => p.1 ≠ 0, 0 < p.1 := fun p hp => (mem_pairs hp).2
  have hsum : ((freqs.zipIdx.filter fun p => p.1 ≠ 0).map (·.1)).sum ≤ freqs.sum := by
    have gen : ∀ (l : List Nat) (k : Nat), (((l.zipIdx k).filter fun p => p.1 ≠ 0).map (·.1)).sum ≤ l.sum := by
      intro l
      induction l with
      | nil => intro k; simp
      | cons x l ih =>
        intro k
        have := ih (k + 1)
        rw [List.zipIdx_cons, List.filter_cons]
        split
        · rw [List.map_cons, List.sum_cons, List.sum_cons]
          omega
        · rw [List.sum_cons]
          omega
    exact gen freqs 0
  unfold calculateHuffmanLengths at ho
  generalize (freqs.zipIdx.filter fun p => p.1 ≠ 0) = ps at *
  by_cases hn : 2 ≤ ps.length
  · obtain ⟨ls, T, e1, e2, e3, e4, e5, e6⟩ := code_spec ps hn
    rw [e1] at ho
    simp only [Option.some.injEq] at ho
    subst ho
    have hS := sortPairs_perm ps
    generalize sortPairs ps = S at *
    have hSl : ls.length = (S.map (·.2)).length := by rw [List.length_map, hS.length_eq, e2]
    have hTl : T.lws.length = ps.length := by rw [e5.length_eq, List.length_map, hS.length_eq]
    have hW : 2 ^ 31 ≤ W64 := by
      unfold W64
      exact Nat.pow_le_pow_right (by omega) (by omega)
    have hg := e6 (by omega)
    have hh := greedy_height hg (by
      intro w hw
      obtain ⟨p, hp, rfl⟩ := List.mem_map.mp hw
      exact hmem p (hS.mem_iff.mp hp))
    rw [(hS.map (·.1)).sum_nat] at hh
    have h44 := height_le_44 hh (by omega)
    intro p hp
    have : p.1 ∈ ls := by
      rw [← zip_map_fst _ _ hSl]
      exact List.mem_map_of_mem hp
    have := (tree_lengths (T := T) (by omega)).1 p.1 (e4.mem_iff.mp this)
    omega
  · match ps, hn with
    | [], _ => simp [calculateCodeLengths] at ho
    | [q], _ =>
      simp [calculateCodeLengths] at ho
      subst ho
      intro p hp
      simp at hp
      subst hp
      simp
    | _ :: _ :: _, hn => simp at hn

theorem huffman_optimal_aux (freqs : List Nat) (h : 2 ≤ (presentSymbols freqs).length)
    (hsum : freqs.sum < 2 ^ 64) (word : Nat → List Bool)
    (hfree : ∀ i ∈ presentSymbols freqs, ∀ j ∈ presentSymbols freqs, i ≠ j → ¬ word i <+: word j) :
    ∃ out, calculateHuffmanLengths freqs = some out ∧
      (out.map fun p => freqs[p.2]! * p.1).sum ≤
        ((presentSymbols freqs).map fun s => freqs[s]! * (word s).length).sum := by
  have hmem : ∀ p ∈ freqs.zipIdx.filter fun p => p.1 ≠ 0, freqs[p.2]! = p.1 := by
    intro p hp
    have := (mem_pairs hp).1
    rw [List.getElem!_eq_getElem?_getD, this]
    rfl
  have hsum2 : ((freqs.zipIdx.filter fun p => p.1 ≠ 0).map (·.1)).sum ≤ freqs.sum := by
    have gen : ∀ (l : List Nat) (k : Nat), (((l.zipIdx k).filter fun p => p.1 ≠ 0).map (·.1)).sum ≤ l.sum := by
      intro l
      induction l with
      | nil => intro k; simp
      | cons x l ih =>
        intro k
        have := ih (k + 1)
        rw [List.zipIdx_cons, List.filter_cons]
        split
        · rw [List.map_cons, List.sum_cons, List.sum_cons]
          omega
        · rw [List.sum_cons]
          omega
    exact gen freqs 0
  have hnd : (presentSymbols freqs).Nodup := List.Pairwise.filter _ List.nodup_range
  have hpres := zipIdx_present freqs
  unfold calculateHuffmanLengths
  generalize (freqs.zipIdx.filter fun p => p.1 ≠ 0) = ps at *
  rw [← hpres] at hfree hnd ⊢
  rw [← hpres, List.length_map] at h
  obtain ⟨ls, T, e1, e2, e3, e4, e5, e6⟩ := code_spec ps h
  have hsorted := sorted_fst ps
  have hS := sortPairs_perm ps
  generalize sortPairs ps = S at *
  have hSl : ls.length = (S.map (·.2)).length := by rw [List.length_map, hS.length_eq, e2]
  refine ⟨_, e1, ?_⟩
  -- both sums as scalar products with the sorted weights
  have hW : W64 = 2 ^ 64 := rfl
  have hg := e6 (by rw [hW]; omega)
  obtain ⟨m, hm⟩ : ∃ m, ∀ p ∈ S, (word p.2).length ≤ m := by
    clear e1 e4 e5 e6 hS hSl hsorted hg
    induction S with
    | nil => exact ⟨0, by simp⟩
    | cons p S ih =>
      obtain ⟨m, hm⟩ := ih
      refine ⟨max m (word p.2).length, ?_⟩
      intro q hq
      rcases List.mem_cons.mp hq with rfl | hq
      · omega
      · have := hm q hq
        omega
  have hk : kraft m (S.map fun p => (word p.2).length) ≤ 2 ^ m := by
    have hpf : PrefixFree (S.map fun p => word p.2) := by
      unfold PrefixFree
      rw [List.pairwise_map]
      have hnd2 : (S.map (·.2)).Nodup := ((hS.map (·.2)).nodup_iff).mpr hnd
      rw [List.nodup_iff_pairwise_ne, List.pairwise_map] at hnd2
      refine List.Pairwise.imp_of_mem ?_ hnd2
      intro a b ha hb hab
      have ha' : a.2 ∈ ps.map (·.2) := List.mem_map_of_mem (hS.mem_iff.mp ha)
      have hb' : b.2 ∈ ps.map (·.2) := List.mem_map_of_mem (hS.mem_iff.mp hb)
      exact ⟨hfree _ ha' _ hb' hab, hfree _ hb' _ ha' (fun hc => hab hc.symm)⟩
    have := kraft_inequality m _ hpf (by
      intro w hw
      obtain ⟨p, hp, rfl⟩ := List.mem_map.mp hw
      exact hm p hp)
    rw [List.map_map] at this
    exact this
  have hopt := lengths_optimal hsorted hg e3 e4 e5 (S.map fun p => (word p.2).length) m (by simp)
    (by
      intro l hl
      obtain ⟨p, hp, rfl⟩ := List.mem_map.mp hl
      exact hm p hp) hk
  have hSmem : ∀ p ∈ S, freqs[p.2]! = p.1 := fun p hp => hmem p (hS.mem_iff.mp hp)
  have e7 : ((ls.zip (S.map (·.2))).map fun p => freqs[p.2]! * p.1).sum = dot (S.map (·.1)) ls := by
    rw [List.length_map] at hSl
    clear e1 e3 e4 e5 e6 hopt hk hg hsorted hS e2 hm
    induction S generalizing ls with
    | nil => cases ls with
      | nil => rfl
      | cons l ls => simp at hSl
    | cons p S ih =>
      cases ls with
      | nil => simp at hSl
      | cons l ls =>
        have := ih ls (by simpa using hSl) (fun q hq => hSmem q (by simp [hq]))
        simp only [List.map_cons, List.zip_cons_cons, List.sum_cons, dot, hSmem p (by simp)]
        rw [this]
  have e8 : ((ps.map (·.2)).map fun s => freqs[s]! * (word s).length).sum =
      dot (S.map (·.1)) (S.map fun p => (word p.2).length) := by
    rw [(((hS.map (·.2)).map fun s => freqs[s]! * (word s).length).symm).sum_nat]
    clear e1 e3 e4 e5 e6 hopt hk hg hsorted hS e2 e7 hSl hm
    induction S with
    | nil => rfl
    | cons p S ih =>
      have := ih (fun q hq => hSmem q (by simp [hq]))
      simp only [List.map_cons, List.sum_cons, dot, hSmem p (by simp)]
      rw [this]
  rw [e7, e8]
  exact hopt

/-- C18.  The computed lengths are optimal: for every alphabet `0 … n-1` with weights `w` and every
assignment of codewords to the symbols of positive weight such that no codeword is a prefix of
another symbol's codeword, the weighted total length of the computed code is at most that of the
given code. -/
theorem C18_huffman_optimal (n : Nat) (w : Nat → Nat) (syms : List Nat)
    (hsyms : syms = (List.range n).filter fun i => 0 < w i) (h : 2 ≤ syms.length)
    (hsum : ((List.range n).map w).sum < 2 ^ 64) (word : Nat → List Bool)
    (hfree : ∀ i ∈ syms, ∀ j ∈ syms, i ≠ j → ¬ word i <+: word j) :
    ∃ out, calculateHuffmanLengths ((List.range n).map w) = some out ∧ (out.map (·.2)).Perm syms ∧
      (out.map fun p => w p.2 * p.1).sum ≤ (syms.map fun s => w s * (word s).length).sum := by
  have hps : presentSymbols ((List.range n).map w) = syms := by
    rw [hsyms, presentSymbols, List.length_map, List.length_range]
    apply List.filter_congr
    intro i hi
    have hi' := List.mem_range.mp hi
    have : ((List.range n).map w)[i]? = some (w i) := by simp [hi']
    rw [this]
    simp
  have hw : ∀ s ∈ syms, ((List.range n).map w)[s]! = w s := by
    intro s hs
    rw [hsyms, List.mem_filter] at hs
    have hi' := List.mem_range.mp hs.1
    have : ((List.range n).map w)[s]? = some (w s) := by simp [hi']
    rw [List.getElem!_eq_getElem?_getD, this]
    rfl
  obtain ⟨out, e1, e2⟩ := huffman_optimal_aux _ (by rw [hps]; exact h) hsum word (by rw [hps]; exact hfree)
  obtain ⟨out', f1, f2, _⟩ := C17_huffman_lengths _ (by rw [hps]; exact h)
  rw [e1] at f1
  simp only [Option.some.injEq] at f1
  subst f1
  rw [hps] at e2 f2
  refine ⟨out, e1, f2, ?_⟩
  have g1 : (out.map fun p => ((List.range n).map w)[p.2]! * p.1) = out.map fun p => w p.2 * p.1 := by
    apply List.map_congr_left
    intro p hp
    rw [hw p.2 (f2.mem_iff.mp (List.mem_map_of_mem hp))]
  have g2 : (syms.map fun s => ((List.range n).map w)[s]! * (word s).length) =
      syms.map fun s => w s * (word s).length := by
    apply List.map_congr_left
    intro s hs
    rw [hw s hs]
  rw [g1, g2] at e2
  exact e2

/-- Non-vacuity: a table with four present symbols. -/
example : 2 ≤ (presentSymbols [5, 0, 2, 1, 1]).length ∧
    calculateHuffmanLengths [5, 0, 2, 1, 1] = some [(3, 3), (3, 4), (2, 2), (1, 0)] := by
  constructor <;> decide +kernel

/-- Non-vacuity of C18: three symbols with a competing prefix code. -/
example : (List.range 4).filter (fun i => 0 < [5, 0, 2, 1][i]?.getD 0) = [0, 2, 3] ∧
    (∀ i ∈ [0, 2, 3], ∀ j ∈ [0, 2, 3], i ≠ j →
      ¬ (if i = 0 then [true, false] else if i = 2 then [false] else [true, true]) <+:
        (if j = 0 then [true, false] else if j = 2 then [false] else [true, true])) := by
  constructor <;> decide +kernel

/-- Non-vacuity: one present symbol. -/
example : presentSymbols [0, 0, 9] = [2] := by decide +kernel

end Bwtc.Props
