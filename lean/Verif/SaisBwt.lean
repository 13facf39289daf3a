import Verif.SaisReduce
import Verif.FwdBWT

/-!
# `saisxx_bwt` is the transform
-/

set_option autoImplicit false

namespace Bwtc.Sais
open Induce Suffix Classical

/-- The bytes as numbers. -/
abbrev nums (T : List UInt8) : List Nat := T.map UInt8.toNat

theorem nums_lt (u v : List UInt8) : nums u < nums v ↔ u < v := by
  induction u generalizing v with
  | nil =>
    cases v with
    | nil => simp
    | cons b v => simp [nums]
  | cons a u ih =>
    cases v with
    | nil => simp [nums]
    | cons b v =>
      simp only [nums, List.map_cons, List.cons_lt_cons_iff]
      rw [ih v, ← UInt8.lt_iff_toNat_lt, UInt8.toNat_inj]

theorem sless_nums {T : List UInt8} {p q : Nat} : sless (nums T) p q ↔ T.drop p < T.drop q := by
  unfold sless nums
  rw [← List.map_drop, ← List.map_drop]
  exact nums_lt _ _

theorem cnt_below {n i : Nat} (h : i ≤ n) : cnt n (fun j => j < i) = i := by
  have h1 := cnt_bij (n := i) (m := n) (P := fun _ => True) (Q := fun j => j < i) id
    (fun p hp _ => ⟨by simp only [id]; omega, hp⟩) (fun p q _ _ _ _ h => h) (fun r _ hr => ⟨r, hr, trivial, rfl⟩)
  rw [← h1, cnt_true (fun _ _ => trivial)]

theorem nodup_index {l : List Nat} (h : l.Nodup) {i j : Nat} {hi : i < l.length} {hj : j < l.length} (e : l[i] = l[j]) :
    i = j := by
  have hp := List.pairwise_iff_getElem.mp h
  rcases Nat.lt_trichotomy i j with a | a | a
  · exact absurd e (hp i j hi hj a)
  · exact a
  · exact absurd e.symm (hp j i hj hi a)

/-- The sorted suffixes, by their rows. -/
theorem sorted_row {T : List UInt8} {sa : List Nat} (h : FwdBWT.SortedSuffixes T sa) {p : Nat} (hp : p < T.length) :
    sa[row (nums T) p]? = some p := by
  have hl : sa.length = T.length := by rw [h.1.length_eq, List.length_range]
  obtain ⟨i, hi⟩ := List.mem_iff_getElem?.mp (h.1.mem_iff.mpr (List.mem_range.mpr hp))
  have hil := (List.getElem?_eq_some_iff.mp hi).1
  have hpw := List.pairwise_iff_getElem.mp h.2
  suffices e : row (nums T) p = i by rw [e]; exact hi
  have hnl : (nums T).length = T.length := List.length_map ..
  unfold row
  rw [hnl]
  rw [← cnt_below (n := T.length) (i := i) (by omega)]
  symm
  have hsi : sa[i] = p := (List.getElem?_eq_some_iff.mp hi).2
  apply cnt_bij (fun j => (sa[j]?).getD 0)
  · intro j hj hji
    have hjl : j < sa.length := by omega
    have hmem := h.1.mem_iff.mp (List.getElem_mem hjl)
    rw [List.getElem?_eq_getElem hjl]
    refine ⟨List.mem_range.mp hmem, ?_⟩
    rw [sless_nums, Option.getD_some]
    have := hpw j i hjl hil hji
    rw [hsi] at this
    exact this
  · intro j j' hj hj' hji hji' e
    rw [List.getElem?_eq_getElem (by omega), List.getElem?_eq_getElem (by omega)] at e
    have hnd : sa.Nodup := h.1.nodup_iff.mpr List.nodup_range
    exact nodup_index hnd e
  · intro r hr hs
    obtain ⟨j, hj⟩ := List.mem_iff_getElem?.mp (h.1.mem_iff.mpr (List.mem_range.mpr hr))
    have hjl := (List.getElem?_eq_some_iff.mp hj).1
    have hsj : sa[j] = r := (List.getElem?_eq_some_iff.mp hj).2
    refine ⟨j, by omega, ?_, by rw [hj]; rfl⟩
    rw [sless_nums] at hs
    rcases Nat.lt_trichotomy j i with a | a | a
    · exact a
    · subst a
      rw [hsi] at hsj
      subst hsj
      exact absurd hs (List.lt_irrefl _)
    · have := hpw i j hil hjl a
      rw [hsi, hsj] at this
      exact absurd hs (List.lt_asymm this)

/-- Lines 822-829. -/
theorem writeOut_spec (pidx i : Nat) (T : List UInt8) (A : List Int) (freqs : List Nat) (u : List UInt8)
    (hf : 256 ≤ freqs.length) (hA : A.length = T.length) (hu : u.length = T.length)
    (h0 : ∀ j : Nat, i + j = pidx → u[j]? = T[j]?)
    (h1 : ∀ (j : Nat) (c : UInt8), i + j ≠ pidx → u[j]? = some c → A[j]? = some (c.toNat : Int)) :
    writeOut pidx i T A freqs = some (u, (u.zipIdx i).foldl
      (fun f cp => if cp.2 ≠ pidx then f.modify cp.1.toNat (· + 1) else f) freqs) := by
  induction T generalizing i A freqs u with
  | nil =>
    have ha : A = [] := List.eq_nil_of_length_eq_zero (by simpa using hA)
    have hb : u = [] := List.eq_nil_of_length_eq_zero (by simpa using hu)
    rw [ha, hb]
    rfl
  | cons t T ih =>
    cases A with
    | nil => simp at hA
    | cons a A =>
      cases u with
      | nil => simp at hu
      | cons c u =>
        have hs0 : ∀ j : Nat, i + 1 + j = pidx → u[j]? = T[j]? := by
          intro j hj
          have := h0 (j + 1) (by omega)
          simpa using this
        have hs1 : ∀ (j : Nat) (c : UInt8), i + 1 + j ≠ pidx → u[j]? = some c → A[j]? = some (c.toNat : Int) := by
          intro j c' hj hc
          have := h1 (j + 1) c' (by omega) (by simpa using hc)
          simpa using this
        rw [List.zipIdx_cons, List.foldl_cons]
        unfold writeOut
        by_cases e : i ≠ pidx
        · have hc := h1 0 c (by omega) rfl
          rw [List.getElem?_cons_zero] at hc
          injection hc with hc
          have hcc : UInt8.ofNat (a % 256).toNat = c := by
            rw [hc]
            have := c.toNat_lt
            rw [show ((c.toNat : Int) % 256).toNat = c.toNat by omega]
            exact UInt8.ofNat_toNat
          simp only
          rw [if_pos e, hcc, if_pos (by have := c.toNat_lt; omega), if_pos e,
            ih (i + 1) A _ u (by rw [List.length_modify]; exact hf) (by simpa using hA) (by simpa using hu) hs0 hs1]
          rfl
        · have hc := h0 0 (by omega)
          rw [List.getElem?_cons_zero, List.getElem?_cons_zero] at hc
          injection hc with hc
          simp only
          rw [if_neg e, if_neg e, ih (i + 1) A _ u hf (by simpa using hA) (by simpa using hu) hs0 hs1, hc]
          rfl

theorem stage3BWT_none {T : List Nat} {m k : Nat} {same flag8 recount : Bool} {C : List Nat} {sa : List Int} {lf : List Nat}
    (h : T.length / lf.length = 0) : stage3BWT T m k same flag8 recount C sa true lf = none := by
  unfold stage3BWT
  cases recounted flag8 T k C with
  | none => rfl
  | some C =>
    show (spreadAll T C m sa).bind _ = none
    cases spreadAll T C m sa with
    | none => rfl
    | some sa =>
      show computeBWT T k same recount _ sa true lf = none
      unfold computeBWT spacing
      simp only
      rw [if_pos trivial, if_pos h]
      rfl

theorem sais_none {T : List Nat} {k : Nat} {lf : List Nat} (h : T.length / lf.length = 0) :
    suffixsortBWT T k true lf = none := by
  unfold suffixsortBWT
  cases reduce (suffixsort T.length) T (List.replicate T.length 0) k with
  | none => rfl
  | some r =>
    obtain ⟨f, C, m, mem⟩ := r
    exact stage3BWT_none h

/-- `saisxx_bwt` gives the same as sorting the suffixes and reading off the transform, the starting points and the
character counts. -/
theorem saisBwt_eq (T : List UInt8) (lf freqs : List Nat) (hT : 2 ≤ T.length) (hf : 256 ≤ freqs.length) :
    saisBwt T lf freqs = FwdBWT.sorter T lf freqs := by
  obtain ⟨sa, hsa⟩ : ∃ sa, sa = FwdBWT.sortSuffixes T := ⟨_, rfl⟩
  have hsort : FwdBWT.SortedSuffixes T sa := by rw [hsa]; exact FwdBWT.sortSuffixes_sorted _
  have hl : sa.length = T.length := by rw [hsort.1.length_eq, List.length_range]
  have hnl : (nums T).length = T.length := List.length_map ..
  have hk : ∀ c ∈ nums T, c < 256 := by
    intro c hc
    obtain ⟨b, _, rfl⟩ := List.mem_map.mp hc
    exact b.toNat_lt
  have hmem : ∀ s ∈ sa, s < T.length := fun s hs => List.mem_range.mp (hsort.1.mem_iff.mp hs)
  have hnd : sa.Nodup := hsort.1.nodup_iff.mpr List.nodup_range
  have hrow : ∀ {p}, p < T.length → sa[row (nums T) p]? = some p := fun hp => sorted_row hsort hp
  have hrowlt : ∀ {p}, p < T.length → row (nums T) p < T.length := fun {p} hp => by
    have := row_lt (T := nums T) (p := p) (by omega); omega
  have hfind : sa.findIdx? (· == 0) = some (row (nums T) 0) := by
    rw [List.findIdx?_eq_some_iff_getElem]
    have h0 := hrow (p := 0) (by omega)
    obtain ⟨h1, h2⟩ := List.getElem?_eq_some_iff.mp h0
    refine ⟨h1, by simp [h2], ?_⟩
    intro j hj hc
    have hjl : j < sa.length := by omega
    have hj0 : sa[j] = sa[row (nums T) 0] := by rw [h2]; simpa using hc
    have := nodup_index hnd hj0
    omega
  obtain ⟨u, hu, hul, hu1, hu2⟩ := FwdBWT.column_spec T T sa hl.symm (fun s hs => Nat.le_of_lt (hmem s hs))
  -- the rows written out
  have hout : ∀ A : List Int, A.length = T.length → (∀ p, p < T.length → A[row (nums T) p]? = some (finS (nums T) p)) →
      writeOut (row (nums T) 0) 0 T A freqs = some (u, u.zipIdx.foldl
        (fun f cp => if cp.2 ≠ row (nums T) 0 then f.modify cp.1.toNat (· + 1) else f) freqs) := by
    intro A hA hcell
    apply writeOut_spec _ 0 T A freqs u hf hA hul
    · intro j hj
      rw [Nat.zero_add] at hj
      rw [hj]
      exact hu2 _ (hrow (by omega))
    · intro j c hj hc
      rw [Nat.zero_add] at hj
      have hjl : j < sa.length := by have := (List.getElem?_eq_some_iff.mp hc).1; omega
      have hp := hmem _ (List.getElem_mem hjl)
      have hjr : row (nums T) sa[j] = j := by
        have h0 := hrow hp
        obtain ⟨h1, h2⟩ := List.getElem?_eq_some_iff.mp h0
        exact nodup_index hnd h2
      have hne : sa[j] ≠ 0 := by
        intro e
        rw [e] at hjr
        exact hj hjr.symm
      have h3 := hu1 j (sa[j] - 1) (by rw [List.getElem?_eq_getElem hjl]; congr 1; omega)
      rw [hc] at h3
      have h4 := hcell _ hp
      rw [hjr] at h4
      rw [h4]
      unfold finS
      rw [if_neg hne]
      congr 1
      have : ch (nums T) (sa[j] - 1) = c.toNat := by
        apply ch_eq
        show (T.map UInt8.toNat)[_]? = _
        rw [List.getElem?_map, ← h3]
        rfl
      rw [this]
  unfold saisBwt FwdBWT.sorter
  rw [if_neg (c := T.length ≤ 1) (by omega), if_neg (c := T.length ≤ 1) (by omega)]
  simp only [← hsa]
  rw [bind_some' rfl, bind_some' hfind]
  by_cases h1 : lf.length = 1
  · rw [if_pos h1, if_pos (by omega), bind_some' rfl, if_neg (by omega), bind_some' hu]
    obtain ⟨A, lf', pidx, g1, g2⟩ := suffixsortBWT_spec (T := nums T) (by omega) hk false lf (fun h => absurd h (by simp))
    rw [bind_some' g1]
    have hpx := g2.whole
    simp only
    rw [bind_some' hpx, bind_some' (hout A (by have := g2.size; omega) (fun p hp => g2.cell p (by omega)))]
  · rw [if_neg h1]
    by_cases h0 : T.length / lf.length = 0
    · rw [sais_none (by rw [hnl]; exact h0)]
      by_cases h2 : lf.length ≤ 1
      · rw [if_pos h2, bind_some' rfl, if_pos (by omega)]
        rfl
      · rw [if_neg h2, if_pos h0]
        rfl
    · have hpos : 0 < lf.length := by
        apply Nat.pos_of_ne_zero
        intro e
        rw [e, Nat.div_zero] at h0
        exact h0 rfl
      have hle : lf.length ≤ T.length := by
        apply Classical.byContradiction
        intro h
        exact h0 (Nat.div_eq_of_lt (by omega))
      have hmul := Nat.div_mul_le_self T.length lf.length
      have hx : 1 ≤ T.length / lf.length := Nat.pos_of_ne_zero h0
      rw [if_neg (by omega), if_neg h0]
      obtain ⟨lf1, r1, r2, r3⟩ := FwdBWT.recordAll_spec T.length (T.length / lf.length) lf.length (by omega) hmul sa 0 lf rfl hmem hnd
      rw [bind_some' r1, if_neg (by omega), bind_some' hu]
      obtain ⟨A, lf', pidx, g1, g2⟩ := suffixsortBWT_spec (T := nums T) (by omega) hk true lf (fun _ => ⟨hpos, by omega⟩)
      rw [bind_some' g1]
      simp only
      rw [bind_some' g2.whole, bind_some' (hout A (by have := g2.size; omega) (fun p hp => g2.cell p (by omega)))]
      rw [if_pos rfl, hnl] at g2
      have hlf : lf' = lf1.set 0 (row (nums T) 0) := by
        apply List.ext_getElem?
        intro id
        by_cases hid : id < lf.length
        · by_cases e : id = 0
          · rw [e, List.getElem?_set_self (by omega)]
            exact g2.zero (by simp)
          · rw [List.getElem?_set_ne (by omega)]
            have hidx : 1 ≤ id * (T.length / lf.length) := Nat.mul_pos (by omega) (by omega)
            have hub : (id + 1) * (T.length / lf.length) ≤ lf.length * (T.length / lf.length) := Nat.mul_le_mul_right _ hid
            rw [Nat.add_mul, Nat.one_mul, Nat.mul_comm lf.length] at hub
            have hp : T.length - id * (T.length / lf.length) < T.length := by omega
            have hp0 : 0 < T.length - id * (T.length / lf.length) := by omega
            have h3 := (r3 id (by omega) hid).1 _ (hrow hp)
            rw [Nat.zero_add] at h3
            have h4 := g2.noted _ (show T.length - id * (T.length / lf.length) < (nums T).length by omega) hp0
            unfold Noted at h4
            simp only at h4
            rw [hnl, show T.length - (T.length - id * (T.length / lf.length)) = id * (T.length / lf.length) by omega,
              Nat.mul_mod_left, Nat.mul_div_cancel _ (by omega)] at h4
            rw [h3, h4 rfl (by omega)]
        · rw [List.getElem?_eq_none (by have := g2.lflen; omega), List.getElem?_eq_none (by rw [List.length_set]; omega)]
      rw [hlf]

theorem transform_eq (mem : List UInt8) (pos len starts : Nat) (freqs : List Nat) (hl : 1 ≤ len) (hf : 256 ≤ freqs.length) :
    transform mem pos len starts freqs = FwdBWT.transform mem pos len starts freqs := by
  unfold transform FwdBWT.transform
  simp only
  cases e : (FwdBWT.blit mem pos ((mem.drop pos).take len).reverse)[pos + len]? with
  | none => rfl
  | some next =>
    have hlt := (List.getElem?_eq_some_iff.mp e).1
    simp only [Option.bind_eq_bind, Option.bind_some]
    rw [saisBwt_eq _ _ _ (by rw [List.length_take, List.length_drop, List.length_set]; omega) hf]

/-- A suffix array by its rows is the sorted list of the suffixes. -/
theorem isSA_sorted {T : List Nat} {sa : List Int} (h : IsSA T sa) : ∃ l : List Nat, sa = l.map Int.ofNat ∧
    l.Perm (List.range T.length) ∧ l.Pairwise (fun a b => T.drop a < T.drop b) := by
  have hex : ∀ r, r < T.length → ∃ p, p < T.length ∧ row T p = r := by
    intro r hr
    obtain ⟨p, h1, _, h3⟩ := rank_surj (n := T.length) (P := fun _ => True) (lt := sless T) sless_irrefl (fun _ _ _ => sless_trans)
      (fun p q hp hq _ _ => sless_total (Nat.le_of_lt hp) (Nat.le_of_lt hq)) (r := r) (by rw [cnt_true (fun _ _ => trivial)]; exact hr)
    exact ⟨p, h1, by rw [← h3]; unfold row; exact cnt_congr (fun q _ => by simp)⟩
  obtain ⟨l, hl⟩ : ∃ l : List Nat, l = sa.map Int.toNat := ⟨_, rfl⟩
  have hll : l.length = T.length := by rw [hl, List.length_map, h.1]
  have hv : ∀ p, p < T.length → l[row T p]? = some p := by
    intro p hp
    rw [hl, List.getElem?_map, h.2 p hp]
    rfl
  have hrow : ∀ (i : Nat) (hi : i < l.length), l[i] < T.length ∧ row T l[i] = i := by
    intro i hi
    obtain ⟨p, hp, e⟩ := hex i (by omega)
    have h1 := hv p hp
    rw [e, List.getElem?_eq_getElem hi] at h1
    injection h1 with h1
    rw [h1]
    exact ⟨hp, e⟩
  refine ⟨l, ?_, ?_, ?_⟩
  · apply List.ext_getElem?
    intro i
    by_cases hi : i < T.length
    · obtain ⟨p, hp, e⟩ := hex i hi
      rw [← e, h.2 p hp, List.getElem?_map, hv p hp]
      rfl
    · rw [List.getElem?_eq_none (by rw [h.1]; omega), List.getElem?_eq_none (by rw [List.length_map]; omega)]
  · apply (List.perm_ext_iff_of_nodup _ List.nodup_range).mpr
    · intro p
      rw [List.mem_range]
      constructor
      · intro hp
        obtain ⟨i, hi, rfl⟩ := List.mem_iff_getElem.mp hp
        exact (hrow i hi).1
      · intro hp
        exact List.mem_of_getElem? (hv p hp)
    · apply List.pairwise_iff_getElem.mpr
      intro i j hi hj hij e
      have h1 := (hrow i hi).2
      have h2 := (hrow j hj).2
      rw [e] at h1
      omega
  · apply List.pairwise_iff_getElem.mpr
    intro i j hi hj hij
    have h1 := hrow i hi
    have h2 := hrow j hj
    rcases sless_total (T := T) (Nat.le_of_lt h1.1) (Nat.le_of_lt h2.1) with a | a | a
    · exact a
    · rw [a] at h1; omega
    · have := row_mono h2.1 a
      omega

end Bwtc.Sais
