import Verif.FwdBWT

/-!
# C29, C30, C31: the Burrows-Wheeler transform and its inverse
-/

set_option autoImplicit false

namespace Bwtc.Props

open BWT InvBWT FwdBWT

/-- C29.  For every non-empty block: whatever sorted list of the suffixes of the reversed,
zero-terminated block is used, and whatever byte sits in the end-of-block row, the inverse
transform started from that row returns the block (and one more byte, the one behind the block). -/
theorem C29_inverse_recovers_text (block : List UInt8) (hne : block ≠ []) (sa : List Nat)
    (hsa : SortedSuffixes (block.reverse ++ [0]) sa) (b : List UInt8) (e : Nat)
    (hlen : b.length = block.length + 1) (he : sa[e]? = some 0)
    (hb : ∀ j s : Nat, sa[j]? = some (s + 1) → b[j]? = block.reverse[s]?) :
    ∃ z, inverse b [e] = some (block ++ [z]) := by
  have hSA := sorted_isSA _ _ hsa
  have hm : 1 ≤ block.reverse.length := by
    rw [List.length_reverse]; exact List.length_pos_iff.mpr hne
  have hB : IsBWT block.reverse sa b e := ⟨by rw [hlen, List.length_reverse], he, hb⟩
  have hst : StartsOK block.reverse [e] := by
    refine ⟨Nat.le_refl _, ?_, ?_⟩
    · rw [List.getElem?_cons_zero, eob_eq hSA hB]
    · intro _ id h1 h2
      simp only [List.length_cons, List.length_nil] at h2
      omega
  obtain ⟨z, hz⟩ := inverse_spec hSA hB hm hst
  exact ⟨z, by rw [hz, List.reverse_reverse]⟩

/-- The hypotheses are met by "abab": rows `$`, `ab$`, `abab$`, `b$`, `bab$` of the reversed text
"baba", here with 255 in the end-of-block row. -/
example : SortedSuffixes ([98, 97, 98, 97] ++ [0]) [4, 3, 1, 2, 0] := by
  refine ⟨?_, by decide⟩
  decide

example : (∀ j s : Nat, ([4, 3, 1, 2, 0] : List Nat)[j]? = some (s + 1) →
    ([97, 98, 98, 97, 255] : List UInt8)[j]? = ([98, 97, 98, 97] : List UInt8)[s]?) := by
  intro j s h
  match j with
  | 0 | 1 | 2 | 3 => simp at h; subst h; rfl
  | 4 => simp at h
  | j + 5 => simp at h

/-- Counting definition of the LF mapping of a transform `b` with end-of-block row `e`: the rows
with smaller characters, and the earlier rows with the same character.  The end-of-block row leads
to the row of the empty suffix. -/
def lfMap (b : List UInt8) (e p : Nat) : Nat :=
  if p = e then 0 else
    match b[p]? with
    | none => 0
    | some c => 1 + (b.zipIdx.countP fun x => decide (x.2 ≠ e) && decide (x.1 < c)) +
        ((b.take p).zipIdx.countP fun x => decide (x.2 ≠ e) && decide (x.1 = c))

/-- `k` steps of the LF mapping starting from row 0. -/
def lfIter (b : List UInt8) (e : Nat) : Nat → Nat
  | 0 => 0
  | k + 1 => lfMap b e (lfIter b e k)

theorem lfMap_rk {w : List UInt8} {sa : List Nat} {b : List UInt8} {e : Nat} (h : IsSA w sa)
    (hb : IsBWT w sa b e) {s : Nat} (hs : s < w.length) : lfMap b e (rk w (s + 1)) = rk w s := by
  have hne : rk w (s + 1) ≠ e := by
    rw [eob_eq h hb]
    intro hc
    have := h.rk_inj (by omega) (by omega) hc
    omega
  have hpt : ∀ (i : Nat) (q : UInt8 → Bool), b[i]?.map (fun x => decide (i ≠ e) && q x) =
      sa[i]?.map (fun t => (prevChar w t).any q) := by
    intro i q
    by_cases hi : i < w.length + 1
    · obtain ⟨t, ht, htw, hr⟩ := row_cases h hi
      rw [ht]
      cases t with
      | zero =>
        have : i = e := by rw [eob_eq h hb]; exact hr
        rw [List.getElem?_eq_getElem (by rw [hb.1]; exact hi)]
        simp [this, prevChar]
      | succ t =>
        have hie : i ≠ e := by
          rw [eob_eq h hb, hr]
          intro hc
          have := h.rk_inj htw (by omega) hc
          omega
        have := bwt_at h hb (s := t) (by omega)
        rw [← hr] at this
        rw [this]
        simp [prevChar, hie, List.getElem?_eq_getElem (show t < w.length by omega)]
    · rw [List.getElem?_eq_none (by rw [hb.1]; omega), List.getElem?_eq_none (by rw [h.length]; omega)]
      rfl
  unfold lfMap
  rw [if_neg hne, bwt_at h hb hs]
  simp only
  rw [rk_step h hs]
  congr 1
  · unfold before
    congr 1
    have e1 : b.zipIdx.countP (fun x => decide (x.2 ≠ e) && decide (x.1 < w[s])) =
        sa.countP (fun t => (prevChar w t).any (fun x => decide (x < w[s]))) := by
      apply countP_pointwise
      intro i
      rw [List.getElem?_zipIdx, Option.map_map, ← hpt]
      cases b[i]? <;> simp
    rw [e1, ← h.countP_range]
    have e2 : (List.range (w.length + 1)).countP
          (fun t => (prevChar w t).any (fun x => decide (x < w[s]))) =
        (List.range (w.length + 1)).countP (fun t => decide (0 < t) &&
          (prevChar w t).any (fun x => decide (x < w[s]))) := by
      apply List.countP_congr
      intro t _
      by_cases h0 : t = 0
      · subst h0; simp [prevChar]
      · have : 0 < t := by omega
        simp [this]
    rw [e2, ← countP_shift w.length (fun t => (prevChar w t).any (fun x => decide (x < w[s]))),
      ← countP_index_succ w (fun x => decide (x.toNat < w[s].toNat))]
    apply List.countP_congr
    intro t _
    by_cases hl : t < w.length
    · simp [hl, prevChar, u8_lt]
    · simp [hl]
  · apply countP_pointwise
    intro i
    rw [List.getElem?_zipIdx, List.getElem?_take, List.getElem?_take]
    by_cases hi : i < rk w (s + 1)
    · rw [if_pos hi, if_pos hi, Option.map_map]
      have h1 := hpt i (fun x => decide (x = w[s]))
      have h2 : sa[i]?.map (fun t => decide (prevChar w t = some w[s])) =
          sa[i]?.map (fun t => (prevChar w t).any (fun x => decide (x = w[s]))) := by
        congr 1
        funext t
        cases prevChar w t <;> simp
      rw [h2, ← h1]
      cases b[i]? <;> simp
    · rw [if_neg hi, if_neg hi]; rfl

/-- C29, second part: the LF mapping of a transform, which depends on the transform only, is a
permutation of the rows with a single cycle: starting at row 0 it visits every row exactly once and
then returns to row 0, and the characters met are those of the block. -/
theorem C29_lf_single_cycle (block : List UInt8) (sa : List Nat)
    (hsa : SortedSuffixes (block.reverse ++ [0]) sa) (b : List UInt8) (e : Nat)
    (hlen : b.length = block.length + 1) (he : sa[e]? = some 0)
    (hb : ∀ j s : Nat, sa[j]? = some (s + 1) → b[j]? = block.reverse[s]?) :
    ((List.range (block.length + 1)).map (lfIter b e)).Perm (List.range (block.length + 1)) ∧
      lfIter b e (block.length + 1) = 0 ∧
      ∀ k, k < block.length → b[lfIter b e k]? = block[k]? := by
  have hSA := sorted_isSA _ _ hsa
  obtain ⟨w, hw⟩ : ∃ w, w = block.reverse := ⟨_, rfl⟩
  rw [← hw] at hSA hb
  have hwl : w.length = block.length := by rw [hw]; simp
  have hB : IsBWT w sa b e := ⟨by rw [hlen, hwl], he, hb⟩
  have hit : ∀ k, k ≤ w.length → lfIter b e k = rk w (w.length - k) := by
    intro k
    induction k with
    | zero => intro _; rw [lfIter, Nat.sub_zero, rk_length]
    | succ k ih =>
      intro hk
      rw [lfIter, ih (by omega), show w.length - k = (w.length - (k + 1)) + 1 by omega,
        lfMap_rk hSA hB (by omega)]
  refine ⟨?_, ?_, ?_⟩
  · rw [← hwl]
    rw [List.perm_ext_iff_of_nodup _ List.nodup_range]
    · intro p
      simp only [List.mem_map, List.mem_range]
      constructor
      · rintro ⟨k, hk, rfl⟩
        rw [hit k (by omega), ← hSA.length]
        exact hSA.rk_lt (by omega)
      · intro hp
        obtain ⟨s, hs, hsw, hr⟩ := row_cases hSA hp
        exact ⟨w.length - s, by omega, by
          rw [hit _ (by omega), show w.length - (w.length - s) = s by omega, hr]⟩
    · unfold List.Nodup
      rw [List.pairwise_map]
      refine List.Pairwise.imp_of_mem ?_ List.nodup_range
      intro i j hi hj hij hc
      have hi := List.mem_range.mp hi
      have hj := List.mem_range.mp hj
      rw [hit i (by omega), hit j (by omega)] at hc
      have := hSA.rk_inj (by omega) (by omega) hc
      omega
  · rw [lfIter, ← hwl, hit w.length (Nat.le_refl _), Nat.sub_self, lfMap, eob_eq hSA hB, if_pos rfl]
  · intro k hk
    rw [hit k (by omega), show w.length - k = (w.length - 1 - k) + 1 by omega,
      bwt_at hSA hB (by omega)]
    have hrev : block[k]? = w[w.length - 1 - k]? := by
      rw [show block = w.reverse by rw [hw]; simp]
      exact List.getElem?_reverse (by omega)
    rw [hrev, List.getElem?_eq_getElem]

/-- C30.  For every block and every list of starting rows as recorded by the forward transform — row
`id` belongs to the text starting `id` times ⌊(length+1)/count⌋ characters before the end — the
inverse from all starting points returns the block, whatever the remainder of the division. -/
theorem C30_many_starting_points (block : List UInt8) (hne : block ≠ []) (sa : List Nat)
    (hsa : SortedSuffixes (block.reverse ++ [0]) sa) (b : List UInt8) (e : Nat)
    (hlen : b.length = block.length + 1) (he : sa[e]? = some 0)
    (hb : ∀ j s : Nat, sa[j]? = some (s + 1) → b[j]? = block.reverse[s]?)
    (lf : List Nat) (h0 : lf[0]? = some e)
    (hlf : 2 ≤ (block.length + 1) / lf.length → ∀ id row : Nat, 1 ≤ id → lf[id]? = some row →
      sa[row]? = some (block.length + 1 - id * ((block.length + 1) / lf.length))) :
    ∃ z, inverse b lf = some (block ++ [z]) := by
  have hSA := sorted_isSA _ _ hsa
  have hm : 1 ≤ block.reverse.length := by
    rw [List.length_reverse]; exact List.length_pos_iff.mpr hne
  have hB : IsBWT block.reverse sa b e := ⟨by rw [hlen, List.length_reverse], he, hb⟩
  have hst : StartsOK block.reverse lf := by
    refine ⟨(List.getElem?_eq_some_iff.mp h0).1, ?_, ?_⟩
    · rw [h0, eob_eq hSA hB]
    · intro h2 id hid1 hid2
      rw [List.length_reverse] at h2 ⊢
      rw [List.getElem?_eq_getElem hid2]
      exact congrArg some (hSA.index_eq (hlf h2 id _ hid1 (List.getElem?_eq_getElem hid2)))
  obtain ⟨z, hz⟩ := inverse_spec hSA hB hm hst
  exact ⟨z, by rw [hz, List.reverse_reverse]⟩

/-- With the rows of "abab" above and two starting points the step is 2 and the rows are 4 and 1. -/
example : ([4, 1] : List Nat)[0]? = some 4 ∧ (∀ id row : Nat, 1 ≤ id →
    ([4, 1] : List Nat)[id]? = some row →
      ([4, 3, 1, 2, 0] : List Nat)[row]? = some (5 - id * (5 / 2))) := by
  refine ⟨rfl, ?_⟩
  intro id row h1 h2
  match id with
  | 1 => simp at h2; subst h2; rfl
  | id + 2 => simp at h2

/-- C30, for the starting points the forward transform really records: for every block, every number
of starting points asked for and every content of the memory around the block, transforming in place
and inverting returns the block; at most 256 starting points are stored, all of them rows. -/
theorem C30_transform_and_back (block : List UInt8) (hne : block ≠ []) (starts : Nat) :
    ∃ data lf freqs, (∀ pre next post,
        transform (pre ++ block ++ next :: post) pre.length block.length starts
          (List.replicate 256 0) = some (pre ++ data ++ next :: post, lf, freqs)) ∧
      1 ≤ lf.length ∧ lf.length ≤ 256 ∧ (∀ row ∈ lf, row ≤ block.length) ∧
      freqs.length = 256 ∧ (∀ c : UInt8, freqs[c.toNat]? = some (block.count c)) ∧
      freqs.sum = block.length ∧
      ∀ next, ∃ z, inverseBlock data next lf = some (block, z) := by
  obtain ⟨data, lf, freqs, h1, _, h3, h4, h5, h6, h7⟩ := transform_spec block starts
    (List.replicate 256 0) hne (by rw [List.length_replicate])
  obtain ⟨_, p2, _⟩ := prepare_length block.length starts
  refine ⟨data, lf, freqs, h1, h4.1, by omega, h5, by rw [h6.1, List.length_replicate], ?_, ?_, h7⟩
  · intro c
    have hc : c.toNat < 256 := c.toNat_lt
    rw [h6.2.1, List.getElem?_replicate, if_pos hc]
    simp
  · rw [h6.2.2, List.sum_replicate_nat, List.length_reverse]
    omega

example : (([98, 97, 110] : List UInt8) ≠ []) := by decide

/-- C31.  Transforming a slice changes only that slice, and its new content, starting points and
statistics do not depend on what surrounds it; the slice is permuted. -/
theorem C31_neighbours_untouched (slice : List UInt8) (starts : Nat) (freqs : List Nat)
    (hf : freqs.length = 256) :
    ∃ slice' lf freqs', slice'.Perm slice ∧ ∀ pre next post,
      transform (pre ++ slice ++ next :: post) pre.length slice.length starts freqs =
        some (pre ++ slice' ++ next :: post, lf, freqs') := by
  by_cases hne : slice = []
  · subst hne
    exact ⟨[], [0], freqs, List.Perm.refl _, fun pre next post =>
      transform_empty starts freqs pre next post⟩
  · obtain ⟨s', lf, fr, h1, h2, _⟩ := transform_spec slice starts freqs hne hf
    exact ⟨s', lf, fr, h2, h1⟩

/-- Transforming adjacent slices one after the other, as the compressor does. -/
def transformSlices (starts : Nat) : List UInt8 → Nat → List Nat → Option (List UInt8 × List (List Nat))
  | mem, _, [] => some (mem, [])
  | mem, pos, len :: lens => do
    let (mem, lf, _) ← transform mem pos len starts (List.replicate 256 0)
    let (mem, lfs) ← transformSlices starts mem (pos + len) lens
    return (mem, lf :: lfs)

/-- C31, all slices of a block: transforming adjacent slices one after the other keeps the memory in
front and behind, and every slice ends up as if it had been transformed alone. -/
theorem C31_all_slices (starts : Nat) (slices : List (List UInt8)) :
    ∃ res : List (List UInt8 × List Nat), res.length = slices.length ∧
      (∀ (i : Nat) s r, slices[i]? = some s → res[i]? = some r → r.1.length = s.length ∧
        ∃ fr, ∀ next : UInt8, transform (s ++ [next]) 0 s.length starts (List.replicate 256 0) =
          some (r.1 ++ [next], r.2, fr)) ∧
      ∀ pre next post,
        transformSlices starts (pre ++ slices.flatten ++ next :: post) pre.length
            (slices.map List.length) =
          some (pre ++ (res.map Prod.fst).flatten ++ next :: post, res.map Prod.snd) := by
  induction slices with
  | nil =>
    refine ⟨[], rfl, ?_, fun pre next post => rfl⟩
    intro i s r h
    rw [List.getElem?_nil] at h
    cases h
  | cons s slices ih =>
    obtain ⟨res, h1, h2, h3⟩ := ih
    obtain ⟨s', lf, fr, hp, ht⟩ := C31_neighbours_untouched s starts (List.replicate 256 0)
      (by rw [List.length_replicate])
    refine ⟨(s', lf) :: res, by rw [List.length_cons, List.length_cons, h1], ?_, ?_⟩
    · intro i x r hx hr
      cases i with
      | zero =>
        simp only [List.getElem?_cons_zero, Option.some.injEq] at hx hr
        subst hx; subst hr
        refine ⟨hp.length_eq, fr, fun next => ?_⟩
        exact ht [] next []
      | succ i => 
        rw [List.getElem?_cons_succ] at hx hr
        exact h2 i x r hx hr
    · intro pre next post
      rw [List.map_cons, transformSlices]
      obtain ⟨n, p, hnp⟩ : ∃ n p, slices.flatten ++ next :: post = n :: p := by
        cases slices.flatten with
        | nil => exact ⟨next, post, rfl⟩
        | cons a l => exact ⟨a, l ++ next :: post, rfl⟩
      have e1 : pre ++ (s :: slices).flatten ++ next :: post = pre ++ s ++ n :: p := by
        rw [List.flatten_cons, ← hnp]; simp
      rw [e1, ht pre n p]
      simp only [Option.bind_eq_bind, Option.bind_some]
      have e2 : pre ++ s' ++ n :: p = (pre ++ s') ++ slices.flatten ++ next :: post := by
        rw [← hnp]; simp
      have e3 : pre.length + s.length = (pre ++ s').length := by
        rw [List.length_append, hp.length_eq]
      rw [e2, e3, h3 (pre ++ s') next post]
      rw [Option.bind_some, List.map_cons, List.map_cons, List.flatten_cons,
        List.append_assoc pre]
      rfl

end Bwtc.Props
