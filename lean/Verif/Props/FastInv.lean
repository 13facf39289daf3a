import Verif.FastInvProof
import Verif.Props.BWT

/-!
# C53: the second inverse transform
-/

set_option autoImplicit false

namespace Bwtc.Props

open BWT InvBWT FwdBWT

theorem lf_eq_lfMap {b : List UInt8} {e p : Nat} {c : UInt8} (hpe : p ≠ e) (hp : b[p]? = some c) : FastInv.lf b e c p = lfMap b e p := by
  rw [lfMap, if_neg hpe, hp, FastInv.lf, FastInv.less, FastInv.occ]
  simp only [u8_lt]

theorem bwt_path {w : List UInt8} {sa : List Nat} {b : List UInt8} {e : Nat} (h : IsSA w sa) (hb : IsBWT w sa b e) :
    ∀ s, s ≤ w.length → FastInv.Path b e (rk w s) (w.take s).reverse := by
  intro s
  induction s with
  | zero =>
    intro _
    rw [← eob_eq h hb, List.take_zero, List.reverse_nil]
    exact .stop
  | succ s ih =>
    intro hs
    have hne : rk w (s + 1) ≠ e := by
      rw [eob_eq h hb]
      intro hc
      have := h.rk_inj (by omega) (by omega) hc
      omega
    have hat := bwt_at h hb (show s < w.length by omega)
    rw [List.take_add_one, List.getElem?_eq_getElem (by omega), Option.toList_some, List.reverse_append, List.reverse_singleton, List.singleton_append]
    refine .step hne hat ?_
    rw [lf_eq_lfMap hne hat, lfMap_rk h hb (by omega)]
    exact ih (by omega)

theorem fast_inverse_spec {w : List UInt8} {sa : List Nat} {b : List UInt8} {e : Nat} (h : IsSA w sa) (hb : IsBWT w sa b e)
    (hlen : w.length + 1 < 2 ^ 32) {lf : List Nat} (h0 : lf[0]? = some e) :
    FastInv.inverse b lf = some (w.reverse ++ b.drop w.length) := by
  obtain ⟨more, rfl⟩ : ∃ more, lf = e :: more := by
    cases lf with
    | nil => simp at h0
    | cons a more => exact ⟨more, by simp at h0; rw [h0]⟩
  have hp := bwt_path h hb w.length (Nat.le_refl _)
  rw [rk_length, List.take_length] at hp
  have he : e < b.length := by
    rw [eob_eq h hb, hb.1, ← h.length]
    exact h.rk_lt (by omega)
  rw [FastInv.inverse_path (by rw [hb.1]; exact hlen) he hp, List.length_reverse]

/-- C53.  For every block with fewer than 2^32 - 1 bytes, whatever sorted list of the suffixes of the reversed, zero-terminated block is used, whatever
byte sits in the end-of-block row and whatever further starting rows are recorded: the fast inverse transform returns the block and leaves the byte
behind it as it is. -/
theorem C53_fast_inverse (block : List UInt8) (hn : block.length + 1 < 2 ^ 32) (sa : List Nat)
    (hsa : SortedSuffixes (block.reverse ++ [0]) sa) (b : List UInt8) (e : Nat)
    (hlen : b.length = block.length + 1) (he : sa[e]? = some 0)
    (hb : ∀ j s : Nat, sa[j]? = some (s + 1) → b[j]? = block.reverse[s]?) (lf : List Nat) (h0 : lf[0]? = some e) :
    ∃ z, b[block.length]? = some z ∧ FastInv.inverse b lf = some (block ++ [z]) := by
  have hSA := sorted_isSA _ _ hsa
  have hB : IsBWT block.reverse sa b e := ⟨by rw [hlen, List.length_reverse], he, hb⟩
  have hz : b[block.length]? = some (b[block.length]'(by omega)) := List.getElem?_eq_getElem _
  refine ⟨_, hz, ?_⟩
  rw [fast_inverse_spec hSA hB (by rw [List.length_reverse]; exact hn) h0, List.reverse_reverse, List.length_reverse,
    List.drop_eq_getElem_cons (by omega), List.drop_eq_nil_of_le (by omega)]

/-- "abab" as in C29: the rows are `$`, `ab$`, `abab$`, `b$`, `bab$`. -/
example : FastInv.inverse [97, 98, 98, 97, 255] [4, 1] = some [97, 98, 97, 98, 255] := by
  obtain ⟨z, h1, h2⟩ := C53_fast_inverse [97, 98, 97, 98] (by decide) [4, 3, 1, 2, 0] ⟨by decide, by decide⟩ [97, 98, 98, 97, 255] 4 rfl rfl (by
    intro j s h
    match j with
    | 0 | 1 | 2 | 3 => simp at h; subst h; rfl
    | 4 => simp at h
    | j + 5 => simp at h) [4, 1] rfl
  simp at h1
  subst h1
  exact h2

/-- C53, for the transform the program computes: both inverse transforms return the block, for every number of starting points. -/
theorem C53_either_inverse (block : List UInt8) (hne : block ≠ []) (hn : block.length + 1 < 2 ^ 32) (starts : Nat) :
    ∃ data lf freqs, (∀ pre next post,
        transform (pre ++ block ++ next :: post) pre.length block.length starts (List.replicate 256 0) =
          some (pre ++ data ++ next :: post, lf, freqs)) ∧
      ∀ next, (∃ z, inverseBlock data next lf = some (block, z)) ∧ ∃ z, FastInv.inverseBlock data next lf = some (block, z) := by
  obtain ⟨data, lf, freqs, h1, hp, _, h4, _, _, h7, sa, h8, h9⟩ := transform_isBWT block starts
    (List.replicate 256 0) hne (by rw [List.length_replicate])
  refine ⟨data, lf, freqs, h1, fun next => ⟨h7 next, ?_⟩⟩
  obtain ⟨y, hy, hB⟩ := h9 next
  have hdl := hp.length_eq
  refine ⟨y, ?_⟩
  rw [FastInv.inverseBlock, h4.2.1]
  simp only [Option.bind_eq_bind, Option.bind_some]
  rw [hy]
  simp only [Option.bind_some]
  rw [fast_inverse_spec h8 hB (by rw [List.length_reverse]; exact hn) h4.2.1, List.reverse_reverse, List.length_reverse, ← hdl,
    List.drop_left]
  simp only [Option.bind_some]
  rw [List.getElem?_append_right (by omega), hdl, Nat.sub_self, List.getElem?_cons_zero, List.take_left]
  rfl

example : ([98, 97, 110, 97, 110, 97] : List UInt8) ≠ [] ∧ ([98, 97, 110, 97, 110, 97] : List UInt8).length + 1 < 2 ^ 32 := by decide

/-- C53, damaged data: for every list of fewer than 2^32 bytes and every end-of-block row in it the fast inverse transform ends, reads and writes only
inside its arrays and keeps the length. -/
theorem C53_any_data (b : List UInt8) (hn : b.length < 2 ^ 32) (e : Nat) (he : e < b.length) (more : List Nat) :
    ∃ out, FastInv.inverse b (e :: more) = some out ∧ out.length = b.length := by
  obtain ⟨cs, h1, h2⟩ := FastInv.path_exists he b.length 0 [] (by simp) (by simp) (by simp; omega) (by simp) (by simp)
  rw [List.length_nil, Nat.zero_add] at h2
  refine ⟨_, FastInv.inverse_path hn he h1 more, ?_⟩
  rw [List.length_append, List.length_drop]
  omega

/-- Data that is no transform of anything: the walk ends after one step. -/
example : FastInv.inverse [97, 98, 99, 100] [1] = some [97, 98, 99, 100] := by decide +kernel

end Bwtc.Props
