import Verif.HuffCodes
import Verif.Props.HuffLengths

/-!
# C19: canonical Huffman codewords
-/

set_option autoImplicit false

namespace Bwtc.Props
open Huff HuffCodes

/-- C19.  For every assignment of lengths to the 256 symbols (0 = unused) whose positive lengths
satisfy the Kraft equality, code values are computed without leaving any array, every value fits
into eight bits and into its length, and the codewords (`length` low bits of the value) of
different symbols are prefix-free. -/
theorem C19_canonical_codes (clen : List Nat) (h256 : clen.length = 256)
    (hk : KraftEquality (clen.filter fun l => 0 < l)) :
    ∃ codes, computeHuffmanCodes clen = some codes ∧ codes.length = 256 ∧
      (∀ (i l c : Nat), clen[i]? = some l → codes[i]? = some c → c < 256 ∧ c < 2 ^ l) ∧
      (∀ (i j li lj ci cj : Nat), i ≠ j → clen[i]? = some li → clen[j]? = some lj → 0 < li → 0 < lj →
        codes[i]? = some ci → codes[j]? = some cj → ¬ bitsOf li ci <+: bitsOf lj cj) := by
  have hk' : ∀ m, (∀ l ∈ clen, l ≤ m) → kraft m (clen.filter fun x => 0 < x) = 2 ^ m := by
    intro m hm
    exact hk m (fun l hl => hm l (List.mem_filter.mp hl).1)
  have hlt : ∀ l ∈ clen, l < 256 := by
    -- the maximum of the lengths
    obtain ⟨m, hm1, hm2⟩ : ∃ m, m ∈ clen ∧ ∀ l ∈ clen, l ≤ m := by
      have : clen ≠ [] := by rintro rfl; simp at h256
      clear h256 hk hk'
      induction clen with
      | nil => exact absurd rfl this
      | cons a ls ih =>
        by_cases hls : ls = []
        · subst hls
          exact ⟨a, by simp, by simp⟩
        · obtain ⟨m, h1, h2⟩ := ih hls
          by_cases ham : a ≤ m
          · exact ⟨m, by simp [h1], by simpa [ham] using h2⟩
          · refine ⟨a, by simp, ?_⟩
            intro l hl
            rcases List.mem_cons.mp hl with rfl | hl
            · exact Nat.le_refl _
            · have := h2 l hl
              omega
    intro l hl
    have := complete_bound hm1 (hk' m hm2)
    have := hm2 l hl
    omega
  obtain ⟨codes, m, st, h1, h2⟩ := compute_canon clen (by omega) hlt hk'
  have hkm : above m clen 0 = 2 ^ m := hk' m h2.le
  have hfit : ∀ (i l c : Nat), clen[i]? = some l → codes[i]? = some c → c < 2 ^ l := by
    intro i l c hl hc
    by_cases h0 : 0 < l
    · have hb := (h2.below hl h0 hc).1
      have h3 := above_mono m clen (show 0 ≤ l - 1 by omega)
      rw [hkm] at h3
      have hlm := h2.le l (List.mem_of_getElem? hl)
      have hp : 2 ^ m = 2 ^ l * 2 ^ (m - l) := by rw [← Nat.pow_add]; congr 1; omega
      rw [hp] at h3
      have := Nat.le_of_mul_le_mul_right (Nat.le_trans hb h3) (Nat.pow_pos (by omega))
      omega
    · have : l = 0 := by omega
      subst this
      rw [h2.zero i hl] at hc
      simp at hc
      omega
  refine ⟨codes, h1, by rw [h2.len, h256], ?_, ?_⟩
  · intro i l c hl hc
    exact ⟨h2.lt_256 hl hc, hfit i l c hl hc⟩
  · intro i j li lj ci cj hne hli hlj h0i h0j hci hcj hpre
    have hlen := hpre.length_le
    rw [bitsOf_length, bitsOf_length] at hlen
    -- the prefix of the longer word
    have htake : bitsOf li ci = bitsOf li (cj / 2 ^ (lj - li)) := by
      obtain ⟨t, ht⟩ := hpre
      have e := bitsOf_add li (lj - li) cj
      rw [show li + (lj - li) = lj by omega, ← ht] at e
      exact (List.append_inj e (by simp [bitsOf_length])).1
    have hcj2 := hfit j lj cj hlj hcj
    have hval : ci = cj / 2 ^ (lj - li) := by
      have h3 := congrArg natOf htake
      rw [natOf_bitsOf_of_lt (hfit i li ci hli hci), natOf_bitsOf_of_lt] at h3
      · exact h3
      · rw [Nat.div_lt_iff_lt_mul (Nat.pow_pos (by omega)), ← Nat.pow_add, show li + (lj - li) = lj by omega]
        exact hcj2
    by_cases he : li = lj
    · subst he
      rw [Nat.sub_self, Nat.pow_zero, Nat.div_one] at hval
      subst hval
      exact hne (h2.ne hli hlj h0i hci hcj)
    · have hbi := (h2.below hli h0i hci).2
      have hbj := (h2.below hlj h0j hcj).1
      have hmono := above_mono m clen (show li ≤ lj - 1 by omega)
      have hlm := h2.le lj (List.mem_of_getElem? hlj)
      have h3 : (cj + 1) * 2 ^ (m - lj) ≤ ci * 2 ^ (m - li) := by omega
      have hp : 2 ^ (m - li) = 2 ^ (lj - li) * 2 ^ (m - lj) := by rw [← Nat.pow_add]; congr 1; omega
      rw [hp, ← Nat.mul_assoc] at h3
      have h4 := Nat.le_of_mul_le_mul_right h3 (Nat.pow_pos (by omega))
      have h5 : ci * 2 ^ (lj - li) ≤ cj := by
        rw [hval]
        exact Nat.div_mul_le_self _ _
      omega

/-- A single symbol of length one gets the one-bit codeword 0. -/
example : computeHuffmanCodes [0, 1, 0] = some [0, 0, 0] := by decide +kernel

/-- Non-vacuity: a complete code for five of the 256 symbols. -/
example : ([2, 2, 3, 2, 0, 3] ++ List.replicate 250 0).length = 256 ∧
    KraftEquality (([2, 2, 3, 2, 0, 3] ++ List.replicate 250 0).filter fun l => 0 < l) ∧
    (computeHuffmanCodes [2, 2, 3, 2, 0, 3]) = some [1, 2, 0, 3, 0, 1] := by
  refine ⟨by rw [List.length_append, List.length_replicate]; rfl, ?_, by decide +kernel⟩
  have : (([2, 2, 3, 2, 0, 3] ++ List.replicate 250 0).filter fun l => decide (0 < l)) = [2, 2, 3, 2, 3] := by
    rw [List.filter_append]
    have : (List.replicate 250 0).filter (fun l => decide (0 < l)) = [] := by
      rw [List.filter_eq_nil_iff]
      intro x hx
      rw [List.mem_replicate] at hx
      simp [hx.2]
    rw [this]
    rfl
  rw [this]
  intro m hm
  have h3 := hm 3 (by simp)
  obtain ⟨k, rfl⟩ : ∃ k, m = k + 3 := ⟨m - 3, by omega⟩
  simp only [List.map_cons, List.map_nil, List.sum_cons, List.sum_nil, show k + 3 - 2 = k + 1 by omega,
    show k + 3 - 3 = k by omega, Nat.pow_succ]
  omega

end Bwtc.Props
