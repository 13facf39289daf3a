import Verif.DivsufSAAll

/-!
# C66: the suffix array by divsufsort
-/

set_option autoImplicit false

namespace Bwtc.Props

open Divsuf

/-- C66.  For every text of up to 21137959 bytes, whatever the array holds: `divsufsort` ends, performs no access outside of the text, the
array or its stacks, none of its assertions fails, and it leaves the list of all suffixes in increasing order. -/
theorem C66_suffix_array (T : List UInt8) (mem : List Int) (hmax : T.length ≤ 21137959) (hmem : mem.length = T.length) :
    ∃ sa : List Nat, SA.divsufsort Ss.sssort (Tr.trsort Tr.stackSize) T mem = some (sa.map Int.ofNat) ∧ sa.Perm (List.range T.length) ∧
      sa.Pairwise (fun a b => T.drop a < T.drop b) :=
  SA.divsufsort_spec (N := 10568979) Ss.sssort_ok (trsort_good (by decide) (by decide)) T mem (by omega) (by omega) hmem

/-- The hypotheses are met by a text of eleven bytes with equal B* substrings that ends with a larger byte, in memory full of -7. -/
example : ([98, 97, 110, 97, 110, 97, 98, 97, 110, 97, 122] : List UInt8).length ≤ 21137959 ∧
    (List.replicate 11 (-7) : List Int).length = ([98, 97, 110, 97, 110, 97, 98, 97, 110, 97, 122] : List UInt8).length := by decide

/-- C66, long texts.  For every text below 2 GB: if `divsufsort` ends, and no stack overflows, then the array is the sorted list of all
suffixes. -/
theorem C66_never_wrong (T : List UInt8) (mem : List Int) (hmax : T.length < 2 ^ 31) (hmem : mem.length = T.length) (r : List Int)
    (h : SA.divsufsort Ss.sssort (Tr.trsort Tr.stackSize) T mem = some r) :
    ∃ sa : List Nat, r = sa.map Int.ofNat ∧ sa.Perm (List.range T.length) ∧ sa.Pairwise (fun a b => T.drop a < T.drop b) := by
  have h1 := SA.divsufsort_sub (ss := Ss.sssort) (tr' := Tr.trsort 85) (fun sa isa n depth => Tr.trsort_sub (by decide) sa isa n depth) T mem r h
  obtain ⟨sa, h2, h3, h4⟩ := SA.divsufsort_spec (N := 2 ^ 30) Ss.sssort_ok (trsort_good (cap := 85) (by decide) (by decide)) T mem (by omega) hmax hmem
  rw [h1] at h2
  exact ⟨sa, Option.some.inj h2, h3, h4⟩

/-- The hypotheses of `C66_never_wrong` are met: `divsufsort` returns for every short text. -/
example : ∃ r, SA.divsufsort Ss.sssort (Tr.trsort Tr.stackSize) [98, 97, 110, 97, 110, 97] [0, 0, 0, 0, 0, 0] = some r := by
  obtain ⟨sa, h, _⟩ := C66_suffix_array [98, 97, 110, 97, 110, 97] [0, 0, 0, 0, 0, 0] (by decide) rfl
  exact ⟨_, h⟩

end Bwtc.Props
