import Verif.DivsufSAPass
import Verif.DivsufAll

/-!
# `divsufsort` gives the suffix array
-/

set_option autoImplicit false

namespace Bwtc.Divsuf.SA
open Divsuf
open Induce Suffix
open Sais (inv put bind_some' put_spec IsSA nums isSA_sorted)
open Tr (Sub)

theorem nums_ch {T : List UInt8} {p : Nat} (hp : p < (nums T).length) : ch (nums T) p < 256 := by
  have hl : p < T.length := by rwa [List.length_map] at hp
  have : ch (nums T) p = T[p].toNat := by
    apply ch_eq
    rw [List.getElem?_map, List.getElem?_eq_getElem hl]
    rfl
  rw [this]
  exact UInt8.toNat_lt _

theorem divsufsort_spec {ss : SsSort} {tr : TrSort} {N : Nat} (hss : SsOk ss) (htr : TrOk N tr) (T : List UInt8) (mem : List Int)
    (hN : T.length ≤ 2 * N + 1) (hmax : T.length < 2 ^ 31) (hmem : mem.length = T.length) :
    ∃ sa : List Nat, divsufsort ss tr T mem = some (sa.map Int.ofNat) ∧ sa.Perm (List.range T.length) ∧
      sa.Pairwise (fun a b => T.drop a < T.drop b) := by
  match T, hN, hmax, hmem with
  | [], _, _, hmem =>
    have : mem = [] := List.length_eq_zero_iff.mp hmem
    subst this
    exact ⟨[], rfl, List.Perm.refl _, List.Pairwise.nil⟩
  | [a], _, _, hmem =>
    match mem, hmem with
    | [x], _ => exact ⟨[0], rfl, List.Perm.refl _, List.pairwise_singleton _ _⟩
  | [a, b], _, _, hmem =>
    match mem, hmem with
    | [x, y], _ =>
      by_cases h : a < b
      · refine ⟨[0, 1], ?_, List.Perm.refl _, ?_⟩
        · unfold divsufsort
          simp only [if_pos h]
          rfl
        · simp [List.cons_lt_cons_iff, h]
      · refine ⟨[1, 0], ?_, List.Perm.swap _ _ _, ?_⟩
        · unfold divsufsort
          simp only [if_neg h]
          rfl
        · have hba : b ≤ a := UInt8.not_lt.mp h
          simp only [List.pairwise_cons, List.mem_singleton, forall_eq, List.drop_succ_cons, List.drop_zero, List.cons_lt_cons_iff]
          refine ⟨?_, by simp⟩
          by_cases e : b = a
          · exact Or.inr ⟨e, by simp⟩
          · exact Or.inl (UInt8.lt_of_le_of_ne hba e)
  | a :: b :: c :: t, hN, hmax, hmem =>
    obtain ⟨T, hT⟩ : ∃ T, T = a :: b :: c :: t := ⟨_, rfl⟩
    have h3 : 3 ≤ T.length := by rw [hT]; simp only [List.length_cons]; omega
    rw [← hT] at hN hmax hmem ⊢
    have hnl : (nums T).length = T.length := List.length_map ..
    obtain ⟨A, bk, s1, s2, s3, s4⟩ := sortTypeBstar_spec (T := nums T) hss htr (by omega) (by omega) (k := 256) (fun p hp => nums_ch hp) (by omega)
      (sa := mem) (by omega)
    obtain ⟨sa', g1, g2⟩ := constructSA_spec (T := nums T) (k := 256) (fun p hp => nums_ch hp) (by omega) (fun h => no_stars h) s2 s3 s4
    obtain ⟨l, l1, l2, l3⟩ := isSA_sorted g2
    refine ⟨l, ?_, by rw [← hnl]; exact l2, ?_⟩
    · rw [← l1, ← g1]
      subst hT
      unfold divsufsort
      simp only
      rw [if_neg (by omega)]
      exact bind_some' s1
    · apply l3.imp
      intro x y h
      exact Sais.sless_nums.mp h

theorem divsufsort_sub {ss : SsSort} {tr tr' : TrSort} (htr : ∀ sa isa n depth, Sub (tr sa isa n depth) (tr' sa isa n depth))
    (T : List UInt8) (mem : List Int) : Sub (divsufsort ss tr T mem) (divsufsort ss tr' T mem) := by
  unfold divsufsort
  repeat' (first | with_reducible exact Sub.refl _ | exact sortTypeBstar_sub htr _ _ _ | with_reducible refine Sub.ite ?_ ?_ | with_reducible refine Sub.bind ?_ (fun _ => ?_) | split)

end Bwtc.Divsuf.SA
