import Verif.DivsufBwt
import Verif.SsOk
import Verif.TrMono

/-!
# The transform with the `sssort` and the `trsort` of the program
-/

set_option autoImplicit false

namespace Bwtc.Divsuf
open Tr (Sub trsort_ok trsort_sub)

/-- `trsort` with a stack of `cap` entries sorts up to `N` suffixes, if `(N + 4) ^ 3 ≤ 2 ^ (cap + 6)`. -/
theorem trsort_good {cap N : Nat} (h : (N + 4) ^ 3 ≤ 2 ^ (cap + 6)) (hN : N < 2 ^ 32) : TrOk N (Tr.trsort cap) := by
  intro rs sa isa h0 h1 hc
  exact trsort_ok rs sa isa (Nat.le_trans (Nat.pow_le_pow_left (by omega) 3) h) h0 (by omega) hc

section
variable {ss : SsSort} {tr tr' : TrSort} (htr : ∀ sa isa n depth, Sub (tr sa isa n depth) (tr' sa isa n depth))
include htr

theorem sortTypeBstar_sub (T : List Nat) (k : Nat) (sa : List Int) : Sub (sortTypeBstar ss tr T k sa) (sortTypeBstar ss tr' T k sa) := by
  unfold sortTypeBstar
  repeat' (first | with_reducible exact Sub.refl _ | exact htr _ _ _ _ | with_reducible refine Sub.ite ?_ ?_ | with_reducible refine Sub.bind ?_ (fun _ => ?_) | split)

theorem divbwtf_sub (T : List UInt8) (mem : List Int) (lf freqs : List Nat) : Sub (divbwtf ss tr T mem lf freqs) (divbwtf ss tr' T mem lf freqs) := by
  unfold divbwtf
  repeat' (first | with_reducible exact Sub.refl _ | exact sortTypeBstar_sub htr _ _ _ | with_reducible refine Sub.ite ?_ ?_ | with_reducible refine Sub.bind ?_ (fun _ => ?_) | split)

theorem transform_sub (cells : List Int) (mem : List UInt8) (pos len starts : Nat) (freqs : List Nat) :
    Sub (transform ss tr cells mem pos len starts freqs) (transform ss tr' cells mem pos len starts freqs) := by
  unfold transform
  repeat' (first | with_reducible exact Sub.refl _ | exact divbwtf_sub htr _ _ _ _ | with_reducible refine Sub.ite ?_ ?_ | with_reducible refine Sub.bind ?_ (fun _ => ?_) | split)

end

end Bwtc.Divsuf
