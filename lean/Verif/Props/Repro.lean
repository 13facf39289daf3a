import Verif.Repro
import Verif.Props.Container

/-!
# C54, C55: what a compressed file depends on
-/

set_option autoImplicit false

namespace Bwtc.Props
open Container

/-- C54 with the coder `H` and no preprocessing: the file, its size, and whether it is written at all, are the same whatever the order of
equal elements in sorted arrays, the uninitialised bytes and the rounding of floating-point numbers are. -/
theorem C54_huffman (starts memLimit : Nat) (e e' : Env) (fuel : Nat) (input : List UInt8) :
    compress ⟨72, starts, 0, memLimit⟩ e fuel input = compress ⟨72, starts, 0, memLimit⟩ e' fuel input := by
  have h := compressBlocks_env (coderOf 72) (o := ⟨72, starts, 0, memLimit⟩) rfl (e := e) (e' := e') rfl fuel (input.length + 1)
    (bwtBlock0 ⟨72, starts, 0, memLimit⟩) (coderOf 72).init input (Nat.min_le_right _ _)
  rw [compress, compress]
  rw [show coderOf (⟨72, starts, 0, memLimit⟩ : Options).letter = coderOf 72 from rfl, h]

/-- C54 with any coder and no preprocessing: the only thing outside of the input and the options that can influence the file is the outcome of
the floating-point comparisons in the search for the parameters of the wavelet coders. -/
theorem C54_any_coder (letter : UInt8) (starts memLimit : Nat) (e e' : Env) (hc : e.cheap = e'.cheap) (fuel : Nat) (input : List UInt8) :
    compress ⟨letter, starts, 0, memLimit⟩ e fuel input = compress ⟨letter, starts, 0, memLimit⟩ e' fuel input := by
  have h := compressBlocks_env (coderOf letter) (o := ⟨letter, starts, 0, memLimit⟩) rfl (e := e) (e' := e') (by rw [hc]) fuel (input.length + 1)
    (bwtBlock0 ⟨letter, starts, 0, memLimit⟩) (coderOf letter).init input (Nat.min_le_right _ _)
  rw [compress, compress, show (⟨letter, starts, 0, memLimit⟩ : Options).letter = letter from rfl, h]

/-- Two environments that agree in the comparisons only. -/
example : ∃ e e' : Env, e.junk ≠ e'.junk ∧ e.beyond ≠ e'.beyond ∧ e.small ≠ e'.small ∧ e.cheap = e'.cheap :=
  ⟨⟨sampleEnv.table, none, fun _ _ => false, 0, sampleEnv.cheap⟩, ⟨sampleEnv.table, some 0, fun _ _ => true, 1, sampleEnv.cheap⟩,
    by simp, by simp, fun h => by simpa using congrFun (congrFun h 0) 0, rfl⟩

theorem join_files (c : UInt8) (M : Nat) (hM : 2 ≤ M) (ra rb : Option (List UInt8 × Nat)) :
    ((ra.bind fun r => rb.bind fun q => some (r.1 ++ q.1, r.2 + q.2)).bind fun r => some (c :: (r.1 ++ [0]), (1 + r.2 + 1) % M)) =
      (ra.bind fun r => some (c :: (r.1 ++ [0]), (1 + r.2 + 1) % M)).bind fun x =>
        (rb.bind fun r => some (c :: (r.1 ++ [0]), (1 + r.2 + 1) % M)).map fun y =>
          (x.1.dropLast ++ y.1.tail, (x.2 + y.2 + (M - 2)) % M) := by
  cases ra with
  | none => rfl
  | some x =>
    cases rb with
    | none => rfl
    | some y =>
      simp only [Option.bind_some, Option.map_some, Option.some.injEq, Prod.mk.injEq, List.tail_cons]
      have hd : ∀ (c : UInt8) (l : List UInt8), (c :: (l ++ [0])).dropLast = c :: l := fun c l => by
        rw [← List.cons_append, List.dropLast_concat]
      refine ⟨by rw [hd]; simp, ?_⟩
      have h1 : ((1 + x.2 + 1) % M + (1 + y.2 + 1) % M + (M - 2)) % M = (1 + x.2 + 1 + (1 + y.2 + 1) + (M - 2)) % M := by
        rw [Nat.add_mod, ← Nat.add_mod (1 + x.2 + 1), ← Nat.add_mod]
      rw [h1, show 1 + x.2 + 1 + (1 + y.2 + 1) + (M - 2) = 1 + (x.2 + y.2) + 1 + M by omega, Nat.add_mod_right]

/-- C55: with the coder `H` and no preprocessing, the file for `a ++ b`, where `a` fills its blocks, is the file for `a` without its end mark
followed by the file for `b` without its first byte; it is written if and only if those two are. -/
theorem C55_concatenation (starts memLimit : Nat) (e : Env) (fuel : Nat) (a b : List UInt8) (h6 : 6 ≤ memLimit)
    (ha : min (times0185 memLimit) maxBlock ∣ a.length) :
    compress ⟨72, starts, 0, memLimit⟩ e fuel (a ++ b) =
      (compress ⟨72, starts, 0, memLimit⟩ e fuel a).bind fun x =>
        (compress ⟨72, starts, 0, memLimit⟩ e fuel b).map fun y => (x.1.dropLast ++ y.1.tail, (x.2 + y.2 + (2 ^ 64 - 2)) % 2 ^ 64) := by
  have hpb : pbBlock ⟨72, starts, 0, memLimit⟩ = min (times0185 memLimit) maxBlock := by
    rw [pbBlock, if_pos (show (⟨72, starts, 0, memLimit⟩ : Options).rounds = 0 from rfl), bwtBlock0]
  have hpos : 0 < min (times0185 memLimit) maxBlock := by
    obtain ⟨_, _, t3, _⟩ := times_bounds memLimit
    have t3 := t3 h6
    have hmx := maxBlock_pos
    omega
  rw [← hpb] at ha hpos
  clear hpb
  obtain ⟨k, hk⟩ := ha
  rw [Nat.mul_comm] at hk
  have h := compressBlocks_append (o := ⟨72, starts, 0, memLimit⟩) rfl e fuel b hpos k a ((a ++ b).length + 1) hk (Nat.lt_succ_self _)
  have hu : ∀ l, compress ⟨72, starts, 0, memLimit⟩ e fuel l = (compressBlocks huffman ⟨72, starts, 0, memLimit⟩ e fuel (l.length + 1)
      (bwtBlock0 ⟨72, starts, 0, memLimit⟩) huffman.init l).bind fun r => some (72 :: (r.1 ++ [0]), (1 + r.2 + 1) % 2 ^ 64) := by
    intro l
    rw [compress]
    rfl
  rw [hu, hu, hu, h,
    compressBlocks_fuel huffman _ e fuel (a.length + 1) ((a ++ b).length + 1) _ _ a (by omega) (by rw [List.length_append]; omega),
    compressBlocks_fuel huffman _ e fuel (b.length + 1) ((a ++ b).length + 1) _ _ b (by omega) (by rw [List.length_append]; omega)]
  generalize compressBlocks huffman ⟨72, starts, 0, memLimit⟩ e fuel ((a ++ b).length + 1) (bwtBlock0 ⟨72, starts, 0, memLimit⟩) huffman.init a = ra
  generalize compressBlocks huffman ⟨72, starts, 0, memLimit⟩ e fuel ((a ++ b).length + 1) (bwtBlock0 ⟨72, starts, 0, memLimit⟩) huffman.init b = rb
  clear h hu hk hpos
  exact join_files _ _ (by decide) ra rb

/-- The hypotheses of `C55_concatenation`: a limit of 40 bytes makes blocks of seven bytes. -/
example : min (times0185 40) maxBlock = 7 ∧ min (times0185 40) maxBlock ∣ ([97, 98, 97, 98, 99, 100, 99] : List UInt8).length := by
  have h7 : min (times0185 40) maxBlock = 7 := by decide +kernel
  rw [h7]
  exact ⟨rfl, by decide⟩

end Bwtc.Props
