import Verif.Runs

/-!
# C16: scanning runs
-/

set_option autoImplicit false

namespace Bwtc.Props
open Runs

/-- C16.  For every non-empty block (shorter than `2^32`): the stored runs are the maximal runs
of the block (they expand to it, neighbours differ, all lengths are positive); the reported
number is the number of runs and does not exceed the block length (the size of the arrays the
runs are stored in); and the character table of each of the three routines and the run-length
table of the second one are increased by exactly the number of runs with that character or that
length. -/
theorem C16_run_scanning (l : List UInt8) (h : l ≠ []) (hl : l.length < 2 ^ 32)
    (fr : UInt8 → Nat) (lens : Nat → Nat) :
    ∃ rs fr' lens', IsRuns rs l ∧ rs.length ≤ l.length ∧
      storeRuns 0 fr [] l = some (rs.length, fr', rs) ∧
      runFreqs fr l = some fr' ∧
      runsAndChars 0 fr lens l = some (rs.length, fr', lens') ∧
      (∀ c, fr' c = fr c + rs.countP (fun r => r.1 = c)) ∧
      (∀ n, lens' n = lens n + rs.countP (fun r => r.2 = n)) := by
  refine ⟨runsOf l, _, ((runsOf l).map (·.2)).foldl bump lens, runsOf_isRuns l, runsOf_length_le l, ?_, runFreqs_eq fr l h, ?_, ?_, ?_⟩
  · rw [storeRuns_eq 0 fr [] l h hl]; simp
  · rw [runsAndChars_eq 0 fr lens l h hl]; simp
  · intro c; rw [bump_foldl, count_map_fst]
  · intro n; rw [bump_foldl, count_map_snd]

/-- Runs are determined by the specification. -/
theorem C16_runs_unique (rs rs' : List (UInt8 × Nat)) (l : List UInt8) (h : IsRuns rs l)
    (h' : IsRuns rs' l) : rs = rs' := by rw [isRuns_unique h, isRuns_unique h']

/-- An empty block makes all three routines read outside it. -/
theorem C16_empty_block_undefined (fr : UInt8 → Nat) (lens : Nat → Nat) :
    storeRuns 0 fr [] [] = none ∧ runFreqs fr [] = none ∧ runsAndChars 0 fr lens [] = none := by
  simp [storeRuns, runFreqs, runsAndChars]

/-- Non-vacuity: the last run has length one, and more than one round. -/
example : (storeRuns 0 (fun _ => 0) [] [7, 7, 3, 7, 7, 7, 1]).map (fun x => (x.1, x.2.1 7, x.2.2))
    = some (4, 2, [(7, 2), (3, 1), (7, 3), (1, 1)]) := by decide +kernel

end Bwtc.Props
