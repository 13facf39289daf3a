import Verif.Sections

/-!
# C23: sections of a block
-/

set_option autoImplicit false

namespace Bwtc.Props
open Sections

/-- C23.  For every table of at most 256 character counts with a positive total below `2^32`:
the section lengths are positive, sum to the total, there are between one and 256 of them, and
if there are several, each is at least 10000 (the minimum section size); the header of the block
(any starting points of C14, any length field) is read back with the same length field, starting
points and section lengths, and the reader stops at the data following the header; the length counted for the header is its size. -/
theorem C23_sections (powers stats : List Nat) (h1 : 1 ≤ powers.length) (h2 : powers.length ≤ 256)
    (h3 : ∀ p ∈ powers, p < 2 ^ 31) (h4 : 0 < stats.sum) (h5 : stats.sum < 2 ^ 32)
    (h6 : stats.length ≤ 256) :
    ∃ secs w, secs.sum = stats.sum ∧ (∀ x ∈ secs, 0 < x) ∧ 1 ≤ secs.length ∧ secs.length ≤ 256 ∧
      (1 < secs.length → ∀ x ∈ secs, 10000 ≤ x) ∧
      writeHeader powers stats = some (w, w.length) ∧
      ∀ (len : Nat) (rest : List Bool), len < 2 ^ 48 → rest.length % 8 = 0 →
        readHeader (bitsOf 48 len ++ bytesBits w ++ rest) = some (len, powers, secs, rest) := by
  obtain ⟨s1, s2, s3, s4, s5⟩ := sections_spec stats h5
  obtain ⟨w, e1, e2⟩ := readHeader_write powers stats h1 h2 h3 h4 h5 h6
  have := List.length_pos_iff.mpr (s5 h4)
  rw [if_neg (by omega)] at s4
  exact ⟨sections stats, w, s1, s2, by omega, by omega, s3, e1, e2⟩

/-- Non-vacuity: the small tail is merged into the last section. -/
example : sections [6000, 5000, 0, 12000, 17] = [11000, 12017] ∧ sections [3, 4] = [7] := by decide

end Bwtc.Props
