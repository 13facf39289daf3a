import Verif.CircBuf

/-!
# C32: the circular buffer is a FIFO queue
-/

set_option autoImplicit false

namespace Bwtc.Props
open CircBuf

/-- C32.  For every capacity and every sequence of pushes and consumes that never pushes onto
a full queue, the circular buffer never leaves its array, never reads an uninitialised cell and
returns exactly what a FIFO queue returns; afterwards `full` tells whether the queue is full. -/
theorem C32_circular_buffer_is_queue {α : Type} (cap : Nat) (ops : List (Op α))
    (rs : List (List α)) (q : List α) (h : specRun cap [] ops = some (rs, q)) :
    ∃ b, run (CB.new cap) ops = some (rs, b) ∧ full b = decide (cap ≤ q.length) ∧
      ∀ n, ∃ b', consume n b = some (q.take n, b') := by
  obtain ⟨b, h1, h2⟩ := run_rel ops (new_rel cap) h
  exact ⟨b, h1, full_rel h2, fun n => ⟨_, (consume_rel h2 n).choose_spec.1⟩⟩

/-- Pushing on a full buffer of positive capacity overwrites the oldest element, so the
side condition cannot be dropped. -/
theorem C32_overfull_loses_data : (run (CB.new 2) [.push 1, .push 2, .push 3, .consume 1]).map (·.1)
    = some [[], [], [], [3]] := by decide +kernel

/-- Non-vacuity: wrapping around twice. -/
example : specRun 3 [] [.push 1, .push 2, .consume 1, .push 3, .push 4, .consume 2, .push 5, .consume 9]
    = some ([[], [], [1], [], [], [2, 3], [], [4, 5]], []) := by decide +kernel

end Bwtc.Props
