import Verif.SaisHeapProof
import Verif.SaisHeapGrow

/-!
# C72: the heap arrays of SA-IS
-/

set_option autoImplicit false

namespace Bwtc.Props
open Sais

/-- The full claim C72: whichever requests for memory fail, no array is used or deleted that is not held, and nothing is held in the end. -/
def C72_claim : Prop := ∀ (ok : Nat → Bool) (T : List Nat) (mem : List Int) (k : Nat), 0 < T.length → (∀ c ∈ T, c < k) → T.length ≤ mem.length →
  ∃ r h', sortHeap ok T.length T mem k Heap.empty = some (r, h') ∧ h'.live = []

/-- C72 without the failures between two requests: no array is used or deleted that is not held; -2 is returned exactly if a request fails; if none fails
nothing is held in the end, and never more than 256 cells. -/
theorem C72_safe_partial (ok : Nat → Bool) (T : List Nat) (mem : List Int) (k : Nat) (hn : 0 < T.length) (hk : ∀ c ∈ T, c < k) (hmem : T.length ≤ mem.length) :
    ∃ r h', sortHeap ok T.length T mem k Heap.empty = some (r, h') ∧ (r = true ↔ ∀ i, i < h'.reqs → ok i = true) ∧ (r = true → h'.live = []) ∧ cells h'.live ≤ 256 := by
  obtain ⟨r, h', h1, h2, h3⟩ := sortHeap_spec ok T.length T mem k Heap.empty (Nat.le_refl _) hn hk hmem
  refine ⟨r, h', h1, ⟨fun hr i hi => h2.good hr i (Nat.zero_le _) hi, fun h => ?_⟩, h3.1, ?_⟩
  · cases r with
    | true => rfl
    | false =>
      obtain ⟨i, -, h4, h5⟩ := h2.bad rfl
      rw [h i h4] at h5
      cases h5
  · cases r with
    | true =>
      rw [h3.1 rfl]
      exact Nat.zero_le _
    | false =>
      obtain ⟨Y, h4, h5, -⟩ := h3.2 rfl
      rw [h4]
      simp only [Heap.empty, List.append_nil]
      exact h5

/-- The room beside the text and the suffix array: for bytes the arrays of all levels together never take more than 2n bytes (`int` has 4) and a logarithmic
number of them; the comment above `suffixsort` (sais.hxx:504) says 2n + O(1). -/
theorem C72_room (ok : Nat → Bool) (T : List Nat) (mem : List Int) (hn : 0 < T.length) (hk : ∀ c ∈ T, c < 256) (hmem : T.length ≤ mem.length) :
    ∃ r h', sortHeap ok T.length T mem 256 Heap.empty = some (r, h') ∧ 4 * h'.peak ≤ 2 * T.length + 1024 * Nat.log2 T.length + 4096 := by
  obtain ⟨r, h', h1, h2, -⟩ := sortHeap_spec ok T.length T mem 256 Heap.empty (Nat.le_refl _) hn hk hmem
  refine ⟨r, h', h1, ?_⟩
  have := h2.peak
  simp only [Heap.empty, cells, room] at this
  omega

/-- What a sort of bytes takes at least: both bucket arrays are on the heap (nothing is free behind the suffix array), whatever the text. -/
theorem C72_least (ok : Nat → Bool) (T : List Nat) (mem : List Int) (hn : 0 < T.length) (hk : ∀ c ∈ T, c < 256) (hmem : T.length = mem.length) (h0 : ok 0 = true)
    (h1 : ok 1 = true) : ∃ r h', sortHeap ok T.length T mem 256 Heap.empty = some (r, h') ∧ 512 ≤ h'.peak := by
  obtain ⟨r, h', e, -, -⟩ := sortHeap_spec ok T.length T mem 256 Heap.empty (Nat.le_refl _) hn hk (by omega)
  refine ⟨r, h', e, Nat.le_trans ?_ (sortHeap_grow _ e)⟩
  rw [hmem, Nat.sub_self]
  have hf : (chooseFlags mem.length 0 256).f1 = true ∧ (chooseFlags mem.length 0 256).f2 = true := by
    simp only [chooseFlags, placement]
    split <;> exact ⟨rfl, rfl⟩
  rw [acquire, if_pos hf.1, new_some (h := Heap.empty) h0]
  simp only
  rw [if_pos hf.2, new_some (by exact h1)]
  decide

example : ∃ r h', sortHeap (fun _ => true) 3 [98, 97, 98] [0, 0, 0] 256 Heap.empty = some (r, h') ∧ 512 ≤ h'.peak :=
  C72_least _ [98, 97, 98] [0, 0, 0] (by decide) (by decide) rfl rfl rfl

/-- The heap model follows the sort: whenever `suffixsort` returns, the recursive call it makes is the one the heap is followed through. -/
theorem C72_same_calls (fuel : Nat) (T : List Nat) (mem mem' : List Int) (k : Nat) (h : suffixsort (fuel + 1) T mem k = some mem') :
    ∃ m sub, subproblem T mem k = some (m, sub) ∧ ∀ R mem1 name, sub = some (R, mem1, name) → ∃ mem2, suffixsort fuel R mem1 name = some mem2 := by
  rw [suffixsort] at h
  simp only [Option.bind_eq_bind, Option.bind_eq_some_iff] at h
  obtain ⟨x, h1, -⟩ := h
  obtain ⟨sub, h2, h3⟩ := subproblem_called h1
  exact ⟨_, sub, h2, h3⟩

/-- If the second request of a sort of bytes fails (sais.hxx:529-530, 649-650), the first array is never released. -/
theorem C72_leak (ok : Nat → Bool) (T : List Nat) (mem : List Int) (hn : 0 < T.length) (hmem : mem.length = T.length) (h0 : ok 0 = true) (h1 : ok 1 = false) :
    ∃ h', sortHeap ok T.length T mem 256 Heap.empty = some (false, h') ∧ h'.live = [(0, 256)] := by
  obtain ⟨n, hl⟩ : ∃ n, T.length = n + 1 := ⟨T.length - 1, by omega⟩
  have hf : (chooseFlags (n + 1) 0 256).f1 = true ∧ (chooseFlags (n + 1) 0 256).f2 = true := by
    simp only [chooseFlags, placement]
    by_cases h : n + 1 ≤ (2 ^ 31 - 1) / 2 ∧ 2 ≤ (n + 1) / 256
    · rw [if_pos h]; exact ⟨rfl, rfl⟩
    · rw [if_neg h]; exact ⟨rfl, rfl⟩
  have ha : acquire ok (chooseFlags (n + 1) 0 256) 256 Heap.empty = (false, some 0, none, ⟨2, [(0, 256)], 256⟩) := by
    rw [acquire, if_pos hf.1, new_some (h := Heap.empty) h0]
    simp only
    rw [if_pos hf.2, new_none h1]
    rfl
  rw [hl, sortHeap, hmem, hl, Nat.sub_self]
  simp only
  rw [ha]
  exact ⟨_, rfl, rfl⟩

/-- C72 is false of the code. -/
theorem C72_fails : ¬ C72_claim := by
  intro h
  obtain ⟨r, h', h1, h2⟩ := h (fun i => i != 1) [97, 98] [0, 0] 256 (by decide) (by decide) (by decide)
  obtain ⟨h'', h3, h4⟩ := C72_leak (fun i => i != 1) [97, 98] [0, 0] (by decide) rfl rfl rfl
  rw [h1, Option.some.injEq, Prod.mk.injEq] at h3
  rw [h3.2, h4] at h2
  cases h2

/-- What the caller makes of the return value -2 with one starting point: it stores behind the block, outside of every memory of less than 4 GB. -/
theorem C72_failure_corrupts (mem : List UInt8) (pos len starts : Nat) (hs : len ≤ 256 ∨ starts ≤ 1) (hm : mem.length < 2 ^ 32 - 2) :
    transformFailed mem pos len starts = none := by
  have hp : FwdBWT.prepare len starts = [0] := by
    rw [FwdBWT.prepare]
    by_cases h : len ≤ 256 ∨ starts = 0
    · rw [if_pos h]; rfl
    · rw [if_neg h, if_pos (by omega), show starts = 1 by omega]; rfl
  rw [transformFailed]
  simp only [Option.bind_eq_bind, saisBwtFailed, hp]
  generalize hA : FwdBWT.blit mem pos (List.take len (List.drop pos mem)).reverse = A
  have hlA : A.length = mem.length ∨ mem.length < pos := by
    rw [← hA, FwdBWT.blit]
    simp only [List.length_append, List.length_take, List.length_drop, List.length_reverse]
    omega
  cases e1 : A[pos + len]? with
  | none => rfl
  | some next =>
    have h1 := (List.getElem?_eq_some_iff.mp e1).1
    have hlen : A.length = mem.length := by
      rcases hlA with h | h
      · exact h
      · exfalso
        rw [← hA, FwdBWT.blit] at h1
        simp only [List.length_append, List.length_take, List.length_drop, List.length_reverse] at h1
        omega
    simp only [Option.bind_some]
    generalize hB : FwdBWT.blit (A.set (pos + len) 0) pos (List.take (len + 1) (List.drop pos (A.set (pos + len) 0))) = B
    have hlB : B.length = mem.length := by
      rw [← hB, FwdBWT.blit]
      simp only [List.length_append, List.length_take, List.length_drop, List.length_set]
      omega
    cases e2 : B[pos + len]? with
    | none => simp
    | some last =>
      have e3 : B[pos + (2 ^ 32 - 2)]? = none := List.getElem?_eq_none (by omega)
      simp only [List.length_singleton, if_true, List.set_cons_zero, List.getElem?_cons_zero, Option.bind_some, e3, Option.bind_none]

example : transformFailed [97, 98, 0] 0 2 1 = none := C72_failure_corrupts _ _ _ _ (.inl (by decide)) (by decide)

/-- With several starting points nothing is stored outside, and nothing tells that the sort has failed, but the last byte of the block is lost. -/
theorem C72_failure_silent (pre post block : List UInt8) (x next : UInt8) (starts : Nat) (hl : 256 ≤ block.length) (hs : 2 ≤ starts) :
    transformFailed (pre ++ (block ++ [x]) ++ next :: post) pre.length (block.length + 1) starts =
      some (pre ++ (0 :: block.reverse) ++ next :: post, List.replicate (min starts 256) 0) := by
  have hp : FwdBWT.prepare (block.length + 1) starts = List.replicate (min starts 256) 0 := by
    rw [FwdBWT.prepare, if_neg (by omega)]
    by_cases h : starts ≤ 256
    · rw [if_pos h, Nat.min_eq_left h]
    · rw [if_neg h, Nat.min_eq_right (by omega)]
  obtain ⟨s, hs'⟩ : ∃ s, min starts 256 = s + 2 := ⟨min starts 256 - 2, by omega⟩
  have e1 : List.take (block.length + 1) (List.drop pre.length (pre ++ (block ++ [x]) ++ next :: post)) = block ++ [x] := by
    rw [List.append_assoc pre, List.drop_left, List.take_append_of_le_length (by simp), List.take_of_length_le (by simp)]
  have e2 : FwdBWT.blit (pre ++ (block ++ [x]) ++ next :: post) pre.length (x :: block.reverse) = pre ++ (x :: block.reverse) ++ next :: post :=
    FwdBWT.blit_mid _ _ _ _ (by simp)
  have at_end : ∀ (c z : UInt8), (pre ++ (c :: block.reverse) ++ z :: post)[pre.length + (block.length + 1)]? = some z := by
    intro c z
    rw [List.getElem?_append_right (by simp)]
    simp
  have set_end : ∀ (c z y : UInt8), (pre ++ (c :: block.reverse) ++ z :: post).set (pre.length + (block.length + 1)) y = pre ++ (c :: block.reverse) ++ y :: post := by
    intro c z y
    rw [List.set_append_right _ _ (by simp)]
    simp
  have e3 : List.take (block.length + 1 + 1) (List.drop pre.length (pre ++ (x :: block.reverse) ++ 0 :: post)) = x :: block.reverse ++ [0] := by
    rw [List.append_assoc pre, List.drop_left]
    have h : block.length + 1 + 1 = (x :: block.reverse ++ [0]).length := by simp
    have h2 : (x :: block.reverse) ++ 0 :: post = (x :: block.reverse ++ [0]) ++ post := by simp
    rw [h2, h, List.take_left]
  have e4 : FwdBWT.blit (pre ++ (x :: block.reverse) ++ 0 :: post) pre.length (x :: block.reverse ++ [0]) = pre ++ (x :: block.reverse) ++ 0 :: post := by
    have h := FwdBWT.blit_mid pre (x :: block.reverse ++ [0]) (x :: block.reverse ++ [0]) post rfl
    rw [← List.append_assoc, List.append_assoc _ [0]] at h
    exact h
  have e5 : (pre ++ (x :: block.reverse) ++ 0 :: post)[pre.length + 0]? = some x := by simp
  have e6 : (pre ++ (x :: block.reverse) ++ 0 :: post).set (pre.length + 0) 0 = pre ++ (0 :: block.reverse) ++ 0 :: post := by simp
  have hne : ¬ ((0 : Nat) :: 0 :: List.replicate s 0).length = 1 := by simp
  rw [transformFailed]
  simp only [e1, List.reverse_append, List.reverse_singleton, List.singleton_append, e2, at_end, set_end, e3, saisBwtFailed, hp, hs',
    List.replicate_succ, if_neg hne, e4, Option.bind_eq_bind, Option.bind_some, List.getElem?_cons_zero, e5, e6]
  rfl

/-- Two blocks that differ in the last byte give the same result after a failed sort. -/
theorem C72_failure_loses (pre post block : List UInt8) (x y next : UInt8) (starts : Nat) (hl : 256 ≤ block.length) (hs : 2 ≤ starts) :
    transformFailed (pre ++ (block ++ [x]) ++ next :: post) pre.length (block.length + 1) starts =
      transformFailed (pre ++ (block ++ [y]) ++ next :: post) pre.length (block.length + 1) starts := by
  rw [C72_failure_silent _ _ _ _ _ _ hl hs, C72_failure_silent _ _ _ _ _ _ hl hs]

example : 256 ≤ (List.replicate 256 (7 : UInt8)).length ∧ 2 ≤ 8 := ⟨by rw [List.length_replicate]; exact Nat.le_refl _, by decide⟩

/-- A sort with a recursive call: the log of a successful run, with the largest number of cells held. -/
example : (sortHeap (fun _ => true) 7 [1, 0, 1, 0, 1, 0, 1] [0, 0, 0, 0, 0, 0, 0] 256 Heap.empty) = some (true, ⟨5, [], 512⟩) := by decide +kernel

end Bwtc.Props
