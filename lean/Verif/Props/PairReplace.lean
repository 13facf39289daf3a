import Verif.PairSmall

/-!
# C36: pair replacement is undone exactly
-/

set_option autoImplicit false

namespace Bwtc.Props
open Grammar FreqTable CircBuf PairReplace

/-- A constructor for frequency tables: `std::sort` replaced by a merge sort. -/
def makeTable (F : UInt8 → Nat) : FT :=
  let fr := (unsorted F).mergeSort fun a b => decide (a.2 ≤ b.2)
  ⟨fr, initLoc fr 0 (fun _ => 0), 256⟩

theorem makeTable_initial (F : UInt8 → Nat) : Initial F (makeTable F) := by
  refine ⟨List.mergeSort_perm _ _, ?_, rfl, rfl⟩
  refine List.Pairwise.imp ?_ (List.pairwise_mergeSort ?_ ?_ _)
  · intro a b h
    simpa using h
  · intro a b c h1 h2
    simp only [decide_eq_true_eq] at h1 h2 ⊢
    omega
  · intro a b
    simp only [Bool.or_eq_true, decide_eq_true_eq]
    omega

/-- The property as users expect it: whatever the sort in `FrequencyTable` does with equal
frequencies (`mk`), whatever lies behind its array as long as the reads there do no harm (`beyond`), and
whatever the ratio test says (`small`), a block that went through `k` rounds is restored by the
postprocessor. -/
def C36_claim : Prop :=
  ∀ (mk : (UInt8 → Nat) → FT) (beyond : Nat) (small : Nat → Bool) (k n : Nat) (mem out : List UInt8)
    (g : G), (∀ F, Initial F (mk F)) → 2 ^ 32 ≤ beyond → 0 < n → n ≤ mem.length →
    precompress mk (some beyond) small k mem n = some (out, g) →
    postprocess g out = some (mem.take n)

/-- A block of two bytes loses the second one: the final `consume` of the in-place writer is limited
to `length - 1` bytes. -/
theorem C36_two_bytes_lost (mk : (UInt8 → Nat) → FT) (hmk : ∀ F, Initial F (mk F)) (beyond : Option Nat)
    (a b : UInt8) (post : List UInt8) :
    precompress mk beyond (fun _ => false) 1 (a :: b :: post) 2 = some ([a], empty) := by
  obtain ⟨common, hround⟩ := round_small hmk beyond (data := [a, b]) (by simp) (by simp)
  have hw : writeInPlace (fun _ _ => (common, common)) common (a :: b :: post) 2 = some (a :: b :: post, 1) := by
    unfold writeInPlace
    simp only [List.getElem?_cons_zero, Option.bind_eq_bind, Option.bind_some]
    rw [writeLoop]
    simp [writeLast, W.push, W.flush, W.finish, W.consume, CircBuf.push, CircBuf.full, CircBuf.consume,
      CB.new, capacity, copyRange, initialised, store, List.replicate]
  unfold precompress
  rw [rounds]
  simp only [Bool.and_false, Bool.false_eq_true, if_false]
  rw [show List.take 2 (a :: b :: post) = [a, b] from rfl, hround]
  simp only [Option.bind_eq_bind, Option.bind_some, hw]
  rfl

theorem C36_fails : ¬ C36_claim := by
  intro h
  have := h makeTable (2 ^ 32) (fun _ => false) 1 2 [97, 98] [97] empty makeTable_initial (by omega) (by omega)
    (by simp) (C36_two_bytes_lost makeTable makeTable_initial _ 97 98 [])
  have h2 : postprocess empty [97] = some [97] := rfl
  rw [h2] at this
  revert this
  decide

/-- Any number of rounds, on arrays or in place, is undone by the postprocessor, provided that the
in-place rounds are safe (`SafeRounds`: at least five bytes, at most a third of them escaped, the last
one not escaped, the result fits into the array).  Missing: blocks below five bytes, in-place rounds
with an escaped last byte, and texts that do not fit or are escaped too often: see `C36_calm_partial` and C50 for a
condition on the text from which the last two follow, and for a text where they do not. -/
theorem C36_replacement_undone_partial (mk : (UInt8 → Nat) → FT) (hmk : ∀ F, Initial F (mk F))
    (beyond : Option Nat) (small : Nat → Bool) (k n : Nat) (mem out : List UInt8) (g : G)
    (hb : k ≤ 1 ∨ ∃ y, beyond = some y ∧ 2 ^ 32 ≤ y) (hn : n ≤ mem.length)
    (hlen : mem.length + 395758 ≤ 2 ^ 32)
    (hsafe : SafeRounds mk beyond small n k ⟨mem, none, false, n, 0, empty⟩)
    (h : precompress mk beyond small k mem n = some (out, g)) :
    postprocess g out = some (mem.take n) :=
  (precompress_spec hmk hb hn hlen hsafe h).postprocess

/-- The in-place writer and the writer to a second array write the same bytes. -/
theorem C36_in_place_writer_partial (R : Repl) (common : UInt8) (hu : Uniform R common) (mem : List UInt8)
    (n : Nat) (hn : n ≤ mem.length) (hs : SafeWrite R common mem n) :
    ∃ out, writeOut R common (mem.take n) = some out ∧
      writeInPlace R common mem n = some (out ++ mem.drop out.length, out.length) := by
  obtain ⟨h5, h2, h3, h4⟩ := hs
  match hd : mem.take n with
  | [] => have := congrArg List.length hd; rw [List.length_take, List.length_nil] at this; omega
  | [_] => have := congrArg List.length hd; rw [List.length_take, List.length_singleton] at this; omega
  | a :: d :: rest =>
    rw [hd] at h4
    exact ⟨_, rfl, writeInPlace_spec hu h5 hn hd h2 h3 (h4 _ rfl)⟩

/-- Blocks of 5 to 255 bytes are accepted and left alone. -/
theorem C36_short_blocks (mk : (UInt8 → Nat) → FT) (hmk : ∀ F, Initial F (mk F)) (beyond : Option Nat)
    (small : Nat → Bool) (mem : List UInt8) (n k : Nat) (h5 : 5 ≤ n) (hn : n ≤ 255) (hm : n ≤ mem.length)
    (hsm : small n = false) :
    SafeRounds mk beyond small n (k + 1) ⟨mem, none, false, n, 0, empty⟩ ∧
    precompress mk beyond small (k + 1) mem n = some (mem.take n, empty) ∧
    postprocess empty (mem.take n) = some (mem.take n) :=
  ⟨(rounds_small hmk beyond k h5 hn hm hsm).1, (rounds_small hmk beyond k h5 hn hm hsm).2,
    (Means.start _).postprocess⟩

/-- A table of the kind made by `constructReplacementTable` with one new special symbol, the byte 5. -/
def escapeTable : Repl := replTable 9 [] [] [5] []

/-- If the last byte is escaped, the two last bytes are pushed without a test for a full buffer in
between.  Here the buffer has one free place left: the oldest byte in it is lost. -/
theorem C36_last_byte_escaped :
    writeOut escapeTable 9 [1, 2, 3, 4, 6, 7, 8, 9, 10, 11, 5] =
      some [1, 2, 3, 4, 6, 7, 8, 9, 10, 11, 5, 5] ∧
    writeInPlace escapeTable 9 ([1, 2, 3, 4, 6, 7, 8, 9, 10, 11, 5] ++ [0]) 11 =
      some ([1, 2, 3, 4, 6, 5, 8, 9, 10, 11, 5, 5], 12) := by
  decide +kernel

/-! ## Examples -/

/-- The hypotheses of `C36_replacement_undone_partial` for a block of five bytes and eight rounds. -/
example : SafeRounds makeTable (some (2 ^ 32)) (fun _ => false) 5 8
      ⟨[97, 98, 97, 98, 97, 0], none, false, 5, 0, empty⟩ ∧
    precompress makeTable (some (2 ^ 32)) (fun _ => false) 8 [97, 98, 97, 98, 97, 0] 5 =
      some ([97, 98, 97, 98, 97], empty) :=
  ⟨(C36_short_blocks makeTable makeTable_initial _ (fun _ => false) [97, 98, 97, 98, 97, 0] 5 7 (by omega)
      (by omega) (by simp) rfl).1,
    (C36_short_blocks makeTable makeTable_initial _ (fun _ => false) [97, 98, 97, 98, 97, 0] 5 7 (by omega)
      (by omega) (by simp) rfl).2.1⟩

/-- A text with two escaped bytes and a replaced pair satisfies the hypotheses of
`C36_in_place_writer_partial`. -/
def sampleTable : Repl := replTable 9 [((1, 2), 20)] [] [5] []

example : Uniform sampleTable 9 ∧ SafeWrite sampleTable 9 [1, 5, 3, 1, 2, 5, 8, 0] 7 ∧
    writeInPlace sampleTable 9 [1, 5, 3, 1, 2, 5, 8, 0] 7 = some ([1, 5, 5, 3, 20, 5, 5, 8], 8) := by
  refine ⟨?_, ⟨by omega, by decide, ?_, ?_⟩, by decide +kernel⟩
  · intro c d
    simp only [sampleTable, replTable, List.foldl, List.zip_nil_left, setRow, setCell]
    by_cases h1 : c = 5
    · subst h1; simp
    · by_cases h2 : c = 1 ∧ d = 2
      · obtain ⟨rfl, rfl⟩ := h2; decide
      · simp [h1, h2]
  · intro c hc
    have : c = 8 := by simpa using hc.symm
    subst this
    decide
  · intro out hout
    have : out = [1, 5, 5, 3, 20, 5, 5, 8] := by
      have h2 : writeOut sampleTable 9 ([1, 5, 3, 1, 2, 5, 8, 0].take 7) = some [1, 5, 5, 3, 20, 5, 5, 8] := by
        decide +kernel
      rw [h2] at hout
      simpa using hout.symm
    subst this
    decide

end Bwtc.Props
