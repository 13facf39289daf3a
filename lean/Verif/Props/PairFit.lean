import Verif.PairOverrun
import Verif.Container
import Verif.Props.PairReplace

/-!
# C50: a preprocessed block fits into its memory
-/

set_option autoImplicit false

namespace Bwtc.Props
open Grammar FreqTable CircBuf PairReplace Container

/-- The property as the allocation of `n + 1` bytes for a block of `n` bytes presupposes it (PrecompressorBlock.cpp:46-48): the text
after the first round of pair replacing has at most one byte more. -/
def C50_claim : Prop :=
  ∀ (mk : (UInt8 → Nat) → FT) (beyond : Option Nat) (data out : List UInt8) (g : G) (R : Repl) (common : UInt8),
    (∀ F, Initial F (mk F)) → 5 ≤ data.length → data.length < 2 ^ 20 →
    round mk beyond empty data = some (g, R, common) → writeOut R common data = some out → out.length ≤ data.length + 1

/-- A text of 91292 bytes grows by 18, whatever the sort of the frequencies does with equal ones. -/
theorem C50_grows (mk : (UInt8 → Nat) → FT) (hmk : ∀ F, Initial F (mk F)) (beyond : Option Nat) :
    ∃ g R common out, round mk beyond empty growing = some (g, R, common) ∧ writeOut R common growing = some out ∧
      growing.length = 91292 ∧ out.length = 91310 := by
  obtain ⟨g, R, common, c, rest, h1, h2, -, h4, -, -⟩ := growing_round hmk beyond
  have hl := growing_length
  rw [h2] at hl
  match rest, hl, h2, h4 with
  | [], hl, _, _ => simp at hl
  | d :: rest, hl, h2, h4 =>
    refine ⟨g, R, common, writeGo R common c (d :: rest), h1, by rw [h2]; rfl, growing_length, ?_⟩
    rw [h4, growing_length]

theorem C50_fails : ¬ C50_claim := by
  intro h
  obtain ⟨g, R, common, out, h1, h2, h3, h4⟩ := C50_grows makeTable makeTable_initial none
  have := h makeTable none growing out g R common makeTable_initial (by rw [h3]; decide) (by rw [h3]; decide) h1 h2
  rw [h3, h4] at this
  revert this
  decide

/-- The first round works in place: it stores behind the memory of the block. -/
theorem C50_overrun (mk : (UInt8 → Nat) → FT) (hmk : ∀ F, Initial F (mk F)) (beyond : Option Nat) (small : Nat → Bool)
    (hs : small 91292 = false) (k : Nat) (junk : UInt8) : precompress mk beyond small (k + 1) (growing ++ [junk]) 91292 = none := by
  have hl := growing_length
  have := growing_precompress hmk beyond small (by rw [hl]; exact hs) k junk
  rwa [hl] at this

/-- So no compression of this file with preprocessing is defined, whatever the coder and the number of starting points, if the memory limit lets
the file be one block. -/
theorem C50_compress_undefined (o : Options) (e : Env) (fuel : Nat) (hmk : ∀ F, Initial F (e.table F)) (hs : e.small 91292 91292 = false)
    (hr : o.rounds ≠ 0) (hm : 91292 ≤ times074 o.memLimit) : compress o e fuel growing = none := by
  have hl := growing_length
  have hp : pbBlock o = times074 o.memLimit := if_neg hr
  have ht : growing.take (pbBlock o) = growing := by rw [hp, List.take_of_length_le (by rw [hl]; exact hm)]
  have hb : precompressBlock o e growing = none := by
    unfold precompressBlock
    obtain ⟨k, hk⟩ : ∃ k, o.rounds = k + 1 := ⟨o.rounds - 1, by omega⟩
    rw [hk, hl]
    exact C50_overrun e.table hmk e.beyond _ hs k e.junk
  unfold compress
  rw [hl, compressBlocks, ht, if_neg (by rw [hl]; decide), frontBlock, hb]
  rfl

/-- What holds of a round: if anything is replaced, the text has at most `oddRuns D data - 1001` bytes more than before, and at most
`(n + 2 * oddRuns D data - 2002) / 3` of its bytes are escaped, where `oddRuns D data` is the number of maximal runs of an odd number of at least
three equal bytes `a`, for the replaced pairs `aa`. -/
theorem C50_growth_partial (mk : (UInt8 → Nat) → FT) (hmk : ∀ F, Initial F (mk F)) (beyond : Option Nat) (g g' : G) (hf : Formed g)
    (data out : List UInt8) (R : Repl) (common : UInt8) (hlen : data.length + 395757 ≤ 2 ^ 32)
    (hb : g.specials ≠ [] → ∃ y, beyond = some y ∧ 2 ^ 32 ≤ y)
    (hr : round mk beyond g data = some (g', R, common)) (ho : writeOut R common data = some out) :
    (g' = g ∧ out = data) ∨
    ∃ D : UInt8 → Bool, (∀ a, D a = true → (R a a).2 = common ∧ R a a ≠ (common, common)) ∧
      out.length + 1001 ≤ data.length + oddRuns D data ∧
      3 * data.countP (escaped R common) + 2002 ≤ data.length + 2 * oddRuns D data := by
  match data, hlen, hr, ho with
  | [], _, _, ho => simp [writeOut] at ho
  | [_], _, _, ho => simp [writeOut] at ho
  | c :: d :: rest, hlen, hr, ho =>
    obtain ⟨ars, hok, -⟩ := hf
    have ho' : out = writeGo R common c (d :: rest) := by simpa [writeOut] using ho.symm
    subst ho'
    have hL : (c :: d :: rest).length = (d :: rest).length + 1 := List.length_cons
    generalize hN : (c :: d :: rest).length = N at hL hlen
    rcases round_fits hmk hok (by clear hN; omega) hb hr with ⟨h1, h2⟩ | ⟨D, h0, h1, h2⟩
    · left
      refine ⟨h1, ?_⟩
      rw [h2, writeGo_const]
    · right
      rw [hL]
      exact ⟨D, h0, h1, h2⟩

/-- A text with at most 1001 such runs does not grow, and at most a third of it is escaped: for it, the allocation and the size of the
circular buffer (a third of the block) are enough. -/
theorem C50_calm_partial (mk : (UInt8 → Nat) → FT) (hmk : ∀ F, Initial F (mk F)) (beyond : Option Nat) (g g' : G) (hf : Formed g)
    (data out : List UInt8) (R : Repl) (common : UInt8) (hlen : data.length + 395757 ≤ 2 ^ 32)
    (hb : g.specials ≠ [] → ∃ y, beyond = some y ∧ 2 ^ 32 ≤ y) (hc : oddRuns (fun _ => true) data ≤ 1001)
    (hr : round mk beyond g data = some (g', R, common)) (ho : writeOut R common data = some out) :
    out.length ≤ data.length ∧ 3 * data.countP (escaped R common) ≤ data.length :=
  ⟨(round_calm hmk hf hlen hb hc hr).2 out ho, (round_calm hmk hf hlen hb hc hr).1⟩

/-- C36 for calm texts: any number of rounds is undone, if every text met by the rounds has at most 1001 such runs, the
in-place rounds work on at least five bytes, and their last byte is not escaped (`CalmRounds`).  Compare `SafeRounds` in
`C36_replacement_undone_partial`: that the text fits and that at most a third is escaped is proved here. -/
theorem C36_calm_partial (mk : (UInt8 → Nat) → FT) (hmk : ∀ F, Initial F (mk F))
    (beyond : Option Nat) (small : Nat → Bool) (k n : Nat) (mem out : List UInt8) (g : G)
    (hb : k ≤ 1 ∨ ∃ y, beyond = some y ∧ 2 ^ 32 ≤ y) (hn : n ≤ mem.length) (hs : small n = false)
    (hlen : mem.length + 395758 ≤ 2 ^ 32)
    (hcalm : CalmRounds mk beyond small n k ⟨mem, none, false, n, 0, empty⟩)
    (h : precompress mk beyond small k mem n = some (out, g)) :
    postprocess g out = some (mem.take n) := by
  refine C36_replacement_undone_partial mk hmk beyond small k n mem out g hb hn hlen ?_ h
  refine calm_safe hmk hlen hs k _ ?_ ?_ (Nat.le_refl _) (fun h => absurd rfl h) (fun _ => hn) hcalm
  · refine ⟨Nat.le_refl _, fun t ht => ?_, by dsimp only; omega, fun _ => hn, Formed.empty⟩
    cases ht
  · rcases hb with hb | hb
    · exact Or.inl ⟨hb, rfl⟩
    · exact Or.inr hb

/-! ## Examples -/

/-- Two ones before each byte of the list. -/
def doubles (xs : List UInt8) : List UInt8 := xs.flatMap fun x => [1, x, 1]

/-- A text of 3826 bytes: two ones and another byte, 1275 times, and a one.  No run is longer than two. -/
def pairedText : List UInt8 := 1 :: doubles (copies 5 notOne)

theorem doubles_count (xs : List UInt8) (c : UInt8) : (doubles xs).count c = xs.count c + if c = 1 then 2 * xs.length else 0 := by
  unfold doubles
  induction xs with
  | nil => simp
  | cons x xs ih =>
    rw [List.flatMap_cons, List.count_append, ih]
    simp only [List.count_cons, List.count_nil, List.length_cons, beq_iff_eq]
    by_cases hc : c = 1
    · subst hc
      by_cases hx : x = 1 <;> simp [hx] <;> omega
    · have h1 : ¬ 1 = c := fun h => hc h.symm
      by_cases hx : x = c <;> simp [hx, hc, h1] <;> omega

theorem doubles_length (xs : List UInt8) : (doubles xs).length = 3 * xs.length := by
  unfold doubles
  induction xs with
  | nil => rfl
  | cons x xs ih => rw [List.flatMap_cons, List.length_append, ih]; simp; omega

theorem doubles_tally : ∀ (xs : List UInt8) (z : Bool) (w : UInt8), w ≠ 1 → (∀ x ∈ xs, x ≠ 1) →
    xs.length ≤ tally (inList [(1, 1)]) z w 1 (doubles xs) := by
  intro xs
  induction xs with
  | nil => intro z w _ _; simp
  | cons x xs ih =>
    intro z w hw hx
    have hx1 := hx x (by simp)
    have h := ih (!!!z) x hx1 (fun y hy => hx y (by simp [hy]))
    have e : doubles (x :: xs) = 1 :: x :: 1 :: doubles xs := rfl
    rw [e, tally, tally, tally, if_pos (by simp [inList, hw]), List.length_cons]
    omega

theorem doubles_greedy : ∀ xs : List UInt8, (∀ x ∈ xs, x ≠ 1) → greedy (inList [(1, 1)]) false 1 (doubles xs) = xs.length := by
  intro xs
  induction xs with
  | nil => intro _; rfl
  | cons x xs ih =>
    intro hx
    have hx1 := hx x (by simp)
    have h := ih (fun y hy => hx y (by simp [hy]))
    have e : doubles (x :: xs) = 1 :: x :: 1 :: doubles xs := rfl
    rw [e, greedy, if_pos (by simp [inList]), greedy, if_neg (by simp), greedy, if_neg (by simp [inList, hx1]), h, List.length_cons]

theorem pairedText_length : pairedText.length = 3826 := by
  rw [pairedText, List.length_cons, doubles_length, copies_length, notOne_length]

theorem pairedText_lopsided : ∃ an, Lopsided pairedText 5 an := by
  obtain ⟨an, han⟩ := analyseData_isSome empty.freqs (data := pairedText) (by simp [pairedText]) (by rw [pairedText_length]; decide)
  refine ⟨an, han, ?_, ?_, by omega, by rw [pairedText_length]; decide, ?_⟩
  · intro c hc
    have h1 : ¬ (1 : UInt8) = c := fun h => hc h.symm
    simp only [pairedText, List.count_cons, doubles_count, copies_count, notOne_count, beq_iff_eq, hc, h1, if_false]
  · simp only [pairedText, List.count_cons, doubles_count, copies_count, notOne_count, if_true, copies_length, notOne_length]
    omega
  · have hl := pairedText_length
    rw [pairedText, List.length_cons] at hl
    rw [pairedText] at han
    have h1 := sumOver_analyseData (l := [(1, 1)]) (by simp) han (by omega)
    have h2 := doubles_tally (copies 5 notOne) true 0 (by decide) (fun x hx => notOne_mem (copies_mem hx))
    rw [← h1, copies_length, notOne_length] at h2
    simp only [sumOver, List.map_cons, List.map_nil, List.sum_cons, List.sum_nil] at h2
    omega

/-- The hypotheses of `C36_calm_partial`, `C50_calm_partial` and `C50_growth_partial` for it: the text is calm, its last byte is not escaped, and the round
shortens it by 1260 bytes. -/
example : oddRuns (fun _ => true) pairedText = 0 ∧
    CalmRounds makeTable none (fun _ => false) 3826 1 ⟨pairedText ++ [0], none, false, 3826, 0, empty⟩ ∧
    ∃ g R common out, round makeTable none empty pairedText = some (g, R, common) ∧ writeOut R common pairedText = some out ∧ out.length = 2566 := by
  have hodd : oddRuns (fun _ => true) pairedText = 0 := by decide +kernel
  have hlast : (pairedText ++ [0])[3825]? = some 1 := by decide +kernel
  have hlen := pairedText_length
  obtain ⟨an, h⟩ := pairedText_lopsided
  obtain ⟨g, R, common, c, rest, h1, h2, -, h4, -, h6⟩ := h.round makeTable_initial none
  have ht : (pairedText ++ [0]).take 3826 = pairedText := by rw [← hlen, List.take_append_of_le_length (Nat.le_refl _), List.take_length]
  refine ⟨hodd, ?_, g, R, common, writeGo R common c rest, h1, ?_, ?_⟩
  · rw [CalmRounds]
    simp only [Bool.and_false, Bool.false_eq_true, if_false, ht]
    refine ⟨by omega, by rw [Calm, hodd]; omega, ?_⟩
    intro g' R' common' hr
    rw [h1] at hr
    simp only [Option.some.injEq, Prod.mk.injEq] at hr
    obtain ⟨-, rfl, rfl⟩ := hr
    refine ⟨?_, fun _ _ _ _ => trivial⟩
    intro d hd
    rw [show 3826 - 1 = 3825 from rfl, hlast, Option.some.injEq] at hd
    rw [← hd]
    exact h6
  · rw [h2] at hlen ⊢
    match rest, hlen with
    | [], hlen => simp at hlen
    | d :: rest, _ => rfl
  · rw [hlen] at h4
    rw [pairedText, List.cons.injEq] at h2
    obtain ⟨rfl, rfl⟩ := h2
    rw [doubles_greedy _ (fun x hx => notOne_mem (copies_mem hx)), copies_length, notOne_length] at h4
    omega

/-- Options and surroundings for `C50_compress_undefined`: the Huffman coder, one round, 100 MB. -/
example : ∃ (o : Options) (e : Env), (∀ F, Initial F (e.table F)) ∧ e.small 91292 91292 = false ∧ o.rounds ≠ 0 ∧ 91292 ≤ times074 o.memLimit :=
  ⟨{ letter := 72, rounds := 1, starts := 1, memLimit := 100000000 }, ⟨makeTable, none, fun _ _ => false, 0, fun _ _ _ _ => false⟩,
    makeTable_initial, rfl, by decide, by decide⟩

end Bwtc.Props
