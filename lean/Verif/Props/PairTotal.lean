import Verif.PairTotal
import Verif.Props.PairFit
import Verif.Props.Container

/-!
# C51: choosing the pairs stays inside its tables
-/

set_option autoImplicit false

namespace Bwtc.Props
open Grammar FreqTable CircBuf PairReplace Container

/-- A run of up to 224 rounds ends with at most 240 special symbols, so at least 16 symbols are left in the table of frequencies. -/
theorem C51_few_specials (mk : (UInt8 → Nat) → FT) (hmk : ∀ F, Initial F (mk F)) (beyond : Option Nat) (small : Nat → Bool)
    (k n : Nat) (mem out : List UInt8) (g : G) (hk : k ≤ 224) (hb : k ≤ 1 ∨ ∃ y, beyond = some y ∧ 2 ^ 32 ≤ y)
    (hn : n ≤ mem.length) (hlen : mem.length + 395758 ≤ 2 ^ 32) (h : precompress mk beyond small k mem n = some (out, g)) :
    g.specials.length ≤ 240 := by
  obtain ⟨h1, h2⟩ := precompress_grammar hmk hb hn hlen h
  exact h2.few h1 (by omega)

/-- Whatever the rounds so far have left, the next round is defined for every text: the counters are, no access of the choice of pairs is
outside of the table of frequencies or the list of pairs, and there are enough special symbols and variables for the grammar. -/
theorem C51_choice_defined (mk : (UInt8 → Nat) → FT) (hmk : ∀ F, Initial F (mk F)) (beyond : Option Nat) (small : Nat → Bool)
    (k n : Nat) (mem out : List UInt8) (g : G) (hk : k ≤ 224) (hb : k = 0 ∨ ∃ y, beyond = some y ∧ 2 ^ 32 ≤ y)
    (hn : n ≤ mem.length) (hlen : mem.length + 395758 ≤ 2 ^ 32) (h : precompress mk beyond small k mem n = some (out, g))
    (data : List UInt8) (hne : data ≠ []) (hdata : data.length + 395757 ≤ 2 ^ 32) :
    ∃ g' R common, round mk beyond g data = some (g', R, common) := by
  have hb' : k ≤ 1 ∨ ∃ y, beyond = some y ∧ 2 ^ 32 ≤ y := by
    rcases hb with hb | hb
    · exact Or.inl (by omega)
    · exact Or.inr hb
  obtain ⟨h1, h2⟩ := precompress_grammar hmk hb' hn hlen h
  refine round_total hmk h1 hne hdata ?_ (h2.few h1 (by omega))
  intro hs
  rcases hb with hb | hb
  · exfalso
    apply hs
    subst hb
    simp only [Sparse, Nat.mul_zero, Nat.add_zero] at h2
    obtain ⟨ars, hok, -⟩ := h1
    rcases hok.ge with h3 | h3
    · exact List.eq_nil_of_length_eq_zero (by omega)
    · simp [precompress, rounds] at h
      rw [← h.2]
      rfl
  · exact hb

/-- On calm texts all of preprocessing is defined, the block does not grow, and postprocessing gives it back. -/
theorem C36_calm_defined_partial (mk : (UInt8 → Nat) → FT) (hmk : ∀ F, Initial F (mk F))
    (beyond : Option Nat) (small : Nat → Bool) (k n : Nat) (mem : List UInt8)
    (hk : k ≤ 225) (hb : k ≤ 1 ∨ ∃ y, beyond = some y ∧ 2 ^ 32 ≤ y) (hn2 : 2 ≤ n) (hn : n ≤ mem.length) (hs : small n = false)
    (hlen : mem.length + 395758 ≤ 2 ^ 32)
    (hcalm : CalmRounds mk beyond small n k ⟨mem, none, false, n, 0, empty⟩) :
    ∃ out g, precompress mk beyond small k mem n = some (out, g) ∧ out.length ≤ n ∧ postprocess g out = some (mem.take n) := by
  obtain ⟨out, g, h1, h2⟩ := precompress_total hmk hb hn2 hn hs hlen hk hcalm
  exact ⟨out, g, h1, h2, C36_calm_partial mk hmk beyond small k n mem out g hb hn hs hlen hcalm h1⟩

/-- Conditions on a text: at least five bytes, at most 1001 runs of an odd length above 1, and no byte occurs more often than the last one by
more than 1003. -/
def Tame (c : List UInt8) : Prop :=
  5 ≤ c.length ∧ oddRuns (fun _ => true) c ≤ 1001 ∧ ∀ l, c.getLast? = some l → ∀ b, c.count b ≤ c.count l + 1003

/-- One round on a tame text leaves no condition on the round. -/
theorem Tame.calm {mk : (UInt8 → Nat) → FT} (hmk : ∀ F, Initial F (mk F)) {beyond : Option Nat} {small : Nat → Bool} {c : List UInt8} {junk : UInt8}
    (h : Tame c) (hs : small c.length = false) (hlen : c.length + 395759 ≤ 2 ^ 32) :
    CalmRounds mk beyond small c.length 1 ⟨c ++ [junk], none, false, c.length, 0, empty⟩ := by
  have ht : (c ++ [junk]).take c.length = c := by
    rw [List.take_append_of_le_length (Nat.le_refl _), List.take_length]
  rw [CalmRounds]
  simp only [hs, Bool.and_false, Bool.false_eq_true, if_false, ht]
  refine ⟨h.1, h.2.1, ?_⟩
  intro g R common hr
  refine ⟨?_, fun _ _ _ _ => trivial⟩
  intro d hd
  have h5 := h.1
  have : c.getLast? = some d := by
    rw [List.getLast?_eq_getElem?, ← hd, List.getElem?_append_left (by omega)]
  exact (round_big hmk Formed.empty (by omega) (fun h => absurd rfl h) hr).2 d (h.2.2 d this)

/-- One round, with conditions on the text alone. -/
theorem C36_one_round_partial (mk : (UInt8 → Nat) → FT) (hmk : ∀ F, Initial F (mk F)) (beyond : Option Nat) (small : Nat → Bool)
    (c : List UInt8) (junk : UInt8) (hs : small c.length = false) (hlen : c.length + 395759 ≤ 2 ^ 32) (htame : Tame c) :
    ∃ out g, precompress mk beyond small 1 (c ++ [junk]) c.length = some (out, g) ∧
      out.length ≤ c.length ∧ postprocess g out = some c := by
  have h5 := htame.1
  have hl : (c ++ [junk]).length = c.length + 1 := by simp
  obtain ⟨out, g, h1, h2, h3⟩ := C36_calm_defined_partial mk hmk beyond small 1 c.length (c ++ [junk]) (by omega)
    (Or.inl (Nat.le_refl _)) (by omega) (by omega) hs (by omega) (htame.calm hmk hs hlen)
  rw [List.take_append_of_le_length (Nat.le_refl _), List.take_length] at h3
  exact ⟨out, g, h1, h2, h3⟩

/-- C38 for the Huffman coder with preprocessing (partial: memory limit from 20 to 2415000000 bytes, the texts in all rounds of all blocks are
calm, and the last bytes not escaped). -/
theorem C38_calm_partial (starts rounds memLimit : Nat) (e : Env) (input : List UInt8) (cs : List (List UInt8))
    (he : ∀ F, Initial F (e.table F)) (hb : rounds ≤ 1 ∨ ∃ y, e.beyond = some y ∧ 2 ^ 32 ≤ y) (hr : 1 ≤ rounds) (hr2 : rounds ≤ 225)
    (h20 : 20 ≤ memLimit) (hm : memLimit ≤ 2415000000) (hin : input.length < 2 ^ 56)
    (hcs : InChunks (times074 memLimit) input cs)
    (hcalm : ∀ c ∈ cs, 2 ≤ c.length ∧ e.small c.length c.length = false ∧ c.length + 395759 ≤ 2 ^ 32 ∧
      CalmRounds e.table e.beyond (e.small c.length) c.length rounds ⟨c ++ [e.junk], none, false, c.length, 0, empty⟩) :
    ∃ N, ∀ fuel fuel', N ≤ fuel → fuel < fuel' → ∃ file,
      compress ⟨72, starts, rounds, memLimit⟩ e fuel input = some (file, file.length % 2 ^ 64) ∧
        ∀ junk (rest : List UInt8), decompress junk fuel' (file ++ rest) = some input := by
  refine C38_preprocessed_partial starts rounds memLimit e input cs he hb hr h20 hm hin hcs ?_
  intro c hc
  obtain ⟨h2, hs, hlen, h⟩ := hcalm c hc
  have hl : (c ++ [e.junk]).length = c.length + 1 := by simp
  obtain ⟨out, g, q1, q2, -⟩ := C36_calm_defined_partial e.table he e.beyond (e.small c.length) rounds c.length (c ++ [e.junk]) hr2
    hb h2 (by omega) hs (by omega) h
  refine ⟨out, g, q1, q2, ?_⟩
  refine calm_safe (M := (c ++ [e.junk]).length) he (by omega) hs rounds _ ?_ ?_ (Nat.le_refl _) (fun h => absurd rfl h) (fun _ => by simp only; omega) h
  · exact ⟨Nat.le_refl _, by simp, by simp only; omega, fun _ => by simp only; omega, Formed.empty⟩
  · rcases hb with hb | hb
    · exact Or.inl ⟨hb, rfl⟩
    · exact Or.inr hb

/-- C38 for the Huffman coder with one round of preprocessing, with conditions on the file alone (partial: memory limit from 20 to 2415000000
bytes, and the blocks are tame). -/
theorem C38_one_round_partial (starts memLimit : Nat) (e : Env) (input : List UInt8) (cs : List (List UInt8))
    (he : ∀ F, Initial F (e.table F)) (h20 : 20 ≤ memLimit) (hm : memLimit ≤ 2415000000) (hin : input.length < 2 ^ 56)
    (hcs : InChunks (times074 memLimit) input cs) (htame : ∀ c ∈ cs, Tame c ∧ e.small c.length c.length = false) :
    ∃ N, ∀ fuel fuel', N ≤ fuel → fuel < fuel' → ∃ file,
      compress ⟨72, starts, 1, memLimit⟩ e fuel input = some (file, file.length % 2 ^ 64) ∧
        ∀ junk (rest : List UInt8), decompress junk fuel' (file ++ rest) = some input := by
  obtain ⟨t1, t2, t3, t4⟩ := times_bounds memLimit
  refine C38_calm_partial starts 1 memLimit e input cs he (Or.inl (Nat.le_refl _)) (Nat.le_refl _) (by omega) h20 hm hin hcs ?_
  intro c hc
  obtain ⟨h1, h2⟩ := htame c hc
  have hlen : c.length + 395759 ≤ 2 ^ 32 := by
    have := ((hcs.facts (by omega)).2.2 c hc).2
    omega
  exact ⟨by have := h1.1; omega, h2, hlen, h1.calm he h2 hlen⟩

/-- C41 with one round of preprocessing, with conditions on the file alone (partial: the blocks are tame and below 4 GB). -/
theorem C41_one_round_partial (bs : Nat) (e : Env) (input : List UInt8) (cs : List (List UInt8))
    (he : ∀ F, Initial F (e.table F)) (hbs : 0 < bs) (hcs : InChunks bs input cs)
    (htame : ∀ c ∈ cs, Tame c ∧ e.small c.length c.length = false ∧ c.length + 395759 ≤ 2 ^ 32) :
    ∃ file, preprocessTool ⟨72, 1, 1, 0⟩ e bs input = some file ∧
      ∀ rest : List UInt8, postprocessTool (file ++ rest) = some input := by
  refine C41_tools_partial 1 bs e input cs he (Or.inl (Nat.le_refl _)) hbs hcs ?_
  intro c hc
  obtain ⟨h1, hs, hlen⟩ := htame c hc
  obtain ⟨out, g, q1, q2, -⟩ := C36_one_round_partial e.table he e.beyond (e.small c.length) c e.junk hs hlen h1
  have hl : (c ++ [e.junk]).length = c.length + 1 := by simp
  refine ⟨hlen, out, g, q1, by omega, ?_⟩
  refine calm_safe (M := (c ++ [e.junk]).length) he (by omega) hs 1 _ ?_ (Or.inl ⟨Nat.le_refl _, rfl⟩) (Nat.le_refl _) (fun h => absurd rfl h)
    (fun _ => by simp only; omega) (h1.calm he hs hlen)
  exact ⟨Nat.le_refl _, by simp, by simp only; omega, fun _ => by simp only; omega, Formed.empty⟩

/-! ## Examples -/

/-- The text of 3826 bytes from C50, where the round replaces a pair, is tame. -/
theorem pairedText_tame : Tame pairedText := by
  have hlen := pairedText_length
  refine ⟨by omega, ?_, ?_⟩
  · have : oddRuns (fun _ => true) pairedText = 0 := by decide +kernel
    omega
  · intro l hl b
    have hlast : pairedText.getLast? = some 1 := by decide +kernel
    rw [hlast, Option.some.injEq] at hl
    subst hl
    obtain ⟨an, h⟩ := pairedText_lopsided
    by_cases hb : b = 1
    · subst hb
      omega
    · have := h.others b hb
      have := h.ones
      omega

/-- The hypotheses of `C38_one_round_partial` and `C41_one_round_partial`: the file of one such block, a memory limit of 100 MB, blocks of 1 MB. -/
example : ∃ e : Env, (∀ F, Initial F (e.table F)) ∧ InChunks (times074 100000000) pairedText [pairedText] ∧ InChunks 1048576 pairedText [pairedText] ∧
    ∀ c ∈ [pairedText], Tame c ∧ e.small c.length c.length = false ∧ c.length + 395759 ≤ 2 ^ 32 := by
  have hlen := pairedText_length
  have hne : pairedText ≠ [] := by intro h; rw [h] at hlen; simp at hlen
  have hone : ∀ n, 3826 ≤ n → InChunks n pairedText [pairedText] := by
    intro n hn
    have := InChunks.cons (n := n) hne (cs := []) (by
      rw [List.drop_of_length_le (by omega)]
      exact .nil)
    rwa [List.take_of_length_le (by omega)] at this
  refine ⟨⟨makeTable, none, fun _ _ => false, 0, fun _ _ _ _ => false⟩, makeTable_initial, hone _ (by decide), hone _ (by decide), ?_⟩
  intro c hc
  rw [List.mem_singleton] at hc
  subst hc
  exact ⟨pairedText_tame, rfl, by rw [hlen]; decide⟩

/-- The hypotheses of `C51_few_specials` and `C51_choice_defined` for the same text. -/
example : ∃ out g, precompress makeTable (some (2 ^ 32)) (fun _ => false) 1 (pairedText ++ [0]) 3826 = some (out, g) ∧ g.specials.length ≤ 240 ∧
    ∃ g' R common, round makeTable (some (2 ^ 32)) g pairedText = some (g', R, common) := by
  have hl := pairedText_length
  obtain ⟨out, g, h5, -, -⟩ := C36_one_round_partial makeTable makeTable_initial (some (2 ^ 32)) (fun _ => false) pairedText 0 rfl
    (by rw [hl]; decide) pairedText_tame
  rw [hl] at h5
  have hm : (pairedText ++ [0]).length = 3827 := by rw [List.length_append, hl, List.length_singleton]
  have hne : pairedText ≠ [] := by intro h; rw [h] at hl; simp at hl
  refine ⟨out, g, h5, ?_, ?_⟩
  · exact C51_few_specials makeTable makeTable_initial _ _ 1 3826 _ out g (by decide) (Or.inl (Nat.le_refl _)) (by rw [hm]; decide) (by rw [hm]; decide) h5
  · exact C51_choice_defined makeTable makeTable_initial _ _ 1 3826 _ out g (by decide) (Or.inr ⟨_, rfl, Nat.le_refl _⟩) (by rw [hm]; decide)
      (by rw [hm]; decide) h5 pairedText hne (by rw [hl]; decide)

end Bwtc.Props
