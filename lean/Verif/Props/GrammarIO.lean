import Verif.GrammarIOSpec
import Verif.Props.PairReplace

/-!
# C35: the grammar survives writing and reading
-/

set_option autoImplicit false

namespace Bwtc.Props
open Grammar FreqTable CircBuf PairReplace

/-- Grammars the pair replacer can build: rounds of rules starting from the empty grammar.  In each
round the pairs, the freed symbols and the new special symbols are as `choose` selects them
(`Choice`, C36), and `common` is the symbol that is left alone. -/
inductive Built : G → Prop where
  | start : Built empty
  | round {g g' : G} {prs : List ((UInt8 × UInt8) × UInt8)} {freed news frees : List UInt8}
      {common : UInt8} {next : List (UInt8 × UInt8)} : Built g → Choice g prs freed news frees →
      prs ≠ [] → common ∉ g.specials ++ news → updateGrammar g prs freed news = some (g', next) →
      Built g'

theorem Built.ok {g : G} (h : Built g) : (∃ ars, OK g ars) ∧ Listed g := by
  induction h with
  | start => exact ⟨⟨[], OK.empty⟩, Listed.empty⟩
  | round _ hc hp hcom hu ih =>
    obtain ⟨⟨ars, hok⟩, hl⟩ := ih
    refine ⟨?_, hl.update hok hc hp hcom hu⟩
    obtain ⟨g2, isNew, repl, e1, e2, _⟩ := update_spec hok hc
    rw [hu] at e1
    simp only [Option.some.injEq, Prod.mk.injEq] at e1
    obtain ⟨rfl, _⟩ := e1
    exact ⟨_, e2⟩

/-- Every grammar the pair replacer can build is written without an access outside of its arrays, the
returned size is the number of written bytes, and reading it back, whatever follows in the stream,
gives the same rules in the same order, the same special symbols, the same freed symbols with their
pairs and the same frequencies; the postprocessor makes the same of every text; the rest of the stream
is not touched. -/
theorem C35_grammar_roundtrip (g : G) (hg : Built g) :
    ∃ w, writeGrammar g = some (w, w.length) ∧ w.length < 2 ^ 20 ∧
      ∀ rest : List UInt8, ∃ g', readGrammar (bytesBits (w ++ rest)) = some (g', bytesBits rest) ∧
        g'.rules = g.rules ∧ g'.specials = g.specials ∧ (∀ c, g'.isSpecial c = g.isSpecial c) ∧
        (∀ c, g'.freqs c = g.freqs c) ∧ (∀ c, c ∉ g.specials → g'.isVariable c = g.isVariable c) ∧
        freedSymbols g' = freedSymbols g ∧ ∀ data, postprocess g' data = postprocess g data := by
  obtain ⟨⟨ars, hok⟩, hl⟩ := hg.ok
  obtain ⟨w, h1, hw, h2⟩ := read_write hok hl
  refine ⟨w, h1, hw, fun rest => ?_⟩
  obtain ⟨g', h3, h4⟩ := h2 rest
  exact ⟨g', h3, h4.rules, h4.specials, fun c => congrFun h4.isSpecial c, fun c => congrFun h4.freqs c,
    h4.isVariable, h4.freed, h4.postprocess⟩

/-- The grammar of every run of the preprocessor, also of those that damage the text (C36), is read back. -/
theorem C35_every_run (mk : (UInt8 → Nat) → FT) (hmk : ∀ F, Initial F (mk F))
    (beyond : Option Nat) (small : Nat → Bool) (k n : Nat) (mem out : List UInt8) (g : G)
    (hb : k ≤ 1 ∨ ∃ y, beyond = some y ∧ 2 ^ 32 ≤ y) (hn : n ≤ mem.length)
    (hlen : mem.length + 395758 ≤ 2 ^ 32)
    (h : precompress mk beyond small k mem n = some (out, g)) :
    ∃ w, writeGrammar g = some (w, w.length) ∧ w.length < 2 ^ 20 ∧
      ∀ rest : List UInt8, ∃ g', readGrammar (bytesBits (w ++ rest)) = some (g', bytesBits rest) ∧
        g'.rules = g.rules ∧ g'.specials = g.specials ∧ ∀ data, postprocess g' data = postprocess g data := by
  obtain ⟨⟨ars, hok, hl⟩, _⟩ := precompress_formed hmk hb hn hlen h
  obtain ⟨w, h1, hw, h2⟩ := read_write hok hl
  refine ⟨w, h1, hw, fun rest => ?_⟩
  obtain ⟨g', h3, h4⟩ := h2 rest
  exact ⟨g', h3, h4.rules, h4.specials, h4.postprocess⟩

/-- The run that loses a byte is one of them. -/
example : ∃ w, writeGrammar empty = some (w, w.length) ∧ w.length < 2 ^ 20 ∧
      ∀ rest : List UInt8, ∃ g', readGrammar (bytesBits (w ++ rest)) = some (g', bytesBits rest) ∧
        g'.rules = empty.rules ∧ g'.specials = empty.specials ∧ ∀ data, postprocess g' data = postprocess empty data :=
  C35_every_run makeTable makeTable_initial none (fun _ => false) 1 2 [97, 98] [97] empty (.inl (Nat.le_refl _))
    (by simp) (by simp) (C36_two_bytes_lost makeTable makeTable_initial none 97 98 [])

/-- Together with C36: the text is restored from the preprocessed text and the written grammar.
Missing: the inputs that C36 leaves out (`SafeRounds`). -/
theorem C35_text_restored_partial (mk : (UInt8 → Nat) → FT) (hmk : ∀ F, Initial F (mk F))
    (beyond : Option Nat) (small : Nat → Bool) (k n : Nat) (mem out : List UInt8) (g : G)
    (hb : k ≤ 1 ∨ ∃ y, beyond = some y ∧ 2 ^ 32 ≤ y) (hn : n ≤ mem.length)
    (hlen : mem.length + 395758 ≤ 2 ^ 32)
    (hsafe : SafeRounds mk beyond small n k ⟨mem, none, false, n, 0, empty⟩)
    (h : precompress mk beyond small k mem n = some (out, g)) :
    ∃ w, writeGrammar g = some (w, w.length) ∧ w.length < 2 ^ 20 ∧
      ∀ rest : List UInt8, ∃ g', readGrammar (bytesBits (w ++ rest)) = some (g', bytesBits rest) ∧
        postprocess g' out = some (mem.take n) := by
  have hm := precompress_spec hmk hb hn hlen hsafe h
  have hp := hm.postprocess
  obtain ⟨ars, toks, t, hok, _, _, _, _, _, hl⟩ := hm
  obtain ⟨w, h1, hw, h2⟩ := read_write hok hl
  refine ⟨w, h1, hw, fun rest => ?_⟩
  obtain ⟨g', h3, h4⟩ := h2 rest
  exact ⟨g', h3, by rw [h4.postprocess, hp]⟩

/-! ## Examples -/

/-- A first round with two rules, a freed symbol and two special symbols. -/
def sampleGrammar1 : Option (G × List (UInt8 × UInt8)) :=
  updateGrammar empty [((97, 98), 120), ((99, 100), 5)] [120] [7, 8]

/-- A second round that frees the variable `5`, which becomes a pair of special symbols. -/
def sampleGrammar2 : Option (G × List (UInt8 × UInt8)) :=
  sampleGrammar1.bind fun x => updateGrammar x.1 [((110, 120), 5)] [5] []

example : (sampleGrammar2.map fun x => x.1.rules) =
      some [⟨.one 120, [97, 98]⟩, ⟨.two 8 7, [99, 100]⟩, ⟨.one 5, [110, 120]⟩] ∧
    (sampleGrammar2.bind fun x => writeGrammar x.1) =
      some ([3, 2, 7, 8, 64, 120, 8, 7, 5, 1, 120, 0, 97, 98, 99, 100, 110, 120], 18) := by
  decide +kernel

/-- The sample is a grammar the pair replacer can build. -/
theorem sampleGrammar2_built (g : G) (next : List (UInt8 × UInt8)) (h : sampleGrammar2 = some (g, next)) : Built g := by
  have e1 : (sampleGrammar1.map fun x => (x.1.specials, x.1.spr, x.1.rules)) =
      some ([7, 8], [(false, 7), (false, 8), (false, 120)],
        [⟨.one 120, [97, 98]⟩, ⟨.one 5, [99, 100]⟩]) := by decide +kernel
  obtain ⟨⟨g1, next1⟩, h1, h2⟩ := Option.bind_eq_some_iff.mp h
  rw [h1] at e1
  simp only [Option.map_some, Option.some.injEq, Prod.mk.injEq] at e1
  obtain ⟨e1, e2, e3⟩ := e1
  refine Built.round (prs := [((110, 120), 5)]) (freed := [5]) (news := []) (frees := []) (common := 0)
    (Built.round (prs := [((97, 98), 120), ((99, 100), 5)]) (freed := [120]) (news := [7, 8])
      (frees := [5]) (common := 0) Built.start ⟨rfl, by decide, by simp [empty], by simp [empty],
        by simp [empty], ?_⟩ (by simp) (by simp [empty]) h1)
    ⟨rfl, by decide, ?_, ?_, by simp, ?_⟩ (by simp) ?_ h2
  · unfold Enough; simp [empty]
  · rw [e1]; decide
  · rw [e1]; decide
  · unfold Enough; rw [e1, e2]; decide
  · rw [e1]; decide

/-- The empty grammar is a single zero byte. -/
example : Built empty ∧ writeGrammar empty = some ([0], 1) := ⟨Built.start, by decide +kernel⟩

end Bwtc.Props
