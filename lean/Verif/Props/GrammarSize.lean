import Verif.GrammarSize
import Verif.GrammarUsedRound
import Verif.Props.PairReplace
import Verif.Props.GrammarIO
import Verif.GrammarIO

/-!
# C78: the replacements that the postprocessor holds
-/

set_option autoImplicit false

namespace Bwtc.Props
open Varint Grammar PairReplace FreqTable

/-- The full claim C78: what the postprocessor holds for a variable is in proportion to what it reads and writes (a factor of a thousand and
half a megabyte are granted). -/
def C78_claim : Prop := ∀ (file : List UInt8) (g : G) (rest : List Bool) (t : Table) (data out : List UInt8) (k : Key),
  readGrammar (bytesBits file) = some (g, rest) → postTable g = some t → postprocess g data = some out →
  (t k).length ≤ 1000 * (file.length + data.length + out.length) + 500000

/-- `n` rules that each replace a byte by two of it make the postprocessor hold `2 ^ n` bytes, also if the data does not use the byte and is
written unchanged. -/
theorem C78_doubling (g : G) (c : UInt8) (n : Nat) (hs : ∀ d, g.isSpecial d = false) (hf : g.spr = [])
    (hr : g.rules = List.replicate n (twice c)) : ∃ t, postTable g = some t ∧ (t (.one c)).length = 2 ^ n ∧
    ∀ data : List UInt8, c ∉ data → postprocess g data = some data := by
  obtain ⟨t, h1, h2, h3⟩ := twice_fold (hs c) n baseTable
  have hp : postTable g = some t := by
    unfold postTable initTable freedSymbols
    rw [hf, hr]
    exact h1
  refine ⟨t, hp, by simpa [baseTable] using h2, fun data hd => ?_⟩
  rw [postprocess, hp]
  simp only [Option.bind_eq_bind, Option.bind_some]
  split
  · rfl
  · refine uncompress_plain data fun d hd' => ⟨hs d, ?_⟩
    rw [h3 (.one d) (by intro e; cases e; exact hd hd')]
    rfl

/-- A grammar of forty such rules. -/
def bomb : List UInt8 := [40, 0, 0, 0, 0, 0, 0] ++ List.replicate 40 1 ++ List.replicate 11 0 ++ List.replicate 80 1

theorem bomb_read : (readGrammar (bytesBits bomb)).map (fun x => (x.1.rules, x.1.spr, (List.range 256).map fun i => x.1.isSpecial (UInt8.ofNat i))) =
    some (List.replicate 40 (twice 1), [], List.replicate 256 false) := by decide +kernel

/-- The claim is false: for 138 bytes of grammar and one byte of data, which is written as it is, a terabyte is held. -/
theorem C78_fails : ¬ C78_claim := by
  intro h
  have hb := bomb_read
  match hg : readGrammar (bytesBits bomb), hb with
  | some (g, rest), hb =>
    simp only [Option.map_some, Option.some.injEq, Prod.mk.injEq] at hb
    obtain ⟨h1, h2, h3⟩ := hb
    have hs : ∀ d, g.isSpecial d = false := by
      intro d
      have hd : g.isSpecial (UInt8.ofNat d.toNat) ∈ List.replicate 256 false := by
        rw [← h3]
        exact List.mem_map_of_mem (List.mem_range.mpr d.toNat_lt)
      rw [UInt8.ofNat_toNat] at hd
      exact (List.mem_replicate.mp hd).2
    obtain ⟨t, a1, a2, a3⟩ := C78_doubling g 1 40 hs h2 h1
    have := h bomb g rest t [2] [2] (.one 1) hg a1 (a3 [2] (by decide))
    rw [a2] at this
    exact absurd this (by decide +kernel)

/-- For every grammar: with right sides of at most `m` bytes and `n` rules no replacement is longer than `m ^ n`, times the number of freed
symbols and one, and the text is at most as many times longer than the data.  By `C78_doubling` the power of two is reached. -/
theorem C78_bound_partial (g : G) (t : Table) (m : Nat) (hm : 1 ≤ m) (hr : ∀ r ∈ g.rules, r.rhs.length ≤ m) (h : postTable g = some t) :
    (∀ k, (t k).length ≤ (1 + g.spr.length) * m ^ g.rules.length) ∧
    ∀ data out : List UInt8, postprocess g data = some out → out.length ≤ (1 + g.spr.length) * m ^ g.rules.length * data.length := by
  have hk := postTable_size hm hr h
  refine ⟨hk, fun data out ho => ?_⟩
  rw [postprocess, h] at ho
  simp only [Option.bind_eq_bind, Option.bind_some] at ho
  split at ho
  · cases ho
    exact Nat.le_mul_of_pos_left _ (Nat.mul_pos (by omega) (Nat.pow_pos (by omega)))
  · exact uncompress_size hk _ _ _ rfl ho

/-- For the well-formed grammars, as the preprocessor builds them (C35): if every variable occurs in the data or in the right side of a later
rule, no replacement is longer than the text that is written. -/
theorem C78_used_partial (g : G) (ars : List (Key × List Key)) (toks : List Key) (t : Table) (out : List UInt8) (hok : OK g ars)
    (hk : ∀ k ∈ toks, KeyOK g k) (hu : Used ars toks) (ht : postTable g = some t) (ho : postprocess g (bytesOf toks) = some out) :
    ∀ a ∈ ars, (t a.1).length ≤ out.length := by
  intro a ha
  obtain ⟨t0, _, _, _, h4⟩ := hok.postTable
  rw [h4] at ht
  have hr : g.rules.length ≠ 0 := by
    rw [hok.rules_eq, List.length_map]
    intro h
    rw [List.length_eq_zero_iff.mp h] at ha
    cases ha
  rw [postprocess, h4] at ho
  simp only [Option.bind_eq_bind, Option.bind_some] at ho
  rw [if_neg hr, uncompress_keys _ _ _ (fun k h => (hk k h).readable hok)] at ho
  cases ho
  cases ht
  exact used_size ars hu (evalRules_final ars t0 hok.lhs_nodup hok.ordered) a ha

/-- A grammar of two rules, one variable of which occurs in the other rule only. -/
example : ∃ (g : G) (ars : List (Key × List Key)), OK g ars ∧ ars.length = 2 ∧ Used ars [.one 3, .one 2] ∧
    (∀ k ∈ [Key.one 3, Key.one 2], KeyOK g k) ∧ postprocess g (bytesOf [.one 3, .one 2]) = some [7, 8, 7, 8, 2] := by
  refine ⟨⟨fun c => ([⟨.one 1, [7, 8]⟩, ⟨.one 3, [1, 1]⟩].flatMap ruleBytes).count c, fun _ => false, fun c => c == 1 || c == 3, [], [],
    [⟨.one 1, [7, 8]⟩, ⟨.one 3, [1, 1]⟩], 0⟩, [(.one 1, [.one 7, .one 8]), (.one 3, [.one 1, .one 1])], ?_, rfl, ?_, ?_, ?_⟩
  · exact {
      rules_eq := rfl
      spec := by simp
      nodup := by simp
      le := by simp
      ge := Or.inl rfl
      squares := by simp
      freq := fun _ => rfl
      keys := by simp [KeyOK]
      lhs_nodup := by simp
      ordered := by simp [Ordered]
      var := by simp
      entries := by simp }
  · simp [Used]
  · simp [KeyOK]
  · decide +kernel

/-- Rounds of the pair replacer on a text, in each of which the plan is one that keeps the meaning (`PlanOK`, C36) and each of the chosen pairs is
replaced at least once: the grammar and the text after them.  The text is written to another array (PairReplacer.cpp:373-398). -/
inductive Rounds (orig : List UInt8) : G → List UInt8 → Prop where
  | start : Rounds orig empty orig
  | round {g g' : G} {c : UInt8} {rest : List UInt8} {pl : Plan} {R : Repl} : Rounds orig g (c :: rest) → PlanOK g (c :: rest) pl →
      apply g pl = some (g', R) → (∀ e ∈ pl.prs, e.2 ∈ writeGo R pl.common c rest) → Rounds orig g' (writeGo R pl.common c rest)

/-- After any number of such rounds the postprocessor restores the text, and holds for no variable more than the text. -/
theorem C78_rounds_partial (orig : List UInt8) (g : G) (data : List UInt8) (h : Rounds orig g data) : postprocess g data = some orig ∧
    ∃ t, postTable g = some t ∧ ∀ r ∈ g.rules, (t r.lhs).length ≤ orig.length := by
  have hm : MeansUsed g data orig := by
    induction h with
    | start => exact MeansUsed.start orig
    | round _ hp ha hw ih => exact round_used ih hp rfl ha hw
  exact ⟨hm.means.postprocess, hm.size⟩

/-- A round with one pair. -/
example : ∃ g, Rounds [7, 8, 7, 8, 7] g [1, 1, 7] ∧ g.rules = [⟨.one 1, [7, 8]⟩] := by
  have hb : (apply empty ⟨[((7, 8), 1)], [], [], [1], 9⟩).map (fun x => (x.1.rules, writeGo x.2 9 7 [8, 7, 8, 7])) =
      some ([⟨.one 1, [7, 8]⟩], [1, 1, 7]) := by decide +kernel
  match ha : apply empty ⟨[((7, 8), 1)], [], [], [1], 9⟩, hb with
  | some (g, R), hb =>
    simp only [Option.map_some, Option.some.injEq, Prod.mk.injEq] at hb
    refine ⟨g, ?_, hb.1⟩
    have hp : PlanOK empty [7, 8, 7, 8, 7] ⟨[((7, 8), 1)], [], [], [1], 9⟩ := {
      choice := fun _ => {
        vars := rfl
        nodup := by simp
        fresh := by simp [empty]
        pairs := by simp [empty]
        unused := by simp [empty]
        enough := by simp [Enough, empty] }
      common1 := by simp [empty]
      common2 := by simp
      unused := by simp }
    have := Rounds.round (.start (orig := [7, 8, 7, 8, 7])) hp ha (by
      intro e he
      simp only [List.mem_singleton] at he
      subst he
      show (1 : UInt8) ∈ writeGo R 9 7 [8, 7, 8, 7]
      rw [hb.2]
      decide)
    rw [show writeGo R 9 7 [8, 7, 8, 7] = [1, 1, 7] from hb.2] at this
    exact this

/-- For the grammars that the preprocessor writes, under the hypotheses of C36: after reading them back the postprocessor holds for no variable
more than the `n` bytes of the block. -/
theorem C78_preprocessed_partial (mk : (UInt8 → Nat) → FT) (hmk : ∀ F, Initial F (mk F))
    (beyond : Option Nat) (small : Nat → Bool) (k n : Nat) (mem out : List UInt8) (g : G)
    (hb : k ≤ 1 ∨ ∃ y, beyond = some y ∧ 2 ^ 32 ≤ y) (hn : n ≤ mem.length)
    (hlen : mem.length + 395758 ≤ 2 ^ 32)
    (hsafe : SafeRounds mk beyond small n k ⟨mem, none, false, n, 0, empty⟩)
    (h : precompress mk beyond small k mem n = some (out, g)) :
    ∃ w, writeGrammar g = some (w, w.length) ∧ ∀ rest : List UInt8, ∃ g' t, readGrammar (bytesBits (w ++ rest)) = some (g', bytesBits rest) ∧
      postprocess g' out = some (mem.take n) ∧ postTable g' = some t ∧ ∀ r ∈ g'.rules, (t r.lhs).length ≤ n := by
  have hm := precompress_used hmk hb hn hlen hsafe h
  have hp := hm.means.postprocess
  obtain ⟨t, ht, hs⟩ := hm.size
  obtain ⟨ars, toks, _, hok, _, _, _, _, _, hl, _⟩ := hm
  obtain ⟨w, h1, _, h2⟩ := read_write hok hl
  refine ⟨w, h1, fun rest => ?_⟩
  obtain ⟨g', h3, h4⟩ := h2 rest
  refine ⟨g', t, h3, by rw [h4.postprocess, hp], ?_, fun r hr => ?_⟩
  · rw [← ht, postTable, postTable, initTable, initTable, h4.freed, h4.rules, h4.isSpecial]
  · rw [h4.rules] at hr
    have := hs r hr
    rw [List.length_take] at this
    omega

/-- A block of five bytes and eight rounds. -/
example : ∃ w, writeGrammar empty = some (w, w.length) ∧ ∀ rest : List UInt8, ∃ g' t, readGrammar (bytesBits (w ++ rest)) = some (g', bytesBits rest) ∧
    postprocess g' [97, 98, 97, 98, 97] = some [97, 98, 97, 98, 97] ∧ postTable g' = some t ∧ ∀ r ∈ g'.rules, (t r.lhs).length ≤ 5 :=
  have h := C36_short_blocks makeTable makeTable_initial (some (2 ^ 32)) (fun _ => false) [97, 98, 97, 98, 97, 0] 5 7 (by omega) (by omega) (by simp) rfl
  C78_preprocessed_partial makeTable makeTable_initial _ _ 8 5 [97, 98, 97, 98, 97, 0] _ empty (.inr ⟨_, rfl, Nat.le_refl _⟩) (by simp) (by simp)
    h.1 h.2.1

/-- Three rules of a grammar that meets the hypotheses of `C78_doubling` and `C78_bound_partial`. -/
example : (postprocess ⟨fun _ => 0, fun _ => false, fun c => c == 1, [], [], List.replicate 3 (twice 1), 0⟩ [2, 1, 3]) =
    some [2, 1, 1, 1, 1, 1, 1, 1, 1, 3] := by decide +kernel

example : ∀ r ∈ List.replicate 3 (twice 1), r.rhs.length ≤ 2 := by decide

end Bwtc.Props
