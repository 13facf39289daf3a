import Verif.GrammarUsedSpec
import Verif.Props.PairReplace
import Verif.Props.PairTotal

/-!
# C79: every rule is used
-/

set_option autoImplicit false

namespace Bwtc.Props
open Grammar PairReplace FreqTable

/-- Every variable is a symbol of the text or of the right side of a later rule. -/
def NoWaste (g : G) (text : List UInt8) : Prop := ∀ (i : Nat) (r : Rule), g.rules[i]? = some r →
  r.lhs ∈ symbols g.isSpecial text ∨ ∃ j s, i < j ∧ g.rules[j]? = some s ∧ r.lhs ∈ symbols g.isSpecial s.rhs

/-- For every run of the preprocessor, of any number of rounds, that meets the hypotheses of C36, every rule is used.  Missing: the runs that C36
leaves out. -/
theorem C79_no_waste_partial (mk : (UInt8 → Nat) → FT) (hmk : ∀ F, Initial F (mk F))
    (beyond : Option Nat) (small : Nat → Bool) (k n : Nat) (mem out : List UInt8) (g : G)
    (hb : k ≤ 1 ∨ ∃ y, beyond = some y ∧ 2 ^ 32 ≤ y) (hn : n ≤ mem.length)
    (hlen : mem.length + 395758 ≤ 2 ^ 32)
    (hsafe : SafeRounds mk beyond small n k ⟨mem, none, false, n, 0, empty⟩)
    (h : precompress mk beyond small k mem n = some (out, g)) : NoWaste g out :=
  (precompress_used hmk hb hn hlen hsafe h).every

/-- The first round, whatever the text: the text written to another array uses every rule. -/
theorem C79_first_round (mk : (UInt8 → Nat) → FT) (hmk : ∀ F, Initial F (mk F)) (beyond : Option Nat) (data out : List UInt8) (g : G) (R : Repl)
    (common : UInt8) (hlen : data.length + 395757 ≤ 2 ^ 32) (hr : round mk beyond empty data = some (g, R, common))
    (ho : writeOut R common data = some out) : NoWaste g out := by
  obtain ⟨c, rest, hd, h1, _⟩ := round_used_spec hmk (MeansUsed.start data) hlen (fun h => absurd rfl h) hr
  subst hd
  have : out = writeGo R common c rest := by
    match rest, ho with
    | [], ho => simp [writeOut] at ho
    | e :: rest, ho => simpa [writeOut] using ho.symm
  rw [this]
  exact h1.every

/-- The first round is defined for every text of two bytes or more, its text is restored, and every rule is used. -/
theorem C79_every_text (mk : (UInt8 → Nat) → FT) (hmk : ∀ F, Initial F (mk F)) (beyond : Option Nat) (data : List UInt8) (h2 : 2 ≤ data.length)
    (hlen : data.length + 395757 ≤ 2 ^ 32) : ∃ g R common out, round mk beyond empty data = some (g, R, common) ∧
    writeOut R common data = some out ∧ postprocess g out = some data ∧ NoWaste g out := by
  have hne : data ≠ [] := by
    intro h
    rw [h] at h2
    simp at h2
  obtain ⟨g, R, common, hr⟩ := round_total hmk (beyond := beyond) Formed.empty hne hlen (fun h => absurd rfl h) (by simp [empty])
  obtain ⟨c, rest, hd, h1, _⟩ := round_used_spec hmk (MeansUsed.start data) hlen (fun h => absurd rfl h) hr
  have ho : writeOut R common data = some (writeGo R common c rest) := by
    rw [hd] at h2 ⊢
    match rest, h2 with
    | [], h2 => simp at h2
    | e :: rest, _ => rfl
  exact ⟨g, R, common, _, hr, ho, h1.means.postprocess, h1.every⟩

/-- With one round in place the same holds for all texts as in `C36_one_round_partial`: at least five bytes, at most 1001 runs of an odd length
above 1, and no byte more often than the last one by more than 1003. -/
theorem C79_one_round_partial (mk : (UInt8 → Nat) → FT) (hmk : ∀ F, Initial F (mk F)) (beyond : Option Nat) (small : Nat → Bool)
    (c : List UInt8) (junk : UInt8) (hs : small c.length = false) (hlen : c.length + 395759 ≤ 2 ^ 32) (htame : Tame c) :
    ∃ out g, precompress mk beyond small 1 (c ++ [junk]) c.length = some (out, g) ∧ postprocess g out = some c ∧ NoWaste g out := by
  obtain ⟨out, g, h1, _, h3⟩ := C36_one_round_partial mk hmk beyond small c junk hs hlen htame
  have hl : (c ++ [junk]).length = c.length + 1 := by simp
  have hn : c.length ≤ (c ++ [junk]).length := by omega
  refine ⟨out, g, h1, h3, C79_no_waste_partial mk hmk beyond small 1 c.length (c ++ [junk]) out g (.inl (Nat.le_refl _)) hn (by omega) ?_ h1⟩
  refine calm_safe hmk (show (c ++ [junk]).length + 395758 ≤ 2 ^ 32 by omega) hs 1 _ ?_ (Or.inl ⟨Nat.le_refl _, rfl⟩) (Nat.le_refl _) (fun h => absurd rfl h) (fun _ => hn) (htame.calm hmk hs hlen)
  refine ⟨Nat.le_refl _, fun t ht => ?_, by dsimp only; omega, fun _ => hn, Formed.empty⟩
  cases ht

/-- A block of five bytes and eight rounds. -/
example : NoWaste empty [97, 98, 97, 98, 97] :=
  have h := C36_short_blocks makeTable makeTable_initial (some (2 ^ 32)) (fun _ => false) [97, 98, 97, 98, 97, 0] 5 7 (by omega) (by omega) (by simp) rfl
  C79_no_waste_partial makeTable makeTable_initial _ _ 8 5 [97, 98, 97, 98, 97, 0] _ empty (.inr ⟨_, rfl, Nat.le_refl _⟩) (by simp) (by simp)
    h.1 h.2.1

/-- A text of 3826 bytes. -/
example : Tame pairedText := pairedText_tame

/-- The property is not empty: a rule that is not used violates it, one that is used in a later rule does not. -/
example : ¬ NoWaste ⟨fun _ => 0, fun _ => false, fun _ => false, [], [], [⟨.one 1, [7, 8]⟩], 0⟩ [2, 3] := by
  intro h
  rcases h 0 _ rfl with h | ⟨j, s, h1, h2, _⟩
  · simp [symbols] at h
  · match j, h1, h2 with
    | j + 1, _, h2 => simp at h2

example : NoWaste ⟨fun _ => 0, fun c => c == 5, fun _ => false, [5], [], [⟨.one 1, [7, 8]⟩, ⟨.two 5 5, [1, 1]⟩], 0⟩ [2, 5, 5] := by
  intro i r hr
  match i, hr with
  | 0, hr => cases hr; exact Or.inr ⟨1, _, by omega, rfl, by decide +kernel⟩
  | 1, hr => cases hr; exact Or.inl (by decide +kernel)
  | i + 2, hr => simp at hr

end Bwtc.Props
