import Verif.GrammarSize
import Verif.PairRound

/-!
# Rounds of the pair replacer leave no variable without use

If every pair that a round chooses is written at least once, every variable stays in use: a symbol of the text is either copied or becomes part
of a new rule.
-/

set_option autoImplicit false

namespace Bwtc.PairReplace
open Grammar

theorem used_round {ren : Key → Key} {news : List (Key × List Key)} {toks toks' : List Key} (hn : Used news toks')
    (hk : ∀ k ∈ toks, ren k ∈ toks' ∨ ∃ s ∈ news, ren k ∈ s.2) (ars : List (Key × List Key)) :
    Used ars toks → Used ((ars.map fun r => (ren r.1, r.2.map ren)) ++ news) toks' := by
  induction ars with
  | nil => intro _; exact hn
  | cons r rs ih =>
    intro hu
    rw [List.map_cons, List.cons_append]
    refine ⟨?_, ih hu.2⟩
    rcases hu.1 with h | ⟨s, hs, h⟩
    · rcases hk _ h with h | ⟨s, hs, h⟩
      · exact Or.inl h
      · exact Or.inr ⟨s, List.mem_append_right _ hs, h⟩
    · exact Or.inr ⟨_, List.mem_append_left _ (List.mem_map_of_mem hs), List.mem_map_of_mem h⟩

theorem used_all {toks : List Key} (rs : List (Key × List Key)) (h : ∀ r ∈ rs, r.1 ∈ toks) : Used rs toks := by
  induction rs with
  | nil => exact True.intro
  | cons r rs ih => exact ⟨Or.inl (h r (List.mem_cons_self ..)), ih fun s hs => h s (List.mem_cons_of_mem _ hs)⟩

/-- The writer copies a symbol, or the symbol is in a new rule. -/
theorem enc_keeps {g : G} {prs : List ((UInt8 × UInt8) × UInt8)} {isNew : UInt8 → Bool} {repl : UInt8 → UInt8 × UInt8} {common : UInt8} {R : Repl}
    (h : TableOK g prs isNew repl common R) (hp : ∀ e ∈ prs, isNew e.1.1 = false ∧ isNew e.1.2 = false) (n : Nat) :
    ∀ toks : List Key, toks.length ≤ n → ∀ k ∈ toks,
      renKey isNew repl k ∈ enc isNew repl common R toks ∨ ∃ s ∈ prs.map newRule, renKey isNew repl k ∈ s.2 := by
  induction n with
  | zero =>
    intro toks hl k hk
    rw [List.eq_nil_of_length_eq_zero (Nat.le_zero.mp hl)] at hk
    cases hk
  | succ n ih =>
    intro toks hl k hk
    have step : ∀ j ks, (j :: ks).length ≤ n + 1 → k ∈ j :: ks →
        renKey isNew repl k ∈ renKey isNew repl j :: enc isNew repl common R ks ∨ ∃ s ∈ prs.map newRule, renKey isNew repl k ∈ s.2 := by
      intro j ks hl hk
      rcases List.mem_cons.mp hk with rfl | hk
      · exact Or.inl (List.mem_cons_self ..)
      · rcases ih ks (by simp only [List.length_cons] at hl; omega) k hk with h | h
        · exact Or.inl (List.mem_cons_of_mem _ h)
        · exact Or.inr h
    match toks, hl, hk with
    | [j], hl, hk =>
      have := step j [] hl hk
      simpa [enc] using this
    | .one x :: .one y :: rest, hl, hk =>
      rw [enc]
      split
      · exact step _ _ hl hk
      · rename_i hc
        rw [not_or] at hc
        rcases h.old x y (by simpa using hc.1) with hr | ⟨v, hv, _, hr⟩
        · exact absurd hr hc.2
        · have hnew := hp _ hv
          simp only [List.mem_cons] at hk
          rcases hk with rfl | rfl | hk
          · refine Or.inr ⟨_, List.mem_map_of_mem hv, ?_⟩
            simp [renKey, newRule, hnew.1]
          · refine Or.inr ⟨_, List.mem_map_of_mem hv, ?_⟩
            simp [renKey, newRule, hnew.2]
          · rcases ih rest (by simp only [List.length_cons] at hl; omega) k hk with h | h
            · exact Or.inl (List.mem_cons_of_mem _ h)
            · exact Or.inr h
    | .one x :: .two a b :: rest, hl, hk =>
      rw [enc]
      · exact step _ _ hl hk
      · intro x' y' _ h2; cases h2
    | .two a b :: l :: rest, hl, hk =>
      rw [enc]
      · exact step _ _ hl hk
      · intro x' y' h1; cases h1

/-- The text `data` with the grammar `g` stands for `orig`, and every variable is used. -/
def MeansUsed (g : G) (data orig : List UInt8) : Prop :=
  ∃ ars toks t, OK g ars ∧ data = bytesOf toks ∧ (∀ k ∈ toks, KeyOK g k) ∧
    postTable g = some t ∧ toks.flatMap t = orig ∧ (g.rules = [] → data = orig) ∧ Listed g ∧ Used ars toks

theorem MeansUsed.means {g : G} {data orig : List UInt8} (h : MeansUsed g data orig) : Means g data orig := by
  obtain ⟨ars, toks, t, h1, h2, h3, h4, h5, h6, h7, _⟩ := h
  exact ⟨ars, toks, t, h1, h2, h3, h4, h5, h6, h7⟩

theorem one_mem {g : G} {toks : List Key} {c : UInt8} (hk : ∀ k ∈ toks, KeyOK g k) (hc : c ∉ g.specials) (h : c ∈ bytesOf toks) :
    .one c ∈ toks := by
  rw [bytesOf, List.mem_flatMap] at h
  obtain ⟨k, h1, h2⟩ := h
  cases k with
  | one d =>
    simp only [Key.bytes, List.mem_singleton] at h2
    rw [h2]; exact h1
  | two a b =>
    obtain ⟨i, _, hi⟩ := hk _ h1
    have hm := specialPair_mem hi
    simp only [Key.bytes, List.mem_cons, List.not_mem_nil, or_false] at h2
    rcases h2 with rfl | rfl
    · exact absurd hm.1 hc
    · exact absurd hm.2 hc

/-- One round, every pair of which is written. -/
theorem round_used {g g' : G} {data orig : List UInt8} (h : MeansUsed g data orig) {pl : Plan} {R : Repl}
    (hp : PlanOK g data pl) {c : UInt8} {rest : List UInt8} (hd : data = c :: rest) (ha : apply g pl = some (g', R))
    (hw : ∀ e ∈ pl.prs, e.2 ∈ writeGo R pl.common c rest) : MeansUsed g' (writeGo R pl.common c rest) orig := by
  by_cases hprs : pl.prs = []
  · rw [apply, if_pos hprs] at ha
    cases ha
    rw [writeGo_const, ← hd]
    exact h
  · obtain ⟨ars, toks, t, h1, h2, h3, h4, h5, h6, h7, h8⟩ := h
    have hch := hp.choice hprs
    obtain ⟨g2, isNew, repl, u1, u2, u3, u4, u5, u6, u7, u8, t1, t2, v1, v2, v3, v4⟩ :=
      update_spec h1 hch
    rw [h4] at v1
    simp only [Option.some.injEq] at v1
    subst v1
    have htab := replTable_spec hch u3 u4 (by rw [← u6]; exact u5) (hp.common1 hprs)
      (hp.common2 hprs)
    have hfr : ∀ k ∈ toks, ∀ c ∈ pl.frees, k ≠ .one c := by
      intro k hk c' hc' he
      apply hp.unused c' hc'
      rw [h2]
      exact mem_bytesOf hk (by rw [he]; simp [Key.bytes])
    obtain ⟨e1, e2⟩ := enc_spec htab u7 u8 v3 v4 toks.length toks (Nat.le_refl _) h3 hfr
    rw [apply, if_neg hprs, u1] at ha
    cases ha
    have hwr := writeGo_enc htab toks.length toks (Nat.le_refl _) h3 c rest (by rw [← h2, hd])
    refine ⟨_, _, t2, u2, hwr, e1, v2, e2.trans h5, ?_, h7.update h1 hch hprs (hp.common1 hprs) u1, ?_⟩
    · intro hr
      exfalso
      have := u2.rules_eq
      rw [hr] at this
      have := congrArg List.length this
      simp only [List.length_nil, List.length_map, List.length_append] at this
      apply hprs
      exact List.eq_nil_of_length_eq_zero (by omega)
    · refine used_round (used_all _ ?_) (enc_keeps htab ?_ toks.length toks (Nat.le_refl _)) ars h8
      · intro r hr
        obtain ⟨e, he, rfl⟩ := List.mem_map.mp hr
        refine one_mem e1 (u8 e he) ?_
        rw [← hwr]
        exact hw e he
      · intro e he
        have hpe := hch.pairs e he
        have hno : ∀ x, x ∉ pl.freed ++ pl.news ++ pl.frees → isNew x = false := by
          intro x hx
          cases hb : isNew x with
          | false => rfl
          | true =>
            exfalso
            apply hx
            rcases (u3 x).mp hb with h | h <;> simp [h]
        exact ⟨hno _ hpe.2.2.1, hno _ hpe.2.2.2⟩

theorem MeansUsed.start (data : List UInt8) : MeansUsed empty data data := by
  have hb : ∀ l : List UInt8, bytesOf (l.map Key.one) = l := by
    intro l
    induction l with
    | nil => rfl
    | cons c l ih => rw [List.map_cons, bytesOf_cons, ih]; rfl
  have hf : ∀ l : List UInt8, (l.map Key.one).flatMap baseTable = l := by
    intro l
    induction l with
    | nil => rfl
    | cons c l ih => rw [List.map_cons, List.flatMap_cons, ih]; rfl
  refine ⟨[], data.map Key.one, baseTable, OK.empty, (hb data).symm, ?_, ?_, hf data, fun _ => rfl, Listed.empty, True.intro⟩
  · intro k hk
    obtain ⟨c, _, rfl⟩ := List.mem_map.mp hk
    simp [KeyOK, empty]
  · rfl

/-- No replacement of a variable is longer than the text. -/
theorem MeansUsed.size {g : G} {data orig : List UInt8} (h : MeansUsed g data orig) :
    ∃ t, postTable g = some t ∧ ∀ r ∈ g.rules, (t r.lhs).length ≤ orig.length := by
  obtain ⟨ars, toks, t, h1, h2, h3, h4, h5, h6, h7, h8⟩ := h
  refine ⟨t, h4, fun r hr => ?_⟩
  rw [h1.rules_eq] at hr
  obtain ⟨a, ha, rfl⟩ := List.mem_map.mp hr
  obtain ⟨t0, _, _, _, e⟩ := h1.postTable
  rw [e] at h4
  cases h4
  rw [← h5]
  exact used_size ars h8 (evalRules_final ars t0 h1.lhs_nodup h1.ordered) a ha

end Bwtc.PairReplace
