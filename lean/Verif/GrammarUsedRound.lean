import Verif.GrammarUsed
import Verif.PairFit

/-!
# Every pair that is chosen is replaced at least once

A chosen pair was counted more than a thousand times, so its bytes are adjacent somewhere.  No other chosen pair ends with its first byte, so
the writer arrives at such a place, or has replaced the pair just before.
-/

set_option autoImplicit false

namespace Bwtc.PairReplace
open Grammar FreqTable

/-- `x` and `y` are adjacent somewhere in `p :: rest`. -/
def Adjacent (x y : UInt8) : UInt8 → List UInt8 → Prop
  | _, [] => False
  | p, c :: rest => (p = x ∧ c = y) ∨ Adjacent x y c rest

theorem tally_pos {x y : UInt8} (rest : List UInt8) : ∀ (z : Bool) (w p : UInt8), 0 < tally (inList [(x, y)]) z w p rest → Adjacent x y p rest := by
  induction rest with
  | nil => intro z w p h; rw [tally] at h; omega
  | cons c rest ih =>
    intro z w p h
    rw [tally] at h
    by_cases hs : inList [(x, y)] p c = true
    · simp only [inList, List.mem_singleton, decide_eq_true_eq, Prod.mk.injEq] at hs
      exact Or.inl hs
    · rw [if_neg (fun h' => hs h'.1)] at h
      rw [Nat.zero_add] at h
      exact Or.inr (ih _ _ _ h)

theorem writeGo_adjacent {S : UInt8 → UInt8 → Bool} {R : Repl} {common : UInt8} (hR : Replaces S R common) (hS : ApartFn S) {x y v : UInt8}
    (hxy : S x y = true) (hv : v ≠ common) (hr : R x y = (v, common)) (n : Nat) : ∀ (c : UInt8) (rest : List UInt8), rest.length ≤ n →
    Adjacent x y c rest → v ∈ writeGo R common c rest := by
  induction n with
  | zero =>
    intro c rest hl h
    rw [List.eq_nil_of_length_eq_zero (Nat.le_zero.mp hl)] at h
    exact h.elim
  | succ n ih =>
    intro c rest hl h
    match rest, hl, h with
    | d :: rest, hl, h =>
      simp only [List.length_cons] at hl
      rw [writeGo.eq_def]
      simp only
      by_cases hcd : c = x ∧ d = y
      · rw [hcd.1, hcd.2, hr, if_neg (by simp [hv]), if_pos rfl]
        exact List.mem_cons_self ..
      · have h' : Adjacent x y d rest := by
          rcases h with h | h
          · exact absurd h hcd
          · exact h
        split
        · exact List.mem_cons_of_mem _ (ih d rest (by omega) h')
        · rename_i hno
          split
          · rename_i hpair
            have hs : S c d = true := by
              cases hs : S c d with
              | true => rfl
              | false =>
                rcases hR.only c d hs with h1 | h1
                · exact absurd h1 hno
                · exact absurd hpair h1
            match rest, hl, h' with
            | e :: rest, hl, h' =>
              simp only [List.length_cons] at hl
              rcases h' with ⟨h1, h2⟩ | h'
              · exfalso
                subst h1 h2
                obtain ⟨h3, h4⟩ := hS c d e hs hxy
                exact hcd ⟨h3, h4⟩
              · exact List.mem_cons_of_mem _ (ih e rest (by omega) h')
          · exact List.mem_cons_of_mem _ (List.mem_cons_of_mem _ (ih d rest (by omega) h'))

/-- Every chosen pair was counted. -/
theorem choose_counted {mk : (UInt8 → Nat) → FT} {beyond : Option Nat} {g : G}
    {ars : List (Key × List Key)} {data : List UInt8} {an : An} {pl : Plan} {x : Nat}
    (hok : OK g ars) (han : analyseData g.freqs data = some an) (hl : data.length ≤ 2 ^ 32)
    (hmk : Initial an.freqs (mk an.freqs)) (hx : ∀ c, an.freqs c < x) (hx2 : x + 1003 < 2 ^ 32)
    (hbeyond : g.specials ≠ [] → ∃ y, beyond = some y ∧ x ≤ y)
    (h : choose mk beyond g an = some pl) : ∀ e ∈ pl.prs, 1003 < an.pairs e.1.1 e.1.2 := by
  intro e he
  obtain ⟨t, F', best, htab, hinv, hcount, hfr, hbest, hle, h1, h2, h3, h4, h5⟩ := choose_setup hok han hl hmk hx hx2 hbeyond h
  have hf := findReplaceablePairs_spec (f := an.pairs) htab (sortedPairs_sorted an.pairs) (fun p hp => sortedPairs_mem hp) hok.le hbest
  obtain ⟨⟨a, b⟩, v⟩ := e
  rw [h5] at he
  obtain ⟨m1, m2⟩ := List.of_mem_zip he
  obtain ⟨p, hp, hp2⟩ := List.mem_map.mp m1
  have hloc : t.loc v < best.vars + best.specs := by
    rcases List.mem_append.mp m2 with m | m
    · have := keysAt_mem hinv h3 m; omega
    · have := keysAt_mem hinv h1 m; omega
  have hb := hf.taken.bound p hp (t.loc v) hloc _ (hfr v)
  have hq := hf.taken.freq p hp
  rw [hp2] at hq
  simp only at hq ⊢
  omega

/-- One round of a run: all variables stay in use. -/
theorem round_used_spec {mk : (UInt8 → Nat) → FT} (hmk : ∀ F, Initial F (mk F)) {beyond : Option Nat} {g g' : G}
    {data orig : List UInt8} {R : Repl} {common : UInt8} (h : MeansUsed g data orig)
    (hlen : data.length + 395757 ≤ 2 ^ 32)
    (hb : g.specials ≠ [] → ∃ y, beyond = some y ∧ 2 ^ 32 ≤ y)
    (hr : round mk beyond g data = some (g', R, common)) :
    ∃ c rest, data = c :: rest ∧ MeansUsed g' (writeGo R common c rest) orig ∧ Uniform R common := by
  obtain ⟨c, rest, hd, _, huni⟩ := round_spec hmk h.means hlen hb hr
  refine ⟨c, rest, hd, ?_, huni⟩
  unfold round at hr
  simp only [Option.bind_eq_bind, Option.bind_eq_some_iff] at hr
  obtain ⟨an, han, pl, hpl, ⟨g1, R1⟩, hap, hr⟩ := hr
  simp only [Option.pure_def, Option.some.injEq, Prod.mk.injEq] at hr
  obtain ⟨rfl, rfl, rfl⟩ := hr
  have hm := h
  obtain ⟨ars, toks, t, hok, _⟩ := h
  have hplan := round_plan hmk hok hlen hb han hpl
  refine round_used hm hplan hd hap ?_
  intro e he
  have hne : ¬ pl.prs = [] := by
    intro h0
    rw [h0] at he
    cases he
  have hfreq := (analyseData_spec han (by omega)).1
  have hrl := ruleBytes_length hok
  have hrc := rules_le hok
  have hx : ∀ c, an.freqs c < data.length + 6 * g.rules.length + 1 := by
    intro c
    rw [hfreq, hok.freq]
    have h1 : (g.rules.flatMap ruleBytes).count c ≤ _ := List.count_le_length
    have h2 : data.count c ≤ _ := List.count_le_length
    omega
  have hbx : g.specials ≠ [] → ∃ y, beyond = some y ∧ data.length + 6 * g.rules.length + 1 ≤ y := by
    intro hs
    obtain ⟨y, h1, h2⟩ := hb hs
    exact ⟨y, h1, by omega⟩
  have hcnt := choose_counted hok han (by omega) (hmk _) hx (by omega) hbx hpl e he
  have hpays := choose_pays hok han (by omega) (hmk _) hx (by omega) hbx hpl hne
  obtain ⟨hrep, _⟩ := apply_table hok hplan hne hap
  obtain ⟨⟨x, y⟩, v⟩ := e
  have hmem : (x, y) ∈ pl.prs.map (·.1) := List.mem_map.mpr ⟨_, he, rfl⟩
  have hadj : Adjacent x y c rest := by
    rw [hd] at han
    have hs := sumOver_analyseData (l := [(x, y)]) (by simp) han (by rw [hd, List.length_cons] at hlen; omega)
    refine tally_pos rest true 0 c ?_
    rw [← hs]
    simp only [sumOver, List.map_cons, List.map_nil, List.sum_cons, List.sum_nil]
    simp only at hcnt
    omega
  have hS : inList (pl.prs.map (·.1)) x y = true := by
    simp only [inList, decide_eq_true_eq]
    exact hmem
  obtain ⟨v', hv', hR'⟩ := hrep.pair x y hS
  have hvv : v' = v := by
    have hch := hplan.choice hne
    have hxf := (hch.pairs _ he).2.2.1
    simp only [List.mem_append, not_or] at hxf
    rw [apply, if_neg hne] at hap
    simp only [Option.bind_eq_bind, Option.bind_eq_some_iff] at hap
    obtain ⟨⟨g2, next⟩, _, hap⟩ := hap
    simp only [Option.pure_def, Option.some.injEq, Prod.mk.injEq] at hap
    obtain ⟨_, hap⟩ := hap
    obtain ⟨v2, w1, w2⟩ := replTable_pair (common := pl.common) (next := next) hmem hxf.1.1 hxf.1.2
    rw [hap, hR'] at w2
    simp only [Prod.mk.injEq, and_true] at w2
    rw [w2]
    have hinj : ∀ (l : List ((UInt8 × UInt8) × UInt8)), (l.map (·.1)).Nodup → ∀ a b c, (a, b) ∈ l → (a, c) ∈ l → b = c := by
      intro l
      induction l with
      | nil => intro _ a b c h; cases h
      | cons q l ih =>
        intro hn a b c h1 h2
        rw [List.map_cons, List.nodup_cons] at hn
        rcases List.mem_cons.mp h1 with rfl | k1
        · rcases List.mem_cons.mp h2 with h2 | h2
          · cases h2; rfl
          · exact absurd (List.mem_map.mpr ⟨_, h2, rfl⟩) hn.1
        · rcases List.mem_cons.mp h2 with rfl | k2
          · exact absurd (List.mem_map.mpr ⟨_, k1, rfl⟩) hn.1
          · exact ih hn.2 a b c k1 k2
    exact hinj _ hpays.nodup _ _ _ w1 he
  rw [hvv] at hv' hR'
  exact writeGo_adjacent hrep hpays.apart hS hv' hR' rest.length c rest (Nat.le_refl _) hadj

/-- What holds between the rounds, as `PreOK`. -/
structure PreUsed (orig : List UInt8) (M r : Nat) (s : Pre) : Prop where
  block : s.block.length = M
  tmp : ∀ t, s.tmp = some t → t.length ≤ M + 1
  parity : s.rounds % 2 = 1 ↔ s.srcTmp = true
  data : ∃ src, (if s.srcTmp then s.tmp = some src else src = s.block) ∧ s.length ≤ src.length ∧
    MeansUsed s.g (src.take s.length) orig
  first : r = 0 → s.g.specials = []

theorem rounds_used {mk : (UInt8 → Nat) → FT} (hmk : ∀ F, Initial F (mk F)) {beyond : Option Nat}
    {small : Nat → Bool} {orig : List UInt8} {n M k0 : Nat}
    (hb : k0 ≤ 1 ∨ ∃ y, beyond = some y ∧ 2 ^ 32 ≤ y)
    (hlen : M + 395758 ≤ 2 ^ 32) : ∀ (k r : Nat) (s s' : Pre), k + r = k0 → PreUsed orig M r s →
      SafeRounds mk beyond small n k s → rounds mk beyond small n k s = some s' →
      ∃ r', r' ≤ k0 ∧ PreUsed orig M r' s' := by
  intro k
  induction k with
  | zero =>
    intro r s s' _ hs _ h
    simp only [rounds, Option.some.injEq] at h
    subst h
    exact ⟨r, by omega, hs⟩
  | succ k ih =>
    intro r s s' hk hs hsafe h
    have hb' : s.g.specials ≠ [] → ∃ y, beyond = some y ∧ 2 ^ 32 ≤ y := by
      intro hne
      rcases hb with hb | hb
      · exact absurd (hs.first (by omega)) hne
      · exact hb
    rw [rounds] at h
    rw [SafeRounds] at hsafe
    generalize htmp : (if s.tmp.isNone && small s.length then
      some (List.replicate (s.length + 1) (0 : UInt8)) else s.tmp) = tmp at h hsafe
    obtain ⟨src, hsrc, hsl, hmeans⟩ := hs.data
    match tmp, htmp, h, hsafe with
    | none, htmp, h, hsafe =>
      have hnone : s.tmp = none := by
        split at htmp
        · cases htmp
        · exact htmp
      have hst : s.srcTmp = false := by
        cases hc : s.srcTmp with
        | false => rfl
        | true => rw [hc, hnone] at hsrc; simp at hsrc
      rw [hst] at hsrc
      simp only [Bool.false_eq_true, if_false] at hsrc
      subst hsrc
      simp only [Option.bind_eq_bind, Option.bind_eq_some_iff] at h
      obtain ⟨⟨g, R, common⟩, hround, ⟨block, length⟩, hwrite, h⟩ := h
      simp only at h hwrite
      obtain ⟨⟨w1, w2, w3, w4⟩, hnext⟩ := hsafe g R common hround
      have hbl := hs.block
      obtain ⟨c, rest, hd, m1, m2⟩ := round_used_spec hmk hmeans
        (by rw [List.length_take]; omega) hb' hround
      have hwo : writeOut R common (s.block.take s.length) = some (writeGo R common c rest) := by
        have hl := congrArg List.length hd
        rw [List.length_take] at hl
        rw [hd]
        match rest, hl with
        | [], hl => simp at hl; omega
        | e :: rest, _ => rfl
      have hfit := w4 _ hwo
      have hspec := writeInPlace_spec m2 w1 hsl hd w2 w3 hfit
      rw [hwrite] at hspec
      simp only [Option.some.injEq, Prod.mk.injEq] at hspec
      obtain ⟨hblock, hlength⟩ := hspec
      have hpre : PreUsed orig M (r + 1) { s with block := block, length := length, g := g } := by
        refine ⟨?_, hs.tmp, hs.parity, ⟨block, ?_, ?_, ?_⟩, by omega⟩
        · simp only
          rw [hblock, List.length_append, List.length_drop]
          omega
        · simp only [hst, Bool.false_eq_true, if_false]
        · simp only
          rw [hblock, hlength, List.length_append]
          omega
        · simp only
          rw [hblock, hlength, List.take_append_of_le_length (Nat.le_refl _), List.take_length]
          exact m1
      split at h
      · simp only [Option.pure_def, Option.some.injEq] at h
        subst h
        exact ⟨_, by omega, hpre⟩
      · rename_i hne
        exact ih (r + 1) _ s' (by omega) hpre (hnext _ _ hwrite hne) h
    | some tmp, htmp, h, hsafe =>
      have htl : tmp.length ≤ M + 1 := by
        split at htmp
        · rename_i hc
          simp only [Bool.and_eq_true, Option.isNone_iff_eq_none] at hc
          have hst : s.srcTmp = false := by
            cases hc' : s.srcTmp with
            | false => rfl
            | true => rw [hc', hc.1] at hsrc; simp at hsrc
          rw [hst] at hsrc
          simp only [Bool.false_eq_true, if_false] at hsrc
          subst hsrc
          have hbl := hs.block
          simp only [Option.some.injEq] at htmp
          rw [← htmp, List.length_replicate]
          omega
        · exact hs.tmp tmp htmp
      have hsrc' : (if s.srcTmp then tmp else s.block) = src := by
        cases hc : s.srcTmp with
        | false =>
          rw [hc] at hsrc
          simp only [Bool.false_eq_true, if_false] at hsrc ⊢
          exact hsrc.symm
        | true =>
          rw [hc] at hsrc
          simp only [if_true] at hsrc ⊢
          rw [hsrc] at htmp
          simpa using htmp.symm
      have hsrcl : src.length ≤ M + 1 := by
        have := hs.block
        rw [← hsrc']
        split <;> omega
      simp only [Option.bind_eq_bind, Option.bind_eq_some_iff] at h
      obtain ⟨⟨g, R, common⟩, hround, out, hout, dst, hstore, h⟩ := h
      simp only at h hout hstore
      obtain ⟨hne, hnext⟩ := hsafe g R common out dst hround hout hstore
      rw [hsrc'] at hround hout
      obtain ⟨c, rest, hd, m1, m2⟩ := round_used_spec hmk hmeans
        (by rw [List.length_take]; omega) hb' hround
      have hwo : out = writeGo R common c rest := by
        rw [hd] at hout
        match rest, hout with
        | [], hout => simp [writeOut] at hout
        | e :: rest, hout => simpa [writeOut] using hout.symm
      generalize hd0 : (if s.srcTmp then s.block else tmp) = dst0 at hstore
      unfold store at hstore
      split at hstore
      · rename_i hfit
        simp only [List.take_zero, List.nil_append, Nat.zero_add] at hstore hfit
        injection hstore with hstore
        have hdl : dst.length = (if s.srcTmp then s.block else tmp).length := by
          rw [hd0, ← hstore, List.length_append, List.length_drop]
          omega
        rw [← hd0] at hfit
        have hdt : dst.take out.length = out := by
          rw [← hstore, List.take_append_of_le_length (Nat.le_refl _), List.take_length]
        have hpar := hs.parity
        cases hst : s.srcTmp with
        | false =>
          rw [hst] at h hnext hpar hdl hfit
          simp only [Bool.false_eq_true, if_false, iff_false] at h hnext hpar hdl hfit
          rw [if_neg hne] at h
          refine ih (r + 1) _ s' (by omega) ?_ hnext h
          refine ⟨hs.block, ?_, ?_, ⟨dst, ?_, ?_, ?_⟩, by omega⟩
          · intro t ht
            simp only [Option.some.injEq] at ht
            subst ht
            omega
          · simp only [iff_true]
            omega
          · simp
          · simp only
            omega
          · simp only
            rw [hdt, hwo]
            exact m1
        | true =>
          rw [hst] at h hnext hpar hdl hfit
          simp only [if_true, iff_true] at h hnext hpar hdl hfit
          rw [if_neg hne] at h
          refine ih (r + 1) _ s' (by omega) ?_ hnext h
          have hbl := hs.block
          refine ⟨?_, ?_, ?_, ⟨dst, ?_, ?_, ?_⟩, by omega⟩
          · simp only
            omega
          · intro t ht
            simp only [Option.some.injEq] at ht
            subst ht
            exact htl
          · simp only [Bool.false_eq_true, iff_false]
            omega
          · simp
          · simp only
            omega
          · simp only
            rw [hdt, hwo]
            exact m1
      · cases hstore

/-- The preprocessor leaves no variable without use. -/
theorem precompress_used {mk : (UInt8 → Nat) → FT} (hmk : ∀ F, Initial F (mk F)) {beyond : Option Nat}
    {small : Nat → Bool} {k n : Nat} {mem out : List UInt8} {g : G}
    (hb : k ≤ 1 ∨ ∃ y, beyond = some y ∧ 2 ^ 32 ≤ y) (hn : n ≤ mem.length)
    (hlen : mem.length + 395758 ≤ 2 ^ 32)
    (hsafe : SafeRounds mk beyond small n k ⟨mem, none, false, n, 0, empty⟩)
    (h : precompress mk beyond small k mem n = some (out, g)) :
    MeansUsed g out (mem.take n) := by
  unfold precompress at h
  simp only [Option.bind_eq_bind, Option.bind_eq_some_iff] at h
  obtain ⟨s, hs, h⟩ := h
  have hstart : PreUsed (mem.take n) mem.length 0 ⟨mem, none, false, n, 0, empty⟩ := by
    refine ⟨rfl, by simp, by simp, ⟨mem, by simp, hn, MeansUsed.start _⟩, fun _ => rfl⟩
  obtain ⟨r, hrk, hp⟩ := rounds_used hmk hb hlen k 0 _ s (by omega) hstart hsafe hs
  obtain ⟨src, hsrc, hsl, hmeans⟩ := hp.data
  have hpar := hp.parity
  split at h
  · rename_i hodd
    have hst : s.srcTmp = true := hpar.mp (by omega)
    rw [hst] at hsrc h
    simp only [if_true] at hsrc h
    rw [hsrc] at h
    simp only [Option.bind_some] at h
    split at h
    · cases h
    · simp only [Option.bind_eq_some_iff, Option.pure_def, Option.some.injEq, Prod.mk.injEq] at h
      obtain ⟨dst, hd, rfl, rfl⟩ := h
      unfold store at hd
      split at hd
      · simp only [Option.some.injEq, List.take_zero, List.nil_append] at hd
        have hl : (src.take s.length).length = s.length := by rw [List.length_take]; omega
        have : dst.take s.length = src.take s.length := by
          rw [← hd, List.take_append_of_le_length (by omega), List.take_of_length_le (by omega)]
        rw [this]
        exact hmeans
      · cases hd
  · rename_i heven
    have hst : s.srcTmp = false := by
      cases hc : s.srcTmp with
      | false => rfl
      | true => have := hpar.mpr hc; omega
    rw [hst] at hsrc
    simp only [Bool.false_eq_true, if_false] at hsrc
    subst hsrc
    simp only [Option.pure_def, Option.some.injEq, Prod.mk.injEq] at h
    obtain ⟨rfl, rfl⟩ := h
    exact hmeans

end Bwtc.PairReplace
