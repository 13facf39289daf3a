import Verif.PairInPlace
import Verif.GrammarCount

/-!
# All rounds of the preprocessor
-/

set_option autoImplicit false

namespace Bwtc.PairReplace
open Grammar FreqTable CircBuf

theorem ruleBytes_length {g : G} {ars : List (Key × List Key)} (h : OK g ars) :
    (g.rules.flatMap ruleBytes).length ≤ 6 * g.rules.length := by
  have hk : ∀ k : Key, k.bytes.length ≤ 2 := by
    intro k
    cases k <;> simp [Key.bytes]
  have key : ∀ l : List (Key × List Key), (∀ a ∈ l, a.2.length = 2) →
      ((l.map toRule).flatMap ruleBytes).length ≤ 6 * l.length := by
    intro l
    induction l with
    | nil => intro _; simp
    | cons a l ih =>
      intro hl
      have h1 := ih (fun b hb => hl b (by simp [hb]))
      have h2 := hl a (by simp)
      obtain ⟨k, r⟩ := a
      match r, h2 with
      | [x, y], _ =>
        have := hk k
        have := hk x
        have := hk y
        simp only [List.map_cons, List.flatMap_cons, List.length_append, ruleBytes, toRule, bytesOf,
          List.flatMap_nil, List.length_cons, List.length_nil]
        omega
  have := key ars (fun a ha => (h.keys a ha).2.1)
  rw [← h.rules_eq] at this
  have hl := congrArg List.length h.rules_eq
  rw [List.length_map] at hl
  omega

/-- A round that does anything makes a sound plan, whatever the text. -/
theorem round_plan {mk : (UInt8 → Nat) → FT} (hmk : ∀ F, Initial F (mk F)) {beyond : Option Nat} {g : G}
    {ars : List (Key × List Key)} {data : List UInt8} (hok : OK g ars) (hlen : data.length + 395757 ≤ 2 ^ 32)
    (hb : g.specials ≠ [] → ∃ y, beyond = some y ∧ 2 ^ 32 ≤ y) {an : An} {pl : Plan}
    (han : analyseData g.freqs data = some an) (hpl : choose mk beyond g an = some pl) : PlanOK g data pl := by
  have hfreq := (analyseData_spec han (by omega)).1
  have hrl := ruleBytes_length hok
  have hrc := rules_le hok
  refine choose_ok (x := data.length + 6 * g.rules.length + 1) hok han (by omega) (hmk _) ?_ (by omega)
    ?_ hpl
  · intro c
    rw [hfreq, hok.freq]
    have h1 : (g.rules.flatMap ruleBytes).count c ≤ _ := List.count_le_length
    have h2 : data.count c ≤ _ := List.count_le_length
    omega
  · intro hs
    obtain ⟨y, h1, h2⟩ := hb hs
    exact ⟨y, h1, by omega⟩

/-- One round. -/
theorem round_spec {mk : (UInt8 → Nat) → FT} (hmk : ∀ F, Initial F (mk F)) {beyond : Option Nat} {g g' : G}
    {data orig : List UInt8} {R : Repl} {common : UInt8} (h : Means g data orig)
    (hlen : data.length + 395757 ≤ 2 ^ 32)
    (hb : g.specials ≠ [] → ∃ y, beyond = some y ∧ 2 ^ 32 ≤ y)
    (hr : round mk beyond g data = some (g', R, common)) :
    ∃ c rest, data = c :: rest ∧ Means g' (writeGo R common c rest) orig ∧ Uniform R common := by
  unfold round at hr
  simp only [Option.bind_eq_bind, Option.bind_eq_some_iff] at hr
  obtain ⟨an, han, pl, hpl, ⟨g1, R1⟩, hap, hr⟩ := hr
  simp only [Option.pure_def, Option.some.injEq, Prod.mk.injEq] at hr
  obtain ⟨rfl, rfl, rfl⟩ := hr
  have hm := h
  obtain ⟨ars, toks, t, hok, _⟩ := h
  have hplan := round_plan hmk hok hlen hb han hpl
  match data, han with
  | [], han => simp [analyseData] at han
  | c :: rest, _ =>
    obtain ⟨g2, R2, e1, e2, e3, _⟩ := round_means hm hplan rfl
    rw [hap] at e1
    simp only [Option.some.injEq, Prod.mk.injEq] at e1
    obtain ⟨rfl, rfl⟩ := e1
    exact ⟨c, rest, rfl, e2, e3⟩

/-- Conditions under which the in-place writer works on the first `n` bytes of `mem`: not too short, at
most a third of the bytes has to be written as two bytes, the last byte is not one of them, and the
result fits into the array. -/
def SafeWrite (R : Repl) (common : UInt8) (mem : List UInt8) (n : Nat) : Prop :=
  5 ≤ n ∧ 3 * (mem.take n).countP (escaped R common) ≤ n ∧
    (∀ c, mem[n - 1]? = some c → escaped R common c = false) ∧
    ∀ out, writeOut R common (mem.take n) = some out → out.length ≤ mem.length

/-- All in-place rounds of a run are safe, and no round with two arrays brings back the original
length `n` (the loop would end then without exchanging the arrays). -/
def SafeRounds (mk : (UInt8 → Nat) → FT) (beyond : Option Nat) (small : Nat → Bool) (n : Nat) :
    Nat → Pre → Prop
  | 0, _ => True
  | k + 1, s =>
    match (if s.tmp.isNone && small s.length then some (List.replicate (s.length + 1) (0 : UInt8))
      else s.tmp) with
    | none => ∀ g R common, round mk beyond s.g (s.block.take s.length) = some (g, R, common) →
        SafeWrite R common s.block s.length ∧
        ∀ block length, writeInPlace R common s.block s.length = some (block, length) → length ≠ n →
          SafeRounds mk beyond small n k { s with block := block, length := length, g := g }
    | some tmp => ∀ g R common out dst,
        round mk beyond s.g ((if s.srcTmp then tmp else s.block).take s.length) = some (g, R, common) →
        writeOut R common ((if s.srcTmp then tmp else s.block).take s.length) = some out →
        store (if s.srcTmp then s.block else tmp) 0 out = some dst →
        out.length ≠ n ∧ SafeRounds mk beyond small n k
          (if s.srcTmp then ⟨dst, some tmp, false, out.length, s.rounds + 1, g⟩
            else ⟨s.block, some dst, true, out.length, s.rounds + 1, g⟩)

/-- What holds between the rounds. -/
structure PreOK (orig : List UInt8) (M r : Nat) (s : Pre) : Prop where
  block : s.block.length = M
  tmp : ∀ t, s.tmp = some t → t.length ≤ M + 1
  parity : s.rounds % 2 = 1 ↔ s.srcTmp = true
  data : ∃ src, (if s.srcTmp then s.tmp = some src else src = s.block) ∧ s.length ≤ src.length ∧
    Means s.g (src.take s.length) orig
  first : r = 0 → s.g.specials = []

theorem rounds_spec {mk : (UInt8 → Nat) → FT} (hmk : ∀ F, Initial F (mk F)) {beyond : Option Nat}
    {small : Nat → Bool} {orig : List UInt8} {n M k0 : Nat}
    (hb : k0 ≤ 1 ∨ ∃ y, beyond = some y ∧ 2 ^ 32 ≤ y)
    (hlen : M + 395758 ≤ 2 ^ 32) : ∀ (k r : Nat) (s s' : Pre), k + r = k0 → PreOK orig M r s →
      SafeRounds mk beyond small n k s → rounds mk beyond small n k s = some s' →
      ∃ r', r' ≤ k0 ∧ PreOK orig M r' s' := by
  intro k
  induction k with
  | zero =>
    intro r s s' _ hs _ h
    simp only [rounds, Option.some.injEq] at h
    subst h
    exact ⟨r, by omega, hs⟩
  | succ k ih =>
    intro r s s' hk hs hsafe h
    have hb' : s.g.specials ≠ [] → ∃ y, beyond = some y ∧ 2 ^ 32 ≤ y := by
      intro hne
      rcases hb with hb | hb
      · exact absurd (hs.first (by omega)) hne
      · exact hb
    rw [rounds] at h
    rw [SafeRounds] at hsafe
    generalize htmp : (if s.tmp.isNone && small s.length then
      some (List.replicate (s.length + 1) (0 : UInt8)) else s.tmp) = tmp at h hsafe
    obtain ⟨src, hsrc, hsl, hmeans⟩ := hs.data
    match tmp, htmp, h, hsafe with
    | none, htmp, h, hsafe =>
      have hnone : s.tmp = none := by
        split at htmp
        · cases htmp
        · exact htmp
      have hst : s.srcTmp = false := by
        cases hc : s.srcTmp with
        | false => rfl
        | true => rw [hc, hnone] at hsrc; simp at hsrc
      rw [hst] at hsrc
      simp only [Bool.false_eq_true, if_false] at hsrc
      subst hsrc
      simp only [Option.bind_eq_bind, Option.bind_eq_some_iff] at h
      obtain ⟨⟨g, R, common⟩, hround, ⟨block, length⟩, hwrite, h⟩ := h
      simp only at h hwrite
      obtain ⟨⟨w1, w2, w3, w4⟩, hnext⟩ := hsafe g R common hround
      have hbl := hs.block
      obtain ⟨c, rest, hd, m1, m2⟩ := round_spec hmk hmeans
        (by rw [List.length_take]; omega) hb' hround
      have hwo : writeOut R common (s.block.take s.length) = some (writeGo R common c rest) := by
        have hl := congrArg List.length hd
        rw [List.length_take] at hl
        rw [hd]
        match rest, hl with
        | [], hl => simp at hl; omega
        | e :: rest, _ => rfl
      have hfit := w4 _ hwo
      have hspec := writeInPlace_spec m2 w1 hsl hd w2 w3 hfit
      rw [hwrite] at hspec
      simp only [Option.some.injEq, Prod.mk.injEq] at hspec
      obtain ⟨hblock, hlength⟩ := hspec
      have hpre : PreOK orig M (r + 1) { s with block := block, length := length, g := g } := by
        refine ⟨?_, hs.tmp, hs.parity, ⟨block, ?_, ?_, ?_⟩, by omega⟩
        · simp only
          rw [hblock, List.length_append, List.length_drop]
          omega
        · simp only [hst, Bool.false_eq_true, if_false]
        · simp only
          rw [hblock, hlength, List.length_append]
          omega
        · simp only
          rw [hblock, hlength, List.take_append_of_le_length (Nat.le_refl _), List.take_length]
          exact m1
      split at h
      · simp only [Option.pure_def, Option.some.injEq] at h
        subst h
        exact ⟨_, by omega, hpre⟩
      · rename_i hne
        exact ih (r + 1) _ s' (by omega) hpre (hnext _ _ hwrite hne) h
    | some tmp, htmp, h, hsafe =>
      have htl : tmp.length ≤ M + 1 := by
        split at htmp
        · rename_i hc
          simp only [Bool.and_eq_true, Option.isNone_iff_eq_none] at hc
          have hst : s.srcTmp = false := by
            cases hc' : s.srcTmp with
            | false => rfl
            | true => rw [hc', hc.1] at hsrc; simp at hsrc
          rw [hst] at hsrc
          simp only [Bool.false_eq_true, if_false] at hsrc
          subst hsrc
          have hbl := hs.block
          simp only [Option.some.injEq] at htmp
          rw [← htmp, List.length_replicate]
          omega
        · exact hs.tmp tmp htmp
      have hsrc' : (if s.srcTmp then tmp else s.block) = src := by
        cases hc : s.srcTmp with
        | false =>
          rw [hc] at hsrc
          simp only [Bool.false_eq_true, if_false] at hsrc ⊢
          exact hsrc.symm
        | true =>
          rw [hc] at hsrc
          simp only [if_true] at hsrc ⊢
          rw [hsrc] at htmp
          simpa using htmp.symm
      have hsrcl : src.length ≤ M + 1 := by
        have := hs.block
        rw [← hsrc']
        split <;> omega
      simp only [Option.bind_eq_bind, Option.bind_eq_some_iff] at h
      obtain ⟨⟨g, R, common⟩, hround, out, hout, dst, hstore, h⟩ := h
      simp only at h hout hstore
      obtain ⟨hne, hnext⟩ := hsafe g R common out dst hround hout hstore
      rw [hsrc'] at hround hout
      obtain ⟨c, rest, hd, m1, m2⟩ := round_spec hmk hmeans
        (by rw [List.length_take]; omega) hb' hround
      have hwo : out = writeGo R common c rest := by
        rw [hd] at hout
        match rest, hout with
        | [], hout => simp [writeOut] at hout
        | e :: rest, hout => simpa [writeOut] using hout.symm
      generalize hd0 : (if s.srcTmp then s.block else tmp) = dst0 at hstore
      unfold store at hstore
      split at hstore
      · rename_i hfit
        simp only [List.take_zero, List.nil_append, Nat.zero_add] at hstore hfit
        injection hstore with hstore
        have hdl : dst.length = (if s.srcTmp then s.block else tmp).length := by
          rw [hd0, ← hstore, List.length_append, List.length_drop]
          omega
        rw [← hd0] at hfit
        have hdt : dst.take out.length = out := by
          rw [← hstore, List.take_append_of_le_length (Nat.le_refl _), List.take_length]
        have hpar := hs.parity
        cases hst : s.srcTmp with
        | false =>
          rw [hst] at h hnext hpar hdl hfit
          simp only [Bool.false_eq_true, if_false, iff_false] at h hnext hpar hdl hfit
          rw [if_neg hne] at h
          refine ih (r + 1) _ s' (by omega) ?_ hnext h
          refine ⟨hs.block, ?_, ?_, ⟨dst, ?_, ?_, ?_⟩, by omega⟩
          · intro t ht
            simp only [Option.some.injEq] at ht
            subst ht
            omega
          · simp only [iff_true]
            omega
          · simp
          · simp only
            omega
          · simp only
            rw [hdt, hwo]
            exact m1
        | true =>
          rw [hst] at h hnext hpar hdl hfit
          simp only [if_true, iff_true] at h hnext hpar hdl hfit
          rw [if_neg hne] at h
          refine ih (r + 1) _ s' (by omega) ?_ hnext h
          have hbl := hs.block
          refine ⟨?_, ?_, ?_, ⟨dst, ?_, ?_, ?_⟩, by omega⟩
          · simp only
            omega
          · intro t ht
            simp only [Option.some.injEq] at ht
            subst ht
            exact htl
          · simp only [Bool.false_eq_true, iff_false]
            omega
          · simp
          · simp only
            omega
          · simp only
            rw [hdt, hwo]
            exact m1
      · cases hstore

/-- The preprocessor is undone by the postprocessor. -/
theorem precompress_spec {mk : (UInt8 → Nat) → FT} (hmk : ∀ F, Initial F (mk F)) {beyond : Option Nat}
    {small : Nat → Bool} {k n : Nat} {mem out : List UInt8} {g : G}
    (hb : k ≤ 1 ∨ ∃ y, beyond = some y ∧ 2 ^ 32 ≤ y) (hn : n ≤ mem.length)
    (hlen : mem.length + 395758 ≤ 2 ^ 32)
    (hsafe : SafeRounds mk beyond small n k ⟨mem, none, false, n, 0, empty⟩)
    (h : precompress mk beyond small k mem n = some (out, g)) :
    Means g out (mem.take n) := by
  unfold precompress at h
  simp only [Option.bind_eq_bind, Option.bind_eq_some_iff] at h
  obtain ⟨s, hs, h⟩ := h
  have hstart : PreOK (mem.take n) mem.length 0 ⟨mem, none, false, n, 0, empty⟩ := by
    refine ⟨rfl, by simp, by simp, ⟨mem, by simp, hn, Means.start _⟩, fun _ => rfl⟩
  obtain ⟨r, hrk, hp⟩ := rounds_spec hmk hb hlen k 0 _ s (by omega) hstart hsafe hs
  obtain ⟨src, hsrc, hsl, hmeans⟩ := hp.data
  have hpar := hp.parity
  split at h
  · rename_i hodd
    have hst : s.srcTmp = true := hpar.mp (by omega)
    rw [hst] at hsrc h
    simp only [if_true] at hsrc h
    rw [hsrc] at h
    simp only [Option.bind_some] at h
    split at h
    · cases h
    · simp only [Option.bind_eq_some_iff, Option.pure_def, Option.some.injEq, Prod.mk.injEq] at h
      obtain ⟨dst, hd, rfl, rfl⟩ := h
      unfold store at hd
      split at hd
      · simp only [Option.some.injEq, List.take_zero, List.nil_append] at hd
        have hl : (src.take s.length).length = s.length := by rw [List.length_take]; omega
        have : dst.take s.length = src.take s.length := by
          rw [← hd, List.take_append_of_le_length (by omega), List.take_of_length_le (by omega)]
        rw [this]
        exact hmeans
      · cases hd
  · rename_i heven
    have hst : s.srcTmp = false := by
      cases hc : s.srcTmp with
      | false => rfl
      | true => have := hpar.mpr hc; omega
    rw [hst] at hsrc
    simp only [Bool.false_eq_true, if_false] at hsrc
    subst hsrc
    simp only [Option.pure_def, Option.some.injEq, Prod.mk.injEq] at h
    obtain ⟨rfl, rfl⟩ := h
    exact hmeans

/-! ## The grammar alone

Whatever happens to the text, also in rounds that damage it, the grammar stays well formed. -/

theorem store_length {mem l mem' : List UInt8} {pos : Nat} (h : store mem pos l = some mem') :
    mem'.length = mem.length ∧ pos + l.length ≤ mem.length := by
  unfold store at h
  split at h
  · rename_i hle
    injection h with h
    subst h
    simp only [List.length_append, List.length_take, List.length_drop]
    omega
  · cases h

/-- The writer stays inside of the array. -/
def W.Inside (M : Nat) (w : W) : Prop := w.mem.length = M ∧ w.filled ≤ M

theorem W.Inside.consume {M n : Nat} {w w' : W} (h : w.Inside M) (hc : w.consume n = some w') : w'.Inside M := by
  simp only [W.consume, Option.bind_eq_bind, Option.bind_eq_some_iff, Option.pure_def, Option.some.injEq] at hc
  obtain ⟨⟨l, buf⟩, _, mem, hs, rfl⟩ := hc
  obtain ⟨h1, h2⟩ := store_length hs
  have := h.1
  simp only at h2
  refine ⟨?_, ?_⟩ <;> simp only <;> omega

theorem W.Inside.push {M : Nat} {c : UInt8} {w w' : W} (h : w.Inside M) (hc : w.push c = some w') : w'.Inside M := by
  simp only [W.push, Option.bind_eq_bind, Option.bind_eq_some_iff, Option.pure_def, Option.some.injEq] at hc
  obtain ⟨buf, _, rfl⟩ := hc
  exact h

theorem W.Inside.flush {M i : Nat} {w w' : W} (h : w.Inside M) (hc : w.flush i = some w') : w'.Inside M := by
  unfold W.flush at hc
  split at hc
  · split at hc
    · cases hc
    · exact h.consume hc
  · injection hc with hc
    exact hc ▸ h

theorem W.Inside.finish {M i n : Nat} {w : W} {mem : List UInt8} (h : w.Inside M) (hc : w.finish i = some (mem, n)) :
    mem.length = M ∧ n ≤ M := by
  simp only [W.finish, Option.bind_eq_bind, Option.bind_eq_some_iff, Option.pure_def, Option.some.injEq,
    Prod.mk.injEq] at hc
  obtain ⟨w', hw, rfl, rfl⟩ := hc
  exact h.consume hw

theorem writeLast_inside {R : Repl} {common : UInt8} {M i n : Nat} {w : W} {mem : List UInt8} (h : w.Inside M)
    (hc : writeLast R common w i = some (mem, n)) : mem.length = M ∧ n ≤ M := by
  simp only [writeLast, Option.bind_eq_bind, Option.bind_eq_some_iff] at hc
  obtain ⟨c, _, hc⟩ := hc
  split at hc
  · simp only [Option.bind_eq_some_iff] at hc
    obtain ⟨w1, h1, w2, h2, hc⟩ := hc
    exact ((h.push h1).push h2).finish hc
  · simp only [Option.bind_eq_some_iff] at hc
    obtain ⟨w1, h1, hc⟩ := hc
    exact (h.push h1).finish hc

theorem writeLoop_inside {R : Repl} {common : UInt8} {M n n' : Nat} {mem : List UInt8} : ∀ (k : Nat) (w : W)
    (cur : UInt8) (i : Nat), n - i ≤ k → w.Inside M → writeLoop R common n w cur i = some (mem, n') →
    mem.length = M ∧ n' ≤ M := by
  intro k
  induction k with
  | zero =>
    intro w cur i hk _ hc
    rw [writeLoop, dif_neg (by omega)] at hc
    cases hc
  | succ k ih =>
    intro w cur i hk h hc
    rw [writeLoop] at hc
    split at hc
    · rename_i hi
      split at hc
      · simp only at hc
        split at hc
        · simp only [Option.bind_eq_bind, Option.bind_eq_some_iff] at hc
          obtain ⟨w1, h1, w2, h2, hc⟩ := hc
          have hw := (h.push h1).flush h2
          split at hc
          · exact writeLast_inside hw hc
          · exact ih _ _ _ (by omega) hw hc
        · split at hc
          · simp only [Option.bind_eq_bind, Option.bind_eq_some_iff] at hc
            obtain ⟨w1, h1, hc⟩ := hc
            split at hc
            · exact (h.push h1).finish hc
            · simp only [Option.bind_eq_some_iff] at hc
              obtain ⟨e, _, w2, h2, hc⟩ := hc
              have hw := (h.push h1).flush h2
              split at hc
              · exact writeLast_inside hw hc
              · exact ih _ _ _ (by omega) hw hc
          · simp only [Option.bind_eq_bind, Option.bind_eq_some_iff] at hc
            obtain ⟨w1, h1, w2, h2, w3, h3, w4, h4, hc⟩ := hc
            have hw := (((h.push h1).flush h2).push h3).flush h4
            split at hc
            · exact writeLast_inside hw hc
            · exact ih _ _ _ (by omega) hw hc
      · cases hc
    · cases hc

theorem writeInPlace_inside {R : Repl} {common : UInt8} {n n' : Nat} {mem mem' : List UInt8}
    (h : writeInPlace R common mem n = some (mem', n')) : mem'.length = mem.length ∧ n' ≤ mem.length := by
  simp only [writeInPlace, Option.bind_eq_bind, Option.bind_eq_some_iff] at h
  obtain ⟨c, _, h⟩ := h
  exact writeLoop_inside _ _ _ _ (Nat.le_refl _) ⟨rfl, Nat.zero_le _⟩ h

/-- A well formed grammar. -/
def Formed (g : G) : Prop := ∃ ars, OK g ars ∧ Listed g

theorem Formed.empty : Formed empty := ⟨[], OK.empty, Listed.empty⟩

theorem round_formed {mk : (UInt8 → Nat) → FT} (hmk : ∀ F, Initial F (mk F)) {beyond : Option Nat} {g g' : G}
    {data : List UInt8} {R : Repl} {common : UInt8} (h : Formed g) (hlen : data.length + 395757 ≤ 2 ^ 32)
    (hb : g.specials ≠ [] → ∃ y, beyond = some y ∧ 2 ^ 32 ≤ y)
    (hr : round mk beyond g data = some (g', R, common)) : Formed g' := by
  unfold round at hr
  simp only [Option.bind_eq_bind, Option.bind_eq_some_iff] at hr
  obtain ⟨an, han, pl, hpl, ⟨g1, R1⟩, hap, hr⟩ := hr
  simp only [Option.pure_def, Option.some.injEq, Prod.mk.injEq] at hr
  obtain ⟨rfl, rfl, rfl⟩ := hr
  obtain ⟨ars, hok, hl⟩ := h
  have hplan := round_plan hmk hok hlen hb han hpl
  unfold apply at hap
  split at hap
  · injection hap with hap
    injection hap with e1 _
    exact e1 ▸ ⟨ars, hok, hl⟩
  · rename_i hne
    have hch := hplan.choice hne
    obtain ⟨g2, isNew, repl, u1, u2, _⟩ := update_spec hok hch
    rw [u1] at hap
    simp only [Option.bind_eq_bind, Option.bind_some, Option.pure_def, Option.some.injEq, Prod.mk.injEq] at hap
    rw [← hap.1]
    exact ⟨_, u2, hl.update hok hch hne (hplan.common1 hne) u1⟩

/-- What holds between the rounds, in every run. -/
structure Bounded (M : Nat) (s : Pre) : Prop where
  block : s.block.length ≤ M
  tmp : ∀ t, s.tmp = some t → t.length ≤ M + 1
  length : s.length ≤ M + 1
  first : s.tmp = none → s.length ≤ M
  formed : Formed s.g

theorem rounds_formed {mk : (UInt8 → Nat) → FT} (hmk : ∀ F, Initial F (mk F)) {beyond : Option Nat}
    {small : Nat → Bool} {n M : Nat} (hlen : M + 395758 ≤ 2 ^ 32) : ∀ (k : Nat) (s s' : Pre), Bounded M s →
      (k ≤ 1 ∧ s.g.specials = [] ∨ ∃ y, beyond = some y ∧ 2 ^ 32 ≤ y) →
      rounds mk beyond small n k s = some s' → Bounded M s' := by
  intro k
  induction k with
  | zero =>
    intro s s' hs _ h
    simp only [rounds, Option.some.injEq] at h
    exact h ▸ hs
  | succ k ih =>
    intro s s' hs hb h
    have hb' : s.g.specials ≠ [] → ∃ y, beyond = some y ∧ 2 ^ 32 ≤ y := by
      intro hne
      rcases hb with hb | hb
      · exact absurd hb.2 hne
      · exact hb
    have hb2 : ∀ s1 : Pre, rounds mk beyond small n k s1 = some s' → Bounded M s1 → Bounded M s' := by
      intro s1 h1 h2
      rcases hb with hb | hb
      · obtain rfl : k = 0 := by omega
        simp only [rounds, Option.some.injEq] at h1
        exact h1 ▸ h2
      · exact ih _ _ h2 (Or.inr hb) h1
    rw [rounds] at h
    generalize htmp : (if s.tmp.isNone && small s.length then
      some (List.replicate (s.length + 1) (0 : UInt8)) else s.tmp) = tmp at h
    match tmp, htmp, h with
    | none, htmp, h =>
      simp only [Option.bind_eq_bind, Option.bind_eq_some_iff] at h
      obtain ⟨⟨g, R, common⟩, hround, ⟨block, length⟩, hwrite, h⟩ := h
      simp only at h hwrite
      have hf := round_formed hmk hs.formed (by have := hs.block; rw [List.length_take]; omega) hb' hround
      obtain ⟨i1, i2⟩ := writeInPlace_inside hwrite
      have hbd := hs.block
      have hpre : Bounded M { s with block := block, length := length, g := g } :=
        ⟨by simp only; omega, hs.tmp, by simp only; omega, fun _ => by simp only; omega, hf⟩
      split at h
      · simp only [Option.pure_def, Option.some.injEq] at h
        exact h ▸ hpre
      · exact hb2 _ h hpre
    | some tmp, htmp, h =>
      have htl : tmp.length ≤ M + 1 := by
        split at htmp
        · rename_i hc
          simp only [Bool.and_eq_true, Option.isNone_iff_eq_none] at hc
          have := hs.first hc.1
          simp only [Option.some.injEq] at htmp
          rw [← htmp, List.length_replicate]
          omega
        · exact hs.tmp tmp htmp
      have hbd := hs.block
      simp only [Option.bind_eq_bind, Option.bind_eq_some_iff] at h
      obtain ⟨⟨g, R, common⟩, hround, out, hout, dst, hstore, h⟩ := h
      simp only at h hout hstore
      have hf := round_formed hmk hs.formed (by
        rw [List.length_take]
        split <;> omega) hb' hround
      obtain ⟨i1, i2⟩ := store_length hstore
      cases hst : s.srcTmp with
      | false =>
        rw [hst] at h i1 i2
        simp only [Bool.false_eq_true, if_false] at h i1 i2
        have hpre : ∀ b r, Bounded M { s with tmp := some dst, srcTmp := b, length := out.length, rounds := r, g := g } := by
          intro b r
          refine ⟨hbd, ?_, by simp only; omega, by simp, hf⟩
          intro t ht
          simp only [Option.some.injEq] at ht
          rw [← ht]
          omega
        split at h
        · simp only [Option.pure_def, Option.some.injEq] at h
          exact h ▸ hpre _ _
        · exact hb2 _ h (hpre _ _)
      | true =>
        rw [hst] at h i1 i2
        simp only [if_true] at h i1 i2
        have hpre : ∀ b r, Bounded M { s with block := dst, tmp := some tmp, srcTmp := b, length := out.length, rounds := r, g := g } := by
          intro b r
          refine ⟨by simp only; omega, ?_, by simp only; omega, by simp, hf⟩
          intro t ht
          simp only [Option.some.injEq] at ht
          exact ht ▸ htl
        split at h
        · simp only [Option.pure_def, Option.some.injEq] at h
          exact h ▸ hpre _ _
        · exact hb2 _ h (hpre _ _)

/-- Every run of the preprocessor that does not leave its arrays delivers a well formed grammar and a
text no longer than its array. -/
theorem precompress_formed {mk : (UInt8 → Nat) → FT} (hmk : ∀ F, Initial F (mk F)) {beyond : Option Nat}
    {small : Nat → Bool} {k n : Nat} {mem out : List UInt8} {g : G}
    (hb : k ≤ 1 ∨ ∃ y, beyond = some y ∧ 2 ^ 32 ≤ y) (hn : n ≤ mem.length)
    (hlen : mem.length + 395758 ≤ 2 ^ 32)
    (h : precompress mk beyond small k mem n = some (out, g)) : Formed g ∧ out.length ≤ mem.length + 1 := by
  unfold precompress at h
  simp only [Option.bind_eq_bind, Option.bind_eq_some_iff] at h
  obtain ⟨s, hs, h⟩ := h
  have hp := rounds_formed hmk hlen k _ s (M := mem.length) ⟨Nat.le_refl _, by simp, by simp only; omega, fun _ => hn, Formed.empty⟩
    (hb.imp (fun h => ⟨h, rfl⟩) id) hs
  have := hp.length
  have hout : out.length ≤ s.length ∧ g = s.g := by
    split at h
    · simp only [Option.bind_eq_some_iff] at h
      obtain ⟨tmp, _, h⟩ := h
      generalize (if s.srcTmp = true then tmp else s.block) = src at h
      split at h
      · cases h
      · simp only [Option.bind_eq_some_iff, Option.pure_def, Option.some.injEq, Prod.mk.injEq] at h
        obtain ⟨dst, _, rfl, rfl⟩ := h
        rw [List.length_take]
        exact ⟨Nat.min_le_left _ _, rfl⟩
    · simp only [Option.pure_def, Option.some.injEq, Prod.mk.injEq] at h
      obtain ⟨rfl, rfl⟩ := h
      rw [List.length_take]
      exact ⟨Nat.min_le_left _ _, rfl⟩
  exact ⟨hout.2 ▸ hp.formed, by omega⟩

end Bwtc.PairReplace
