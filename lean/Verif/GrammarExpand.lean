import Verif.GrammarEval

/-!
# What `expandAlphabet` does
-/

set_option autoImplicit false

namespace Bwtc.Grammar

theorem nextPair_eq (sp : List UInt8) (count : Nat)
    (h1 : (sp.length - 1) * (sp.length - 1) + 1 ≤ count) (h2 : count < sp.length * sp.length) :
    nextPair sp count = specialPair sp count := by
  obtain ⟨m, hm⟩ : ∃ m, sp.length = m + 1 := by
    cases h : sp.length with
    | zero => rw [h] at h2; omega
    | succ m => exact ⟨m, rfl⟩
  rw [hm] at h1 h2
  have hm1 : m + 1 - 1 = m := by omega
  rw [hm1] at h1
  have hs : isqrt count = m := isqrt_unique (by omega) h2
  have hb : sp.getLast? = sp[m]? := by rw [List.getLast?_eq_getElem?, hm, hm1]
  rw [sq_succ] at h2
  simp only [nextPair, hm, hm1, hb]
  rw [if_neg (by omega), if_neg (by omega)]
  simp only [specialPair, pairIndices, hs]
  rw [if_neg (by omega)]
  have e1 : count - m * m - 1 = count - (m * m + 1) := by omega
  have e2 : count - (m * m + 1) + 1 - (m + 1) = count - (m * m + 1) - m := by omega
  rw [e1, e2]
  have hsm : sp[m]? = some sp[m] := List.getElem?_eq_getElem (by omega)
  by_cases hlt : count - (m * m + 1) < m
  · simp only [hsm, if_pos hlt, Option.bind_eq_bind, Option.bind_some]
  · simp only [hsm, if_neg hlt, Option.bind_eq_bind, Option.bind_some]

/-- The state of the first loop after the symbols `done` were freed and `taken` made special. -/
structure ExpInv (g : G) (done taken : List UInt8) (st : Exp) : Prop where
  specials : st.specials = g.specials ++ taken
  nodup : st.specials.Nodup
  isSpecial : ∀ c, st.isSpecial c = (g.isSpecial c || decide (c ∈ taken))
  isVariable : ∀ c, st.isVariable c = (g.isVariable c || decide (c ∈ done))
  isNew : ∀ c, st.isNew c = true ↔ c ∈ taken ∨ c ∈ done
  pre : st.spr.take g.spr.length = g.spr
  le : st.spr.length ≤ st.specials.length * st.specials.length
  ge : st.specials.length = 0 ∨
    (st.specials.length - 1) * (st.specials.length - 1) + 1 ≤ st.spr.length
  squares : ∀ (k : Nat) c, st.specials[k]? = some c → st.spr[k * k]? = some (false, c)
  num : ∀ c, c ∈ taken ∨ c ∈ done → ∃ i, g.spr.length ≤ i ∧ i < st.spr.length ∧
    specialPair st.specials i = some (st.repl c) ∧
    st.spr[i]? = some (decide (c ∉ taken) && g.isVariable c, c)
  back : ∀ i, g.spr.length ≤ i → i < st.spr.length → ∃ c, (c ∈ taken ∨ c ∈ done) ∧
    specialPair st.specials i = some (st.repl c) ∧
    st.spr[i]? = some (decide (c ∉ taken) && g.isVariable c, c)
  next : st.next = done.map st.repl
  special2 : ∀ c ∈ taken, st.repl c = (c, c)

theorem ExpInv.length {g : G} {done taken : List UInt8} {st : Exp} (h : ExpInv g done taken st) :
    g.spr.length ≤ st.spr.length := by
  have := congrArg List.length h.pre
  rw [List.length_take] at this
  omega

/-- The start of the loop. -/
def Exp.start (g : G) : Exp :=
  ⟨g.isSpecial, g.isVariable, g.specials, g.spr, fun _ => false, fun _ => (0, 0), []⟩

theorem ExpInv.start (g : G) (hn : g.specials.Nodup)
    (hle : g.spr.length ≤ g.specials.length * g.specials.length)
    (hge : g.specials.length = 0 ∨
      (g.specials.length - 1) * (g.specials.length - 1) + 1 ≤ g.spr.length)
    (hsq : ∀ (k : Nat) c, g.specials[k]? = some c → g.spr[k * k]? = some (false, c)) :
    ExpInv g [] [] (Exp.start g) where
  specials := by simp [Exp.start]
  nodup := hn
  isSpecial := by simp [Exp.start]
  isVariable := by simp [Exp.start]
  isNew := by simp [Exp.start]
  pre := by simp [Exp.start]
  le := hle
  ge := hge
  squares := hsq
  num := by simp
  back := by intro i h1 h2; simp only [Exp.start] at h2; omega
  next := rfl
  special2 := by simp

theorem ExpInv.takeSpecial {g : G} {done taken : List UInt8} {st : Exp}
    (h : ExpInv g done taken st) (n : UInt8)
    (heq : st.specials.length * st.specials.length = st.spr.length) (hn : n ∉ st.specials)
    (hnd : n ∉ done) : ExpInv g done (taken ++ [n]) (takeSpecial st n) := by
  have hlen := h.length
  have hnt : n ∉ taken := by
    intro hc; exact hn (by rw [h.specials]; simp [hc])
  have hpair : specialPair (st.specials ++ [n]) st.spr.length = some (n, n) := by
    have e : numberOfSpecialPair st.specials.length st.specials.length = st.spr.length := by
      rw [numberOfSpecialPair, if_pos rfl, heq]
    rw [← e]
    exact specialPair_number (by simp) (by simp)
  refine ⟨?_, ?_, ?_, ?_, ?_, ?_, ?_, ?_, ?_, ?_, ?_, ?_, ?_⟩
  · simp [Grammar.takeSpecial, h.specials]
  · simp only [Grammar.takeSpecial]
    rw [List.nodup_append]
    refine ⟨h.nodup, by simp, ?_⟩
    intro a ha b hb
    simp only [List.mem_singleton] at hb
    subst hb
    intro hc; subst hc; exact hn ha
  · intro c
    simp only [Grammar.takeSpecial, setFn]
    by_cases hc : c = n
    · subst hc; simp
    · simp [hc, h.isSpecial]
  · exact h.isVariable
  · intro c
    simp only [Grammar.takeSpecial, setFn]
    by_cases hc : c = n
    · subst hc; simp
    · rw [if_neg hc, h.isNew]; simp [hc]
  · simp only [Grammar.takeSpecial]
    rw [List.take_append_of_le_length hlen, h.pre]
  · simp only [Grammar.takeSpecial, List.length_append, List.length_singleton]
    rw [sq_succ]; omega
  · right
    simp only [Grammar.takeSpecial, List.length_append, List.length_singleton]
    rw [Nat.add_sub_cancel]; omega
  · intro k c hk
    simp only [Grammar.takeSpecial] at hk ⊢
    rcases Nat.lt_trichotomy k st.specials.length with hlt | heq' | hgt
    · rw [List.getElem?_append_left hlt] at hk
      have := h.squares k c hk
      rw [List.getElem?_append_left (List.getElem?_eq_some_iff.mp this).1, this]
    · subst heq'
      rw [List.getElem?_concat_length] at hk
      simp only [Option.some.injEq] at hk
      subst hk
      rw [heq, List.getElem?_concat_length]
    · rw [List.getElem?_eq_none (by simp; omega)] at hk
      cases hk
  · intro c hc
    simp only [Grammar.takeSpecial, setFn]
    by_cases hcn : c = n
    · subst hcn
      exact ⟨st.spr.length, hlen, by simp, by simp [hpair], by simp⟩
    · have hc' : c ∈ taken ∨ c ∈ done := by
        rcases hc with hc | hc
        · left; simpa [hcn] using hc
        · exact Or.inr hc
      obtain ⟨i, h1, h2, h3, h4⟩ := h.num c hc'
      refine ⟨i, h1, by simp; omega, ?_, ?_⟩
      · rw [if_neg hcn]; exact specialPair_append _ h3
      · rw [List.getElem?_append_left h2, h4]; simp [hcn]
  · intro i h1 h2
    simp only [Grammar.takeSpecial, setFn] at h2 ⊢
    by_cases hi : i < st.spr.length
    · obtain ⟨c, hc, h3, h4⟩ := h.back i h1 hi
      have hcn : c ≠ n := by
        intro e; subst e
        rcases hc with hc | hc
        · exact hnt hc
        · exact hnd hc
      refine ⟨c, ?_, ?_, ?_⟩
      · rcases hc with hc | hc
        · left; simp [hc]
        · exact Or.inr hc
      · rw [if_neg hcn]; exact specialPair_append _ h3
      · rw [List.getElem?_append_left hi, h4]; simp [hcn]
    · have : i = st.spr.length := by
        rw [List.length_append, List.length_singleton] at h2; omega
      subst this
      exact ⟨n, by simp, by simp [hpair], by simp⟩
  · simp only [Grammar.takeSpecial]
    rw [h.next]
    apply List.map_congr_left
    intro c hc
    simp only [setFn]
    rw [if_neg (fun e => hnd (by rw [← e]; exact hc))]
  · intro c hc
    simp only [Grammar.takeSpecial, setFn]
    by_cases hcn : c = n
    · rw [if_pos hcn, hcn]
    · rw [if_neg hcn]
      exact h.special2 c (by simpa [hcn] using hc)

theorem ExpInv.freeSymbol {g : G} {done taken : List UInt8} {st : Exp}
    (h : ExpInv g done taken st) (c : UInt8)
    (hne : st.specials.length * st.specials.length ≠ st.spr.length) (hcd : c ∉ done)
    (hct : c ∉ taken) : ∃ st', freeSymbol st c = some st' ∧ ExpInv g (done ++ [c]) taken st' ∧
      st'.specials = st.specials ∧ st'.spr.length = st.spr.length + 1 := by
  have hlen := h.length
  have hle := h.le
  have hge : (st.specials.length - 1) * (st.specials.length - 1) + 1 ≤ st.spr.length := by
    rcases h.ge with h0 | hge
    · rw [h0] at hle hne; omega
    · exact hge
  have hlt : st.spr.length < st.specials.length * st.specials.length := by omega
  obtain ⟨p, hp⟩ := specialPair_isSome hlt
  have hnp : nextPair st.specials st.spr.length = some p := by rw [nextPair_eq _ _ hge hlt, hp]
  refine ⟨{ st with
    isVariable := setFn st.isVariable c true
    spr := st.spr ++ [(st.isVariable c, c)]
    isNew := setFn st.isNew c true
    repl := setFn st.repl c p
    next := st.next ++ [p] }, by simp only [Grammar.freeSymbol, hnp]; rfl, ?_, rfl, by simp⟩
  refine ⟨h.specials, h.nodup, h.isSpecial, ?_, ?_, ?_, ?_, ?_, ?_, ?_, ?_, ?_, ?_⟩
  · intro x
    simp only [setFn]
    by_cases hx : x = c
    · subst hx; simp
    · simp [hx, h.isVariable]
  · intro x
    simp only [setFn]
    by_cases hx : x = c
    · subst hx; simp
    · rw [if_neg hx, h.isNew]; simp [hx]
  · simp only
    rw [List.take_append_of_le_length hlen, h.pre]
  · simp only [List.length_append, List.length_singleton]; omega
  · right; simp only [List.length_append, List.length_singleton]; omega
  · intro k x hk
    have := h.squares k x hk
    simp only
    rw [List.getElem?_append_left (List.getElem?_eq_some_iff.mp this).1, this]
  · intro x hx
    simp only [setFn]
    by_cases hxc : x = c
    · subst hxc
      refine ⟨st.spr.length, hlen, by simp, by simp [hp], ?_⟩
      rw [List.getElem?_concat_length, h.isVariable]
      simp [hcd, hct]
    · have hx' : x ∈ taken ∨ x ∈ done := by
        rcases hx with hx | hx
        · exact Or.inl hx
        · right; simpa [hxc] using hx
      obtain ⟨i, h1, h2, h3, h4⟩ := h.num x hx'
      refine ⟨i, h1, by simp; omega, ?_, ?_⟩
      · rw [if_neg hxc]; exact h3
      · rw [List.getElem?_append_left h2, h4]
  · intro i h1 h2
    simp only [setFn] at h2 ⊢
    by_cases hi : i < st.spr.length
    · obtain ⟨x, hx, h3, h4⟩ := h.back i h1 hi
      have hxc : x ≠ c := by
        intro e; subst e
        rcases hx with hx | hx
        · exact hct hx
        · exact hcd hx
      refine ⟨x, ?_, ?_, ?_⟩
      · rcases hx with hx | hx
        · exact Or.inl hx
        · right; simp [hx]
      · rw [if_neg hxc]; exact h3
      · rw [List.getElem?_append_left hi, h4]
    · have : i = st.spr.length := by
        rw [List.length_append, List.length_singleton] at h2; omega
      subst this
      refine ⟨c, by simp, by simp [hp], ?_⟩
      rw [List.getElem?_concat_length, h.isVariable]
      simp [hcd, hct]
  · simp only [List.map_append, List.map_cons, List.map_nil]
    rw [h.next]
    congr 1
    · apply List.map_congr_left
      intro x hx
      simp only [setFn]
      rw [if_neg (fun e => hcd (by rw [← e]; exact hx))]
    · simp [setFn]
  · intro x hx
    simp only [setFn]
    rw [if_neg (fun e => hct (by rw [← e]; exact hx))]
    exact h.special2 x hx

/-- The number `j` of new special symbols is the number needed to free `f` symbols, when there are
`n` special symbols and `m` of their pairs are taken. -/
def Enough (f j n m : Nat) : Prop :=
  m + j + f ≤ (n + j) * (n + j) ∧ (0 < j → (n + j - 1) * (n + j - 1) < m + j - 1 + f)

theorem sq_add_le (n j : Nat) : n * n + j ≤ (n + j) * (n + j) := by
  induction j with
  | zero => simp
  | succ j ih =>
    have := sq_succ (n + j)
    rw [show n + j + 1 = n + (j + 1) by omega] at this
    omega

theorem expandLoop_spec (g : G) (freed news : List UInt8) :
    ∀ (done taken : List UInt8) (st : Exp), ExpInv g done taken st →
      (done ++ freed ++ news).Nodup → (∀ c ∈ news, c ∉ st.specials) →
      (∀ c ∈ freed, c ∉ st.specials) →
      Enough freed.length news.length st.specials.length st.spr.length →
      ∃ st', expandLoop freed news st = some st' ∧ ExpInv g (done ++ freed) (taken ++ news) st' ∧
        st'.spr.length = st.spr.length + news.length + freed.length ∧
        (freed ≠ [] → (st'.specials.length - 1) * (st'.specials.length - 1) + 2 ≤
          st'.spr.length) := by
  induction hk : freed.length + news.length generalizing freed news with
  | zero =>
    intro done taken st h _ _ _ _
    have hf : freed = [] := List.eq_nil_of_length_eq_zero (by omega)
    have hw : news = [] := List.eq_nil_of_length_eq_zero (by omega)
    subst hf hw
    exact ⟨st, by simp [expandLoop], by simpa using h, rfl, by simp⟩
  | succ k ih =>
    intro done taken st h hnd hns hfs hen
    cases freed with
    | nil =>
      exfalso
      simp only [List.length_nil] at hk hen
      have hj : 0 < news.length := by omega
      have h2 := hen.2 hj
      have h3 := sq_add_le st.specials.length (news.length - 1)
      rw [show st.specials.length + (news.length - 1) = st.specials.length + news.length - 1 by
        omega] at h3
      have := h.le
      omega
    | cons c freed =>
      rw [expandLoop.eq_def]
      simp only
      by_cases heq : st.specials.length * st.specials.length = st.spr.length
      · rw [if_pos heq]
        cases news with
        | nil =>
          exfalso
          have := hen.1
          simp only [List.length_cons, List.length_nil, Nat.add_zero] at this
          omega
        | cons n news =>
          simp only
          have hn1 : n ∉ st.specials := hns n (by simp)
          have hn2 : n ∉ done := by
            intro hc
            have := (List.nodup_append.mp hnd).2.2 n (by simp [hc]) n (by simp)
            exact this rfl
          have hinv := h.takeSpecial n heq hn1 hn2
          obtain ⟨st', e1, e2, e3, e4⟩ := ih (c :: freed) news (by
              simp only [List.length_cons] at hk ⊢; omega) done (taken ++ [n]) _ hinv
            (by
              rw [List.nodup_append] at hnd ⊢
              obtain ⟨a, b, d⟩ := hnd
              exact ⟨a, (List.nodup_cons.mp b).2, fun x hx y hy => d x hx y (by simp [hy])⟩)
            (by
              intro x hx hc
              simp only [takeSpecial, List.mem_append, List.mem_singleton] at hc
              rcases hc with hc | hc
              · exact hns x (by simp [hx]) hc
              · subst hc
                exact (List.nodup_cons.mp (List.nodup_append.mp hnd).2.1).1 hx)
            (by
              intro x hx hc
              simp only [takeSpecial, List.mem_append, List.mem_singleton] at hc
              rcases hc with hc | hc
              · exact hfs x hx hc
              · subst hc
                have := (List.nodup_append.mp hnd).2.2 x (by
                  rw [List.mem_append]; exact Or.inr hx) x (by simp)
                exact this rfl)
            (by
              obtain ⟨a, b⟩ := hen
              simp only [takeSpecial, List.length_append, List.length_cons, List.length_nil]
                at a b ⊢
              refine ⟨?_, ?_⟩
              · rw [show st.specials.length + (0 + 1) + news.length =
                  st.specials.length + (news.length + 1) by omega]
                omega
              · intro _
                rw [show st.specials.length + (0 + 1) + news.length - 1 =
                  st.specials.length + (news.length + 1) - 1 by omega]
                have := b (by omega)
                omega)
          refine ⟨st', e1, ?_, ?_, e4⟩
          · simpa using e2
          · rw [e3]
            simp only [takeSpecial, List.length_append, List.length_cons, List.length_nil]
            omega
      · rw [if_neg heq]
        have hc1 : c ∉ done := by
          intro hc
          rw [List.append_assoc] at hnd
          exact (List.nodup_append.mp hnd).2.2 c hc c (by simp) rfl
        have hc2 : c ∉ taken := by
          intro hc
          exact hfs c (by simp) (by rw [h.specials]; simp [hc])
        obtain ⟨st1, f1, f2, f3, f4⟩ := h.freeSymbol c heq hc1 hc2
        rw [f1]
        simp only [Option.bind_eq_bind, Option.bind_some]
        obtain ⟨st', e1, e2, e3, e4⟩ := ih freed news (by
            simp only [List.length_cons] at hk; omega) (done ++ [c]) taken st1 f2
          (by simpa using hnd)
          (by rw [f3]; exact hns)
          (by rw [f3]; intro x hx; exact hfs x (by simp [hx]))
          (by
            obtain ⟨a, b⟩ := hen
            rw [f3, f4]
            simp only [List.length_cons] at a b
            refine ⟨by omega, fun h => ?_⟩
            have := b h
            omega)
        refine ⟨st', e1, by simpa using e2, by rw [e3, f4]; simp only [List.length_cons]; omega, ?_⟩
        intro _
        by_cases hfr : freed = []
        · subst hfr
          have hnw : news = [] := by
            cases news with
            | nil => rfl
            | cons n news =>
              exfalso
              have h2 := hen.2 (by simp)
              have h3 := sq_add_le st.specials.length (news.length)
              have h5 := h.le
              simp only [List.length_cons, List.length_nil] at h2
              rw [show st.specials.length + (news.length + 1) - 1 =
                st.specials.length + news.length by omega] at h2
              omega
          subst hnw
          simp only [expandLoop, Option.some.injEq] at e1
          subst e1
          rw [f3, f4]
          have hle := h.le
          rcases h.ge with h0 | hge
          · rw [h0] at hle heq; omega
          · omega
        · exact e4 hfr

end Bwtc.Grammar
