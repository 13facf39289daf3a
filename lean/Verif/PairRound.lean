import Verif.PairWrite

/-!
# One round keeps the meaning of the text
-/

set_option autoImplicit false

namespace Bwtc.PairReplace
open Grammar

theorem setRow_fold (common : UInt8) (v : UInt8 → UInt8 × UInt8) (l : List UInt8)
    (hv : ∀ c ∈ l, (v c).1 ≠ common) : ∀ (R : Repl) (x y : UInt8),
    l.foldl (fun R c => setRow common R c (v c)) R x y =
      if x ∈ l ∧ (R x y).1 = common then v x else R x y := by
  induction l with
  | nil => intro R x y; simp
  | cons c l ih =>
    intro R x y
    rw [List.foldl_cons, ih (fun d hd => hv d (by simp [hd]))]
    by_cases hxc : x = c
    · subst hxc
      by_cases hr : (R x y).1 = common
      · have h1 : setRow common R x (v x) x y = v x := by simp [setRow, hr]
        rw [h1, if_neg (by intro hc; exact hv x (by simp) hc.2), if_pos ⟨by simp, hr⟩]
      · have h1 : setRow common R x (v x) x y = R x y := by simp [setRow, hr]
        rw [h1, if_neg (fun hc => hr hc.2), if_neg (fun hc => hr hc.2)]
    · have h1 : setRow common R c (v c) x y = R x y := by simp [setRow, hxc]
      rw [h1]
      simp [hxc]

theorem setCell_fold (common : UInt8) (prs : List ((UInt8 × UInt8) × UInt8)) : ∀ (R : Repl) (x y : UInt8),
    (R x y = (common, common) ∨ ∃ v, ((x, y), v) ∈ prs ∧ R x y = (v, common)) →
    prs.foldl (fun R e => setCell R e.1.1 e.1.2 (e.2, common)) R x y = R x y ∨
    ∃ v, ((x, y), v) ∈ prs ∧
      prs.foldl (fun R e => setCell R e.1.1 e.1.2 (e.2, common)) R x y = (v, common) := by
  have main : ∀ (prs : List ((UInt8 × UInt8) × UInt8)) (R : Repl) (x y : UInt8),
      prs.foldl (fun R e => setCell R e.1.1 e.1.2 (e.2, common)) R x y = R x y ∨
      ∃ v, ((x, y), v) ∈ prs ∧
        prs.foldl (fun R e => setCell R e.1.1 e.1.2 (e.2, common)) R x y = (v, common) := by
    intro prs
    induction prs with
    | nil => intro R x y; left; rfl
    | cons e prs ih =>
      intro R x y
      rw [List.foldl_cons]
      rcases ih (setCell R e.1.1 e.1.2 (e.2, common)) x y with h | ⟨v, hv, h⟩
      · by_cases hxy : x = e.1.1 ∧ y = e.1.2
        · right
          refine ⟨e.2, ?_, ?_⟩
          · obtain ⟨rfl, rfl⟩ := hxy; simp
          · rw [h]; simp [setCell, hxy]
        · left
          rw [h]; simp [setCell, hxy]
      · exact Or.inr ⟨v, by simp [hv], h⟩
  intro R x y _
  exact main prs R x y

theorem replTable_spec {g : G} {prs : List ((UInt8 × UInt8) × UInt8)} {freed news frees : List UInt8}
    (hc : Choice g prs freed news frees) {isNew : UInt8 → Bool} {repl : UInt8 → UInt8 × UInt8}
    {common : UInt8} (hn : ∀ c, isNew c = true ↔ c ∈ news ∨ c ∈ freed)
    (hr : ∀ c ∈ news, repl c = (c, c))
    (hs : ∀ c, isNew c = true → (repl c).1 ∈ g.specials ++ news ∧ (repl c).2 ∈ g.specials ++ news)
    (h1 : common ∉ g.specials ++ news) (h2 : common ∉ freed ++ frees) :
    TableOK g prs isNew repl common (replTable common prs freed news (freed.map repl)) := by
  have hne : ∀ c, isNew c = true → (repl c).1 ≠ common ∧ (repl c).2 ≠ common := by
    intro c hc'
    obtain ⟨m1, m2⟩ := hs c hc'
    exact ⟨fun he => h1 (he ▸ m1), fun he => h1 (he ▸ m2)⟩
  generalize hR1 : prs.foldl (fun R e => setCell R e.1.1 e.1.2 (e.2, common))
    (fun _ _ => (common, common)) = R1
  have hR1' : ∀ x y, R1 x y = (common, common) ∨ ∃ v, ((x, y), v) ∈ prs ∧ R1 x y = (v, common) := by
    intro x y
    rw [← hR1]
    exact setCell_fold common prs (fun _ _ => (common, common)) x y (Or.inl rfl)
  have hzip : (freed.zip (freed.map repl)).foldl (fun R e => setRow common R e.1 e.2) R1 =
      freed.foldl (fun R c => setRow common R c (repl c)) R1 := by
    have : ∀ (l : List UInt8) (R : Repl),
        (l.zip (l.map repl)).foldl (fun R e => setRow common R e.1 e.2) R =
        l.foldl (fun R c => setRow common R c (repl c)) R := by
      intro l
      induction l with
      | nil => intro R; rfl
      | cons c l ih => intro R; exact ih _
    exact this freed R1
  have hnews : ∀ R : Repl, news.foldl (fun R n => setRow common R n (n, n)) R =
      news.foldl (fun R n => setRow common R n (repl n)) R := by
    have : ∀ (l : List UInt8), (∀ c ∈ l, repl c = (c, c)) → ∀ R : Repl,
        l.foldl (fun R n => setRow common R n (n, n)) R =
        l.foldl (fun R n => setRow common R n (repl n)) R := by
      intro l
      induction l with
      | nil => intro _ R; rfl
      | cons c l ih =>
        intro hl R
        rw [List.foldl_cons, List.foldl_cons, ih (fun d hd => hl d (by simp [hd])),
          hl c (by simp)]
    exact this news hr
  have htab : ∀ x y, replTable common prs freed news (freed.map repl) x y =
      if x ∈ news ∧ ((freed.foldl (fun R c => setRow common R c (repl c)) R1) x y).1 = common then
        repl x else (freed.foldl (fun R c => setRow common R c (repl c)) R1) x y := by
    intro x y
    unfold replTable
    rw [hR1, hzip, hnews]
    exact setRow_fold common repl news (fun c hcn => (hne c ((hn c).mpr (Or.inl hcn))).1) _ x y
  have hrow : ∀ x y, (freed.foldl (fun R c => setRow common R c (repl c)) R1) x y =
      if x ∈ freed ∧ (R1 x y).1 = common then repl x else R1 x y :=
    setRow_fold common repl freed (fun c hcn => (hne c ((hn c).mpr (Or.inr hcn))).1) R1
  have hpair : ∀ x y, x ∈ freed ++ news ++ frees → R1 x y = (common, common) := by
    intro x y hx
    rcases hR1' x y with h | ⟨v, hv, _⟩
    · exact h
    · exact absurd hx (hc.pairs _ hv).2.2.1
  refine ⟨?_, ?_, fun e he => ⟨(hc.pairs e he).1, (hc.pairs e he).2.1⟩, ?_⟩
  · intro x y hx
    refine ⟨?_, hne x hx⟩
    rw [htab, hrow]
    rcases (hn x).mp hx with hm | hm
    · have hxf : x ∉ freed := by
        intro hf
        have := (List.nodup_append.mp (List.nodup_append.mp hc.nodup).1).2.2 x hf x hm
        exact this rfl
      have e1 : (if x ∈ freed ∧ (R1 x y).1 = common then repl x else R1 x y) = (common, common) := by
        rw [if_neg (fun h => hxf h.1), hpair x y (by simp [hm])]
      rw [e1, if_pos ⟨hm, rfl⟩]
    · have hxn : x ∉ news := by
        intro hf
        have := (List.nodup_append.mp (List.nodup_append.mp hc.nodup).1).2.2 x hm x hf
        exact this rfl
      rw [if_neg (fun h => hxn h.1), if_pos ⟨hm, by rw [hpair x y (by simp [hm])]⟩]
  · intro x y hx
    have hxn : ¬ (x ∈ news ∨ x ∈ freed) := by
      intro h
      rw [(hn x).mpr h] at hx
      cases hx
    rw [not_or] at hxn
    rw [htab, hrow, if_neg (fun h => hxn.1 h.1), if_neg (fun h => hxn.2 h.1)]
    rcases hR1' x y with h | ⟨v, hv, h⟩
    · exact Or.inl h
    · refine Or.inr ⟨v, hv, ?_, h⟩
      intro he
      apply h2
      rw [← hc.vars, ← he]
      exact List.mem_map_of_mem hv
  · intro c hcn hm
    rcases (hn c).mp hcn with h | h
    · exact hc.fresh c (by simp [h]) hm
    · exact hc.fresh c (by simp [h]) hm

/-- The text `data` with the grammar `g` stands for `orig`. -/
def Means (g : G) (data orig : List UInt8) : Prop :=
  ∃ ars toks t, OK g ars ∧ data = bytesOf toks ∧ (∀ k ∈ toks, KeyOK g k) ∧
    postTable g = some t ∧ toks.flatMap t = orig ∧ (g.rules = [] → data = orig) ∧ Listed g

theorem Means.start (data : List UInt8) : Means empty data data := by
  have hb : ∀ l : List UInt8, bytesOf (l.map Key.one) = l := by
    intro l
    induction l with
    | nil => rfl
    | cons c l ih => rw [List.map_cons, bytesOf_cons, ih]; rfl
  have hf : ∀ l : List UInt8, (l.map Key.one).flatMap baseTable = l := by
    intro l
    induction l with
    | nil => rfl
    | cons c l ih => rw [List.map_cons, List.flatMap_cons, ih]; rfl
  refine ⟨[], data.map Key.one, baseTable, OK.empty, (hb data).symm, ?_, ?_, hf data, fun _ => rfl, Listed.empty⟩
  · intro k hk
    obtain ⟨c, _, rfl⟩ := List.mem_map.mp hk
    simp [KeyOK, empty]
  · rfl

/-- The postprocessor recovers the text. -/
theorem Means.postprocess {g : G} {data orig : List UInt8} (h : Means g data orig) :
    postprocess g data = some orig := by
  obtain ⟨ars, toks, t, h1, h2, h3, h4, h5, h6, h7⟩ := h
  simp only [Grammar.postprocess, h4, Option.bind_eq_bind, Option.bind_some]
  by_cases hr : g.rules.length = 0
  · simp only [if_pos hr]
    rw [h6 (List.eq_nil_of_length_eq_zero hr)]
    rfl
  · simp only [if_neg hr]
    rw [h2, uncompress_keys, h5]
    exact fun k hk => KeyOK.readable h1 (h3 k hk)

/-- A plan that keeps the meaning of the text. -/
structure PlanOK (g : G) (data : List UInt8) (pl : Plan) : Prop where
  choice : pl.prs ≠ [] → Choice g pl.prs pl.freed pl.news pl.frees
  common1 : pl.prs ≠ [] → pl.common ∉ g.specials ++ pl.news
  common2 : pl.prs ≠ [] → pl.common ∉ pl.freed ++ pl.frees
  unused : ∀ c ∈ pl.frees, c ∉ data

theorem writeGo_const (c : UInt8) : ∀ (d : UInt8) (rest : List UInt8),
    writeGo (fun _ _ => (c, c)) c d rest = d :: rest := by
  intro d rest
  induction rest generalizing d with
  | nil => rw [writeGo.eq_def]; simp
  | cons e rest ih => rw [writeGo_noop (R := fun _ _ => (c, c)) rfl, ih]

/-- Rows of the table: a byte is escaped always or never. -/
def Uniform (R : Repl) (common : UInt8) : Prop :=
  ∀ c d, ((R c d).2 ≠ common ↔ (R c 0).2 ≠ common)

theorem TableOK.uniform {g : G} {prs : List ((UInt8 × UInt8) × UInt8)} {isNew : UInt8 → Bool}
    {repl : UInt8 → UInt8 × UInt8} {common : UInt8} {R : Repl}
    (h : TableOK g prs isNew repl common R) : Uniform R common := by
  intro c d
  cases hc : isNew c with
  | true => rw [(h.new c d hc).1, (h.new c 0 hc).1]
  | false =>
    have key : ∀ d, (R c d).2 = common := by
      intro d
      rcases h.old c d hc with hr | ⟨v, _, _, hr⟩ <;> rw [hr]
    rw [key d, key 0]

/-- One round with out-of-place writing. -/
theorem round_means {g : G} {data orig : List UInt8} (h : Means g data orig) {pl : Plan}
    (hp : PlanOK g data pl) {c : UInt8} {rest : List UInt8} (hd : data = c :: rest) :
    ∃ g' R, apply g pl = some (g', R) ∧ Means g' (writeGo R pl.common c rest) orig ∧
      Uniform R pl.common ∧ g'.rules.length = g.rules.length + pl.prs.length := by
  by_cases hprs : pl.prs = []
  · refine ⟨g, _, by rw [apply, if_pos hprs], ?_, fun c d => Iff.rfl, by rw [hprs]; rfl⟩
    rw [writeGo_const, ← hd]
    exact h
  · obtain ⟨ars, toks, t, h1, h2, h3, h4, h5, h6, h7⟩ := h
    have hch := hp.choice hprs
    obtain ⟨g', isNew, repl, u1, u2, u3, u4, u5, u6, u7, u8, t1, t2, v1, v2, v3, v4⟩ :=
      update_spec h1 hch
    rw [h4] at v1
    simp only [Option.some.injEq] at v1
    subst v1
    have htab := replTable_spec hch u3 u4 (by rw [← u6]; exact u5) (hp.common1 hprs)
      (hp.common2 hprs)
    have hfr : ∀ k ∈ toks, ∀ c ∈ pl.frees, k ≠ .one c := by
      intro k hk c' hc' he
      apply hp.unused c' hc'
      rw [h2]
      exact mem_bytesOf hk (by rw [he]; simp [Key.bytes])
    obtain ⟨e1, e2⟩ := enc_spec htab u7 u8 v3 v4 toks.length toks (Nat.le_refl _) h3 hfr
    refine ⟨g', replTable pl.common pl.prs pl.freed pl.news (pl.freed.map repl), ?_,
      ⟨_, _, t2, u2, ?_, e1, v2, e2.trans h5, ?_, h7.update h1 hch hprs (hp.common1 hprs) u1⟩, htab.uniform, ?_⟩
    · rw [apply, if_neg hprs, u1]
      rfl
    · exact writeGo_enc htab toks.length toks (Nat.le_refl _) h3 c rest (by rw [← h2, hd])
    · intro hr
      exfalso
      have := u2.rules_eq
      rw [hr] at this
      have := congrArg List.length this
      simp only [List.length_nil, List.length_map, List.length_append] at this
      apply hprs
      exact List.eq_nil_of_length_eq_zero (by omega)
    · rw [u2.rules_eq, h1.rules_eq]
      simp

end Bwtc.PairReplace
