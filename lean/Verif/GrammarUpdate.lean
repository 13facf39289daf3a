import Verif.GrammarStep

/-!
# One round of rules: the grammar stays well-formed and keeps its meaning
-/

set_option autoImplicit false

namespace Bwtc.Grammar

/-- The calls of `addRule` for a list of pairs with their variables (PairReplacer.cpp:293-294 inside
the loop 285-295). -/
def addRules (g : G) (prs : List ((UInt8 × UInt8) × UInt8)) : G :=
  prs.foldl (fun g e => addRule g e.2 e.1.1 e.1.2) g

/-- The calls on the grammar in `PairReplacer::constructReplacementTable`
(PairReplacer.cpp:281, 293-294, 297, 319). -/
def updateGrammar (g : G) (prs : List ((UInt8 × UInt8) × UInt8)) (freed news : List UInt8) :
    Option (G × List (UInt8 × UInt8)) := do
  let (g, next) ← expandAlphabet (addRules (beginUpdating g) prs) freed news
  return (endUpdating g (prs.map Prod.snd), next)

/-- The rule of a new variable. -/
def newRule (e : (UInt8 × UInt8) × UInt8) : Key × List Key :=
  (.one e.2, [.one e.1.1, .one e.1.2])

theorem addRules_spec (prs : List ((UInt8 × UInt8) × UInt8)) : ∀ g : G,
    (addRules g prs).rules = g.rules ++ (prs.map newRule).map toRule ∧
    (addRules g prs).newRules = g.newRules + prs.length ∧
    (addRules g prs).isSpecial = g.isSpecial ∧ (addRules g prs).isVariable = g.isVariable ∧
    (addRules g prs).specials = g.specials ∧ (addRules g prs).spr = g.spr ∧
    ∀ c, (addRules g prs).freqs c = g.freqs c +
      (((prs.map newRule).map toRule).flatMap ruleBytes).count c := by
  induction prs with
  | nil => intro g; simp [addRules]
  | cons e prs ih =>
    intro g
    have e0 : addRules g (e :: prs) = addRules (addRule g e.2 e.1.1 e.1.2) prs := rfl
    obtain ⟨h1, h2, h3, h4, h5, h6, h7⟩ := ih (addRule g e.2 e.1.1 e.1.2)
    rw [e0]
    refine ⟨?_, ?_, h3, h4, h5, h6, ?_⟩
    · rw [h1]; simp [addRule, newRule, toRule, bytesOf, Key.bytes]
    · rw [h2]; simp [addRule]; omega
    · intro c
      rw [h7]
      simp only [addRule, inc_apply, List.map_cons, List.flatMap_cons, List.count_append]
      have : (ruleBytes (toRule (newRule e))).count c =
          [e.2].count c + ([e.1.1].count c + [e.1.2].count c) := by
        simp only [ruleBytes, toRule, newRule, bytesOf, Key.bytes, List.flatMap_cons,
          List.flatMap_nil, List.append_nil, List.count_append]
      omega

theorem zipIdx_map_true {α β : Type} (f : Bool → α → β) (upd : Nat) (l : List α) (k : Nat)
    (h : k + l.length ≤ upd) :
    ((l.zipIdx k).map fun x => f (decide (x.2 < upd)) x.1) = l.map (f true) := by
  induction l generalizing k with
  | nil => rfl
  | cons a l ih =>
    simp only [List.length_cons] at h
    rw [List.zipIdx_cons, List.map_cons, List.map_cons, ih (k + 1) (by omega)]
    simp [show k < upd by omega]

theorem zipIdx_map_false {α β : Type} (f : Bool → α → β) (upd : Nat) (l : List α) (k : Nat)
    (h : upd ≤ k) :
    ((l.zipIdx k).map fun x => f (decide (x.2 < upd)) x.1) = l.map (f false) := by
  induction l generalizing k with
  | nil => rfl
  | cons a l ih =>
    rw [List.zipIdx_cons, List.map_cons, List.map_cons, ih (k + 1) (by omega)]
    simp [show ¬ k < upd by omega]

theorem setFn_fold (vars : List UInt8) : ∀ (f : UInt8 → Bool) (c : UInt8),
    vars.foldl (fun f v => setFn f v true) f c = (f c || decide (c ∈ vars)) := by
  induction vars with
  | nil => simp
  | cons v vars ih =>
    intro f c
    rw [List.foldl_cons, ih]
    simp only [setFn]
    by_cases h : c = v
    · subst h; simp
    · simp [h]

theorem mem_bytesOf {k : Key} {ks : List Key} {c : UInt8} (hk : k ∈ ks) (hc : c ∈ k.bytes) :
    c ∈ bytesOf ks := List.mem_flatMap.mpr ⟨k, hk, hc⟩

/-- The conditions on the symbols chosen in one round; `frees` occur neither in the grammar nor in
the text. -/
structure Choice (g : G) (prs : List ((UInt8 × UInt8) × UInt8)) (freed news frees : List UInt8) :
    Prop where
  vars : prs.map Prod.snd = freed ++ frees
  nodup : (freed ++ news ++ frees).Nodup
  fresh : ∀ c ∈ freed ++ news ++ frees, c ∉ g.specials
  pairs : ∀ e ∈ prs, e.1.1 ∉ g.specials ∧ e.1.2 ∉ g.specials ∧
    e.1.1 ∉ freed ++ news ++ frees ∧ e.1.2 ∉ freed ++ news ++ frees
  unused : ∀ c ∈ frees, c ∉ g.rules.flatMap ruleBytes
  enough : Enough freed.length news.length g.specials.length g.spr.length

theorem ren_inj {g g1 : G} {freed news : List UInt8}
    {st : Exp} (hs : ExpInv g1 freed news st) (e1 : g1.specials = g.specials)
    (e2 : g1.spr = g.spr) (k l : Key) (hk : KeyOK g k) (hl : KeyOK g l)
    (he : renKey st.isNew st.repl k = renKey st.isNew st.repl l) : k = l := by
  have key : ∀ c a b, st.isNew c = true → KeyOK g (.two a b) →
      Key.two (st.repl c).1 (st.repl c).2 ≠ .two a b := by
    intro c a b hc hab hcon
    simp only [Key.two.injEq] at hcon
    obtain ⟨i, hi1, hi2, hi3, _⟩ := hs.num c ((hs.isNew c).mp hc)
    obtain ⟨j, hj1, hj2⟩ := hab
    have hj3 : specialPair st.specials j = some (st.repl c) := by
      rw [hs.specials, e1, show st.repl c = (a, b) from Prod.ext hcon.1 hcon.2]
      exact specialPair_append _ hj2
    have := specialPair_inj hs.nodup hi3 hj3
    rw [e2] at hi1
    omega
  cases k with
  | one c =>
    cases l with
    | one d =>
      by_cases hc : st.isNew c = true
      · by_cases hd : st.isNew d = true
        · simp only [renKey, hc, hd, if_true, Key.two.injEq] at he
          obtain ⟨i, hi1, hi2, hi3, hi4⟩ := hs.num c ((hs.isNew c).mp hc)
          obtain ⟨j, hj1, hj2, hj3, hj4⟩ := hs.num d ((hs.isNew d).mp hd)
          rw [show st.repl d = st.repl c from Prod.ext he.1.symm he.2.symm] at hj3
          have := specialPair_inj hs.nodup hi3 hj3
          subst this
          rw [hi4] at hj4
          simp only [Option.some.injEq, Prod.mk.injEq] at hj4
          rw [hj4.2]
        · simp [renKey, hc, hd] at he
      · by_cases hd : st.isNew d = true
        · simp [renKey, hc, hd] at he
        · simpa [renKey, hc, hd] using he
    | two a b =>
      by_cases hc : st.isNew c = true
      · simp only [renKey, hc, if_true] at he
        exact absurd he (key c a b hc hl)
      · simp [renKey, hc] at he
  | two a b =>
    cases l with
    | one d =>
      by_cases hd : st.isNew d = true
      · simp only [renKey, hd, if_true] at he
        exact absurd he.symm (key d a b hd hk)
      · simp [renKey, hd] at he
    | two a' b' => simpa [renKey] using he

theorem ordered_rename (ren : Key → Key) (V : Key → Prop)
    (inj : ∀ k l, V k → V l → ren k = ren l → k = l) (rs : List (Key × List Key))
    (hV : ∀ r ∈ rs, V r.1 ∧ ∀ k ∈ r.2, V k) (ho : Ordered rs) :
    Ordered (rs.map fun r => (ren r.1, r.2.map ren)) := by
  induction rs with
  | nil => trivial
  | cons r rs ih =>
    refine ⟨?_, ih (fun r' hr' => hV r' (by simp [hr'])) ho.2⟩
    intro k hk hc
    simp only at hk
    obtain ⟨k0, hk0, rfl⟩ := List.mem_map.mp hk
    apply ho.1 k0 hk0
    rw [← List.map_cons (f := fun r : Key × List Key => (ren r.1, r.2.map ren)), List.map_map] at hc
    obtain ⟨q, hq, he⟩ := List.mem_map.mp hc
    simp only [Function.comp_apply] at he
    have := inj _ _ (hV q hq).1 ((hV r (by simp)).2 k0 hk0) he
    rw [← this]
    exact List.mem_map_of_mem hq

theorem ordered_append (rs ss : List (Key × List Key)) (h1 : Ordered rs) (h2 : Ordered ss)
    (h3 : ∀ r ∈ rs, ∀ k ∈ r.2, k ∉ ss.map Prod.fst) : Ordered (rs ++ ss) := by
  induction rs with
  | nil => exact h2
  | cons r rs ih =>
    refine ⟨?_, ih h1.2 (fun r' hr' => h3 r' (by simp [hr']))⟩
    intro k hk hc
    have hc' : k = r.1 ∨ k ∈ rs.map Prod.fst ∨ k ∈ ss.map Prod.fst := by
      have hc2 : k ∈ r.1 :: (rs ++ ss).map Prod.fst := hc
      rwa [List.mem_cons, List.map_append, List.mem_append] at hc2
    rcases hc' with hc | hc | hc
    · exact h1.1 k hk (by rw [hc]; simp)
    · exact h1.1 k hk (by rw [List.map_cons, List.mem_cons]; exact Or.inr hc)
    · exact h3 r (by simp) k hk hc

theorem ordered_new (ss : List (Key × List Key)) (h : ∀ r ∈ ss, ∀ k ∈ r.2, k ∉ ss.map Prod.fst) :
    Ordered ss := by
  induction ss with
  | nil => trivial
  | cons r ss ih =>
    refine ⟨h r (by simp), ih ?_⟩
    intro q hq k hk hc
    exact h q (by simp [hq]) k hk (by rw [List.map_cons, List.mem_cons]; exact Or.inr hc)

/-- What one round does to the grammar. -/
theorem update_spec {g : G} {ars : List (Key × List Key)} (h : OK g ars)
    {prs : List ((UInt8 × UInt8) × UInt8)} {freed news frees : List UInt8}
    (hc : Choice g prs freed news frees) :
    ∃ g' isNew repl, updateGrammar g prs freed news = some (g', freed.map repl) ∧
      OK g' ((ars.map fun r => (renKey isNew repl r.1, r.2.map (renKey isNew repl))) ++
        prs.map newRule) ∧
      (∀ c, isNew c = true ↔ c ∈ news ∨ c ∈ freed) ∧ (∀ c ∈ news, repl c = (c, c)) ∧
      (∀ c, isNew c = true → (repl c).1 ∈ g'.specials ∧ (repl c).2 ∈ g'.specials) ∧
      g'.specials = g.specials ++ news ∧
      (∀ k, KeyOK g k → KeyOK g' (renKey isNew repl k)) ∧
      (∀ e ∈ prs, KeyOK g' (.one e.2)) ∧
      ∃ t t', postTable g = some t ∧ postTable g' = some t' ∧
        (∀ k, KeyOK g k → (∀ c ∈ frees, k ≠ .one c) → t' (renKey isNew repl k) = t k) ∧
        ∀ e ∈ prs, t' (.one e.2) = t (.one e.1.1) ++ t (.one e.1.2) := by
  obtain ⟨r1, r2, r3, r4, r5, r6, r7⟩ := addRules_spec prs (beginUpdating g)
  generalize hg1 : addRules (beginUpdating g) prs = g1 at r1 r2 r3 r4 r5 r6 r7
  simp only [beginUpdating] at r1 r2 r3 r4 r5 r6 r7
  rw [Nat.zero_add] at r2
  obtain ⟨nd1, nd2, nd3⟩ := List.nodup_append.mp hc.nodup
  obtain ⟨nd4, nd5, nd6⟩ := List.nodup_append.mp nd1
  have hstart : ExpInv g1 [] [] (Exp.start g1) := by
    apply ExpInv.start
    · rw [r5]; exact h.nodup
    · rw [r5, r6]; exact h.le
    · rw [r5, r6]; have := h.ge; omega
    · rw [r5, r6]; exact h.squares
  obtain ⟨st, s1, s2, s3, s4⟩ := expandLoop_spec g1 freed news [] [] (Exp.start g1) hstart
    (by simpa using nd1)
    (by intro c hcn; simp only [Exp.start]; rw [r5]; exact hc.fresh c (by simp [hcn]))
    (by intro c hcn; simp only [Exp.start]; rw [r5]; exact hc.fresh c (by simp [hcn]))
    (by simp only [Exp.start]; rw [r5, r6]; exact hc.enough)
  simp only [List.nil_append] at s2
  -- the rules
  have hcnt : ∀ c, (g1.rules.flatMap ruleBytes).count c = g1.freqs c := by
    intro c
    rw [r7, r1, List.flatMap_append, List.count_append, ← h.freq c]
  obtain ⟨f', f1, f2⟩ := renameRule_fold st.isNew st.repl (g1.rules.length - g1.newRules) g1.rules 0
    g1.freqs [] (fun c => Nat.le_of_eq (hcnt c))
  have hupd : g1.rules.length - g1.newRules = g.rules.length := by
    rw [r1, r2]; simp
  have hren : ((g1.rules.zipIdx 0).map fun ri => renRule st.isNew st.repl
      (decide (ri.2 < g1.rules.length - g1.newRules)) ri.1) =
      g.rules.map (renRule st.isNew st.repl true) ++
        ((prs.map newRule).map toRule).map (renRule st.isNew st.repl false) := by
    rw [hupd, r1, List.zipIdx_append, List.map_append]
    congr 1
    · exact zipIdx_map_true (renRule st.isNew st.repl) _ _ _ (by omega)
    · exact zipIdx_map_false (renRule st.isNew st.repl) _ _ _ (by omega)
  have hnewspec : ∀ c, c ∈ news ∨ c ∈ freed → c ∉ g.specials := by
    intro c hcn
    rcases hcn with hcn | hcn
    · exact hc.fresh c (by simp [hcn])
    · exact hc.fresh c (by simp [hcn])
  have hnn : ∀ c, c ∉ news → c ∉ freed → st.isNew c = false := by
    intro c h1 h2
    cases hcc : st.isNew c with
    | false => rfl
    | true =>
      rcases (s2.isNew c).mp hcc with h3 | h3
      · exact absurd h3 h1
      · exact absurd h3 h2
  have hold : g.rules.map (renRule st.isNew st.repl true) =
      (ars.map fun r => (renKey st.isNew st.repl r.1,
        r.2.map (renKey st.isNew st.repl))).map toRule := by
    rw [h.rules_eq, List.map_map, List.map_map]
    apply List.map_congr_left
    intro a ha
    simp only [Function.comp_apply, renRule, toRule, if_true]
    rw [renBytes_keys]
    intro x y hxy
    obtain ⟨i, _, hi⟩ := (h.keys a ha).2.2 _ hxy
    obtain ⟨m1, m2⟩ := specialPair_mem hi
    refine ⟨hnn x ?_ ?_, hnn y ?_ ?_⟩
    · exact fun hm => hnewspec x (Or.inl hm) m1
    · exact fun hm => hnewspec x (Or.inr hm) m1
    · exact fun hm => hnewspec y (Or.inl hm) m2
    · exact fun hm => hnewspec y (Or.inr hm) m2
  have hpn : ∀ e ∈ prs, st.isNew e.1.1 = false ∧ st.isNew e.1.2 = false := by
    intro e he
    obtain ⟨_, _, p3, p4⟩ := hc.pairs e he
    simp only [List.mem_append, not_or] at p3 p4
    exact ⟨hnn _ p3.1.2 p3.1.1, hnn _ p4.1.2 p4.1.1⟩
  have hnew : ((prs.map newRule).map toRule).map (renRule st.isNew st.repl false) =
      (prs.map newRule).map toRule := by
    rw [List.map_map, List.map_map, List.map_map]
    apply List.map_congr_left
    intro e he
    obtain ⟨p1, p2⟩ := hpn e he
    simp [renRule, toRule, newRule, bytesOf, Key.bytes, renBytes, p1, p2]
  rw [hren, hold, hnew, ← List.map_append] at f1 f2
  -- the new grammar
  generalize hars' : (ars.map fun r => (renKey st.isNew st.repl r.1,
        r.2.map (renKey st.isNew st.repl))) ++ prs.map newRule = ars' at f1 f2
  have hexp : updateGrammar g prs freed news =
      some (endUpdating ⟨f', st.isSpecial, st.isVariable, st.specials, st.spr,
        ars'.map toRule, g1.newRules⟩ (prs.map Prod.snd), freed.map st.repl) := by
    simp only [updateGrammar, hg1, expandAlphabet]
    have : expandLoop freed news ⟨g1.isSpecial, g1.isVariable, g1.specials, g1.spr,
      fun _ => false, fun _ => (0, 0), []⟩ = some st := s1
    rw [this]
    simp only [Option.bind_eq_bind, Option.bind_some]
    rw [if_neg (by rw [r1, r2]; simp)]
    simp only [f1, Option.bind_some, List.nil_append, Option.pure_def, s2.next]
  have hspec' : st.specials = g.specials ++ news := by rw [s2.specials, r5]
  have hsprlen := s2.length
  rw [r6] at hsprlen
  have hpre := s2.pre
  rw [r6] at hpre
  have hprei : ∀ i, i < g.spr.length → st.spr[i]? = g.spr[i]? := by
    intro i hi
    conv => rhs; rw [← hpre]
    rw [List.getElem?_take, if_pos hi]
  obtain ⟨g', hg'⟩ : ∃ g', g' = endUpdating ⟨f', st.isSpecial, st.isVariable, st.specials, st.spr,
        ars'.map toRule, g1.newRules⟩ (prs.map Prod.snd) := ⟨_, rfl⟩
  have q1 : g'.rules = ars'.map toRule := by rw [hg']; rfl
  have q2 : g'.isSpecial = st.isSpecial := by rw [hg']; rfl
  have q3 : g'.specials = st.specials := by rw [hg']; rfl
  have q4 : g'.spr = st.spr := by rw [hg']; rfl
  have q5 : g'.freqs = f' := by rw [hg']; rfl
  have q6 : ∀ c, g'.isVariable c = (g.isVariable c || decide (c ∈ freed) ||
      decide (c ∈ freed ++ frees)) := by
    intro c
    rw [hg']
    simp only [endUpdating]
    rw [setFn_fold, s2.isVariable, r4, hc.vars]
  rw [← hg'] at hexp
  have inj := ren_inj s2 r5 r6
  have hKold : ∀ k, KeyOK g k → KeyOK g' (renKey st.isNew st.repl k) := by
    intro k hk
    cases k with
    | one c =>
      by_cases hcn : st.isNew c = true
      · simp only [renKey, hcn, if_true, KeyOK]
        obtain ⟨i, _, i2, i3, _⟩ := s2.num c ((s2.isNew c).mp hcn)
        exact ⟨i, by rw [q4]; exact i2, by rw [q3]; exact i3⟩
      · have hcn' : st.isNew c = false := by simpa using hcn
        simp only [renKey, hcn', KeyOK] at hk ⊢
        rw [if_neg (by simp)]
        simp only
        rw [q3, hspec', List.mem_append, not_or]
        exact ⟨hk, fun hm => hcn ((s2.isNew c).mpr (Or.inl hm))⟩
    | two a b =>
      obtain ⟨i, hi, hi2⟩ := hk
      refine ⟨i, by rw [q4]; omega, ?_⟩
      rw [q3, hspec']
      exact specialPair_append _ hi2
  have hvar : ∀ e ∈ prs, e.2 ∈ freed ++ frees := by
    intro e he
    rw [← hc.vars]
    exact List.mem_map_of_mem he
  have hKnew : ∀ e ∈ prs, KeyOK g' (.one e.2) := by
    intro e he
    have hm := hvar e he
    simp only [KeyOK]
    rw [q3, hspec', List.mem_append, not_or]
    refine ⟨hc.fresh _ ?_, ?_⟩
    · rcases List.mem_append.mp hm with hm | hm <;> simp [hm]
    · intro hn
      rcases List.mem_append.mp hm with hm | hm
      · exact nd6 _ hm _ hn rfl
      · exact nd3 _ (by simp [hn]) _ hm rfl
  have hKpair : ∀ e ∈ prs, KeyOK g (.one e.1.1) ∧ KeyOK g (.one e.1.2) := by
    intro e he
    obtain ⟨p1, p2, _, _⟩ := hc.pairs e he
    exact ⟨p1, p2⟩
  have hrenpair : ∀ e ∈ prs, renKey st.isNew st.repl (.one e.1.1) = .one e.1.1 ∧
      renKey st.isNew st.repl (.one e.1.2) = .one e.1.2 := by
    intro e he
    obtain ⟨p1, p2⟩ := hpn e he
    exact ⟨by simp [renKey, p1], by simp [renKey, p2]⟩
  -- keys used by the old grammar are not free
  have husedk : ∀ a ∈ ars, ∀ k, k = a.1 ∨ k ∈ a.2 → ∀ c ∈ frees, k ≠ .one c := by
    intro a ha k hk c hcf he
    apply hc.unused c hcf
    rw [h.rules_eq, List.mem_flatMap]
    refine ⟨toRule a, List.mem_map_of_mem ha, ?_⟩
    rw [ruleBytes, List.mem_append]
    rcases hk with rfl | hk
    · left; simp only [toRule]; rw [he]; simp [Key.bytes]
    · right; exact mem_bytesOf hk (by rw [he]; simp [Key.bytes])
  -- renamed keys are not new variables
  have hnotnew : ∀ k, (∀ c ∈ frees, k ≠ .one c) →
      renKey st.isNew st.repl k ∉ (prs.map newRule).map Prod.fst := by
    intro k hk hm
    rw [List.map_map] at hm
    obtain ⟨e, he, hke⟩ := List.mem_map.mp hm
    simp only [Function.comp_apply, newRule] at hke
    cases k with
    | two a b => simp [renKey] at hke
    | one c =>
      by_cases hcn : st.isNew c = true
      · simp [renKey, hcn] at hke
      · simp only [renKey, hcn] at hke
        simp only [Bool.false_eq_true, if_false, Key.one.injEq] at hke
        rcases List.mem_append.mp (hvar e he) with hv | hv
        · exact hcn ((s2.isNew c).mpr (Or.inr (hke ▸ hv)))
        · exact hk e.2 hv (by rw [hke])
  have hnewfst : (prs.map newRule).map Prod.fst = (freed ++ frees).map Key.one := by
    rw [← hc.vars, List.map_map, List.map_map]
    rfl
  have hnewnd : ((prs.map newRule).map Prod.fst).Nodup := by
    rw [hnewfst]
    unfold List.Nodup
    rw [List.pairwise_map]
    have : (freed ++ frees).Nodup := by
      rw [List.nodup_append]
      exact ⟨nd4, nd2, fun a ha b hb => nd3 a (by simp [ha]) b hb⟩
    exact List.Pairwise.imp (fun hab hcon => hab (by simpa using hcon)) this
  have hnewrhs : ∀ r ∈ prs.map newRule, ∀ k ∈ r.2, k ∉ (prs.map newRule).map Prod.fst := by
    intro r hr k hk hm
    obtain ⟨e, he, rfl⟩ := List.mem_map.mp hr
    rw [hnewfst] at hm
    obtain ⟨v, hv, hvk⟩ := List.mem_map.mp hm
    obtain ⟨_, _, p3, p4⟩ := hc.pairs e he
    have hv' : v ∈ freed ++ news ++ frees := by
      rcases List.mem_append.mp hv with hv | hv <;> simp [hv]
    simp only [newRule, List.mem_cons, List.not_mem_nil, or_false] at hk
    rcases hk with hk | hk
    · rw [hk] at hvk
      simp only [Key.one.injEq] at hvk
      exact p3 (hvk ▸ hv')
    · rw [hk] at hvk
      simp only [Key.one.injEq] at hvk
      exact p4 (hvk ▸ hv')
  have hVars : ∀ r ∈ ars, KeyOK g r.1 ∧ ∀ k ∈ r.2, KeyOK g k :=
    fun r hr => ⟨(h.keys r hr).1, (h.keys r hr).2.2⟩
  have hlhs_mem : ∀ k, k ∈ ars'.map Prod.fst ↔
      (∃ l ∈ ars.map Prod.fst, k = renKey st.isNew st.repl l) ∨ ∃ v ∈ freed ++ frees, k = .one v := by
    intro k
    rw [← hars', List.map_append, List.mem_append, hnewfst, List.map_map]
    constructor
    · rintro (hm | hm)
      · obtain ⟨a, ha, rfl⟩ := List.mem_map.mp hm
        exact Or.inl ⟨a.1, List.mem_map_of_mem ha, rfl⟩
      · obtain ⟨v, hv, rfl⟩ := List.mem_map.mp hm
        exact Or.inr ⟨v, hv, rfl⟩
    · rintro (⟨l, hl, rfl⟩ | ⟨v, hv, rfl⟩)
      · left
        obtain ⟨a, ha, rfl⟩ := List.mem_map.mp hl
        exact List.mem_map.mpr ⟨a, ha, rfl⟩
      · exact Or.inr (List.mem_map_of_mem hv)
  have hlhsK : ∀ l ∈ ars.map Prod.fst, KeyOK g l := by
    intro l hl
    obtain ⟨a, ha, rfl⟩ := List.mem_map.mp hl
    exact (hVars a ha).1
  have hOK : OK g' ars' := by
    refine ⟨q1, ?_, ?_, ?_, ?_, ?_, ?_, ?_, ?_, ?_, ?_, ?_⟩
    · intro c
      rw [q2, q3, s2.isSpecial, hspec', r3, List.mem_append, ← h.spec c]
      simp
    · rw [q3]; exact s2.nodup
    · rw [q3, q4]; exact s2.le
    · rw [q3, q4]
      by_cases hfe : freed = []
      · have hn0 : news = [] := by
          apply Decidable.byContradiction
          intro hne
          have hpos := List.length_pos_iff.mpr hne
          have h1 := hc.enough.2 hpos
          have h2 := sq_add_le g.specials.length (news.length - 1)
          rw [show g.specials.length + (news.length - 1) =
            g.specials.length + news.length - 1 by omega] at h2
          have := h.le
          rw [hfe] at h1
          simp only [List.length_nil] at h1
          omega
        rw [hspec', hn0, List.append_nil]
        have := h.ge
        omega
      · exact Or.inr (s4 hfe)
    · rw [q3, q4]; exact s2.squares
    · intro c
      rw [q5, q1]
      have := f2 c
      rw [hcnt c] at this
      omega
    · intro a ha
      rw [← hars', List.mem_append] at ha
      rcases ha with ha | ha
      · obtain ⟨a0, ha0, rfl⟩ := List.mem_map.mp ha
        obtain ⟨k1, k2, k3⟩ := h.keys a0 ha0
        refine ⟨hKold _ k1, by simpa using k2, ?_⟩
        intro k hk
        obtain ⟨k0, hk0, rfl⟩ := List.mem_map.mp hk
        exact hKold _ (k3 k0 hk0)
      · obtain ⟨e, he, rfl⟩ := List.mem_map.mp ha
        refine ⟨hKnew e he, rfl, ?_⟩
        intro k hk
        simp only [newRule, List.mem_cons, List.not_mem_nil, or_false] at hk
        obtain ⟨p1, p2⟩ := hrenpair e he
        rcases hk with rfl | rfl
        · have := hKold _ (hKpair e he).1; rwa [p1] at this
        · have := hKold _ (hKpair e he).2; rwa [p2] at this
    · rw [← hars', List.map_append, List.nodup_append]
      refine ⟨?_, hnewnd, ?_⟩
      · rw [List.map_map]
        unfold List.Nodup
        rw [List.pairwise_map]
        have := h.lhs_nodup
        unfold List.Nodup at this
        rw [List.pairwise_map] at this
        refine List.Pairwise.imp_of_mem ?_ this
        intro a b ha hb hab hcon
        exact hab (inj _ _ (hVars a ha).1 (hVars b hb).1 hcon)
      · intro a ha b hb hab
        rw [List.map_map] at ha
        obtain ⟨a0, ha0, rfl⟩ := List.mem_map.mp ha
        exact hnotnew a0.1 (husedk a0 ha0 _ (Or.inl rfl)) (by
          simp only [Function.comp_apply] at hab; rw [hab]; exact hb)
    · rw [← hars']
      apply ordered_append
      · exact ordered_rename _ (KeyOK g) inj ars hVars h.ordered
      · exact ordered_new _ hnewrhs
      · intro r hr k hk
        obtain ⟨a, ha, rfl⟩ := List.mem_map.mp hr
        obtain ⟨k0, hk0, rfl⟩ := List.mem_map.mp hk
        exact hnotnew k0 (husedk a ha k0 (Or.inr hk0))
    · intro c hcs
      rw [q3, hspec', List.mem_append, not_or] at hcs
      rw [q6, hlhs_mem]
      simp only [Bool.or_eq_true, decide_eq_true_eq]
      rw [h.var c hcs.1]
      constructor
      · rintro ((hm | hm) | hm)
        · by_cases hcf : c ∈ freed
          · exact Or.inr ⟨c, by simp [hcf], rfl⟩
          · left
            refine ⟨.one c, hm, ?_⟩
            simp [renKey, hnn c hcs.2 hcf]
        · exact Or.inr ⟨c, by simp [hm], rfl⟩
        · exact Or.inr ⟨c, hm, rfl⟩
      · rintro (⟨l, hl, hce⟩ | ⟨v, hv, hce⟩)
        · left; left
          cases l with
          | two a b => simp [renKey] at hce
          | one d =>
            by_cases hdn : st.isNew d = true
            · simp [renKey, hdn] at hce
            · simp only [renKey, hdn] at hce
              simp only [Bool.false_eq_true, if_false, Key.one.injEq] at hce
              rw [hce]; exact hl
        · right
          simp only [Key.one.injEq] at hce
          rw [hce]; exact hv
    · intro i b c p hi hp hsq
      rw [q4] at hi
      rw [q3] at hp
      rw [hlhs_mem]
      by_cases hio : i < g.spr.length
      · rw [hprei i hio] at hi
        obtain ⟨p', hp'⟩ := specialPair_isSome (sp := g.specials) (i := i) (by
          have := h.le; omega)
        have hpp : p' = p := by
          have := specialPair_append news hp'
          rw [← hspec', hp] at this
          simpa using this.symm
        subst hpp
        rw [h.entries i b c p' hi hp' hsq]
        have hKp : KeyOK g (.two p'.1 p'.2) := ⟨i, hio, hp'⟩
        constructor
        · intro hm
          exact Or.inl ⟨_, hm, rfl⟩
        · rintro (⟨l, hl, hce⟩ | ⟨v, hv, hce⟩)
          · have : Key.two p'.1 p'.2 = l := inj _ _ hKp (hlhsK l hl) hce
            rw [this]; exact hl
          · cases hce
      · obtain ⟨x, hx, hx3, hx4⟩ := s2.back i (by rw [r6]; omega)
          (List.getElem?_eq_some_iff.mp hi).1
        rw [hp] at hx3
        simp only [Option.some.injEq] at hx3
        rw [hi] at hx4
        simp only [Option.some.injEq, Prod.mk.injEq] at hx4
        obtain ⟨hb, rfl⟩ := hx4
        have hct : c ∉ news := by
          intro hm
          have h2 := s2.special2 c hm
          rw [← hx3] at h2
          obtain ⟨k, hk⟩ := List.getElem?_of_mem (show c ∈ st.specials by
            rw [hspec']; simp [hm])
          have h4 := specialPair_number hk hk
          rw [← h2] at h4
          have := specialPair_inj s2.nodup hp h4
          rw [numberOfSpecialPair, if_pos rfl] at this
          exact hsq k this
        have hcf : c ∈ freed := by
          rcases hx with hx | hx
          · exact absurd hx hct
          · exact hx
        have hcs := hnewspec c (Or.inr hcf)
        rw [hb, r4]
        simp only [hct, not_false_eq_true, decide_true, Bool.true_and]
        rw [h.var c hcs]
        have hisn : st.isNew c = true := (s2.isNew c).mpr (Or.inr hcf)
        have hrc : renKey st.isNew st.repl (.one c) = .two p.1 p.2 := by
          simp [renKey, hisn, hx3]
        constructor
        · intro hm
          exact Or.inl ⟨_, hm, hrc.symm⟩
        · rintro (⟨l, hl, hce⟩ | ⟨v, hv, hce⟩)
          · have : Key.one c = l := inj _ _ hcs (hlhsK l hl) (hrc.trans hce)
            rw [this]; exact hl
          · cases hce
  refine ⟨g', st.isNew, st.repl, hexp, ?_, s2.isNew, s2.special2, ?_, ?_, hKold, hKnew, ?_⟩
  · rw [hars']; exact hOK
  · intro c hcn
    obtain ⟨i, _, _, i3, _⟩ := s2.num c ((s2.isNew c).mp hcn)
    rw [q3]
    exact specialPair_mem i3
  · rw [q3, hspec']
  · obtain ⟨t0, _, a2, a3, a4⟩ := h.postTable
    obtain ⟨t0', _, b2, b3, b4⟩ := hOK.postTable
    refine ⟨_, _, a4, b4, ?_⟩
    rw [← hars', evalRules_append]
    obtain ⟨n1, n2⟩ := evalRules_new (prs.map newRule) hnewnd hnewrhs
      (evalRules t0' (ars.map fun r => (renKey st.isNew st.repl r.1,
        r.2.map (renKey st.isNew st.repl))))
    have hrel : ∀ k, KeyOK g k → evalRules t0' (ars.map fun r => (renKey st.isNew st.repl r.1,
        r.2.map (renKey st.isNew st.repl))) (renKey st.isNew st.repl k) = evalRules t0 ars k := by
      intro k hk
      apply evalRules_rename _ (KeyOK g) inj ars hVars h.ordered _ _ _ k hk
      intro l hl hnl
      cases l with
      | one c =>
        by_cases hcn : st.isNew c = true
        · simp only [renKey, hcn, if_true]
          obtain ⟨i, _, i2, i3, i4⟩ := s2.num c ((s2.isNew c).mp hcn)
          rw [a2]
          apply b3 i c (st.repl c)
          · rw [q4, i4]
            have hv : g.isVariable c = false := by
              cases hcv : g.isVariable c with
              | false => rfl
              | true => exact absurd ((h.var c hl).mp hcv) hnl
            rw [r4, hv]; simp
          · rw [q3]; exact i3
        · simp only [renKey, hcn]
          simp only [Bool.false_eq_true, if_false]
          rw [a2, b2]
      | two a b =>
        obtain ⟨i, hi, hi2⟩ := hl
        simp only [renKey]
        have hip : specialPair g'.specials i = some (a, b) := by
          rw [q3, hspec']; exact specialPair_append _ hi2
        have hent : g.spr[i]? = some (false, (g.spr[i]).2) := by
          rw [List.getElem?_eq_getElem hi]
          by_cases hsq : ∃ k, i = k * k
          · obtain ⟨k, hk⟩ := hsq
            have hkl : k < g.specials.length := by
              apply Decidable.byContradiction
              intro hcon
              have := Nat.mul_le_mul (Nat.le_of_not_lt hcon) (Nat.le_of_not_lt hcon)
              have := h.le
              omega
            have h6 := h.squares k _ (List.getElem?_eq_getElem hkl)
            rw [← hk, List.getElem?_eq_getElem hi] at h6
            simp only [Option.some.injEq] at h6
            rw [h6]
          · have h6 := h.entries i (g.spr[i]).1 (g.spr[i]).2 (a, b)
              (List.getElem?_eq_getElem hi) hi2 (fun k hk => hsq ⟨k, hk⟩)
            have : (g.spr[i]).1 = false := by
              cases hbb : (g.spr[i]).1 with
              | false => rfl
              | true => exact absurd (h6.mp hbb) hnl
            rw [← this]
        rw [a3 i _ (a, b) hent hi2, b3 i _ (a, b) (by rw [q4, hprei i hi]; exact hent) hip]
    refine ⟨?_, ?_⟩
    · intro k hk hkf
      rw [n1 _ (hnotnew k hkf)]
      exact hrel k hk
    · intro e he
      have := n2 (newRule e) (List.mem_map_of_mem he)
      simp only [newRule, List.flatMap_cons, List.flatMap_nil, List.append_nil] at this
      rw [this]
      obtain ⟨p1, p2⟩ := hrenpair e he
      have h1 := hrel _ (hKpair e he).1
      have h2 := hrel _ (hKpair e he).2
      rw [p1] at h1
      rw [p2] at h2
      rw [h1, h2]

end Bwtc.Grammar
