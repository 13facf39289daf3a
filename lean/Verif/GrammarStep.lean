import Verif.GrammarExpand

/-!
# Adding the rules of one round to a grammar

The invariant of grammars, and what adding rules and freeing symbols does to the meaning of keys.
-/

set_option autoImplicit false

namespace Bwtc.Grammar

/-! ## Renaming -/

/-- The bytes a byte is replaced with. -/
def renBytes (isNew : UInt8 → Bool) (repl : UInt8 → UInt8 × UInt8) (c : UInt8) : List UInt8 :=
  if isNew c then [(repl c).1, (repl c).2] else [c]

/-- The key a key is replaced with. -/
def renKey (isNew : UInt8 → Bool) (repl : UInt8 → UInt8 × UInt8) : Key → Key
  | .one c => if isNew c then .two (repl c).1 (repl c).2 else .one c
  | .two a b => .two a b

theorem inc_apply (f : UInt8 → Nat) (c d : UInt8) : inc f c d = f d + [c].count d := by
  simp only [inc, setFn]
  by_cases h : d = c
  · subst h; simp
  · rw [if_neg h, List.count_singleton]
    have : (c == d) = false := by simpa using fun e => h e.symm
    simp [this]

theorem dec_spec {f : UInt8 → Nat} {c : UInt8} (h : 0 < f c) :
    ∃ f', dec f c = some f' ∧ ∀ d, f' d + [c].count d = f d := by
  refine ⟨setFn f c (f c - 1), by rw [dec, if_neg (by omega)], ?_⟩
  intro d
  simp only [setFn]
  by_cases h' : d = c
  · subst h'; simp; omega
  · rw [if_neg h', List.count_singleton]
    have : (c == d) = false := by simpa using fun e => h' e.symm
    simp [this]

theorem renameByte_fold (isNew : UInt8 → Bool) (repl : UInt8 → UInt8 × UInt8) (l : List UInt8) :
    ∀ (f : UInt8 → Nat) (acc : List UInt8), (∀ c, l.count c ≤ f c) →
      ∃ f', l.foldlM (renameByte isNew repl) (f, acc) =
          some (f', acc ++ l.flatMap (renBytes isNew repl)) ∧
        ∀ c, f' c + l.count c = f c + (l.flatMap (renBytes isNew repl)).count c := by
  induction l with
  | nil => intro f acc _; exact ⟨f, by simp, by simp⟩
  | cons a l ih =>
    intro f acc hf
    have hcons : ∀ c, (a :: l).count c = [a].count c + l.count c := by
      intro c
      rw [← List.count_append]; rfl
    rw [List.foldlM_cons]
    by_cases ha : isNew a = true
    · obtain ⟨f1, h1, h2⟩ := dec_spec (f := f) (c := a) (by
        have := hf a; rw [hcons] at this; simp at this; omega)
      have hstep : renameByte isNew repl (f, acc) a =
          some (inc (inc f1 (repl a).1) (repl a).2, acc ++ [(repl a).1, (repl a).2]) := by
        simp [renameByte, ha, h1]
      rw [hstep]
      simp only [Option.bind_eq_bind, Option.bind_some]
      have hfn : ∀ c, inc (inc f1 (repl a).1) (repl a).2 c + [a].count c =
          f c + ([(repl a).1, (repl a).2] : List UInt8).count c := by
        intro c
        rw [inc_apply, inc_apply]
        have := h2 c
        have e : ([(repl a).1, (repl a).2] : List UInt8).count c =
            [(repl a).1].count c + [(repl a).2].count c := by
          rw [← List.count_append]; rfl
        omega
      obtain ⟨f', e1, e2⟩ := ih (inc (inc f1 (repl a).1) (repl a).2)
        (acc ++ [(repl a).1, (repl a).2]) (by
          intro c
          have := hf c
          rw [hcons] at this
          have := hfn c
          omega)
      refine ⟨f', ?_, ?_⟩
      · rw [e1]; simp [renBytes, ha]
      · intro c
        have h3 := hfn c
        have h4 := e2 c
        rw [hcons, List.flatMap_cons, List.count_append]
        have : renBytes isNew repl a = [(repl a).1, (repl a).2] := by simp [renBytes, ha]
        rw [this]
        omega
    · have hstep : renameByte isNew repl (f, acc) a = some (f, acc ++ [a]) := by
        simp [renameByte, ha]
      rw [hstep]
      simp only [Option.bind_eq_bind, Option.bind_some]
      obtain ⟨f', e1, e2⟩ := ih f (acc ++ [a]) (by
          intro c
          have := hf c
          rw [hcons] at this
          omega)
      refine ⟨f', ?_, ?_⟩
      · rw [e1]; simp [renBytes, ha]
      · intro c
        have h4 := e2 c
        rw [hcons, List.flatMap_cons, List.count_append]
        have : renBytes isNew repl a = [a] := by simp [renBytes, ha]
        rw [this]
        omega

theorem renameLhs_spec (isNew : UInt8 → Bool) (repl : UInt8 → UInt8 × UInt8) (upd : Bool)
    (f : UInt8 → Nat) (k : Key) (hf : ∀ c, k.bytes.count c ≤ f c) :
    ∃ f', renameLhs isNew repl upd f k = some (f', if upd then renKey isNew repl k else k) ∧
      ∀ c, f' c + k.bytes.count c =
        f c + (if upd then renKey isNew repl k else k).bytes.count c := by
  cases k with
  | two a b => exact ⟨f, by simp [renameLhs, renKey], by intro c; simp [renKey]⟩
  | one v =>
    by_cases h : (upd && isNew v) = true
    · obtain ⟨f1, h1, h2⟩ := dec_spec (f := f) (c := v) (by
        have := hf v; simp [Key.bytes] at this; omega)
      simp only [Bool.and_eq_true] at h
      refine ⟨inc (inc f1 (repl v).1) (repl v).2, ?_, ?_⟩
      · simp [renameLhs, h.1, h.2, h1, renKey]
      · intro c
        rw [inc_apply, inc_apply]
        have := h2 c
        have e : ([(repl v).1, (repl v).2] : List UInt8).count c =
            [(repl v).1].count c + [(repl v).2].count c := by
          rw [← List.count_append]; rfl
        simp only [h.1, h.2, renKey, if_true, Key.bytes]
        omega
    · refine ⟨f, ?_, ?_⟩
      · simp only [renameLhs]
        rw [if_neg h]
        by_cases hu : upd = true
        · have : isNew v = false := by simpa [hu] using h
          simp [hu, renKey, this]
        · simp [hu]
      · intro c
        by_cases hu : upd = true
        · have : isNew v = false := by simpa [hu] using h
          simp [hu, renKey, this]
        · simp [hu]

/-- All bytes of a rule. -/
def ruleBytes (r : Rule) : List UInt8 := r.lhs.bytes ++ r.rhs

/-- The renamed rule. -/
def renRule (isNew : UInt8 → Bool) (repl : UInt8 → UInt8 × UInt8) (upd : Bool) (r : Rule) : Rule :=
  ⟨if upd then renKey isNew repl r.lhs else r.lhs, r.rhs.flatMap (renBytes isNew repl)⟩

theorem renameRule_fold (isNew : UInt8 → Bool) (repl : UInt8 → UInt8 × UInt8) (upd : Nat)
    (rules : List Rule) :
    ∀ (k : Nat) (f : UInt8 → Nat) (acc : List Rule),
      (∀ c, (rules.flatMap ruleBytes).count c ≤ f c) →
      ∃ f', (rules.zipIdx k).foldlM (renameRule isNew repl upd) (f, acc) =
          some (f', acc ++ (rules.zipIdx k).map fun ri =>
            renRule isNew repl (decide (ri.2 < upd)) ri.1) ∧
        ∀ c, f' c + (rules.flatMap ruleBytes).count c = f c +
          (((rules.zipIdx k).map fun ri =>
            renRule isNew repl (decide (ri.2 < upd)) ri.1).flatMap ruleBytes).count c := by
  induction rules with
  | nil => intro k f acc _; exact ⟨f, by simp, by simp⟩
  | cons r rules ih =>
    intro k f acc hf
    have hc : ∀ c, ((r :: rules).flatMap ruleBytes).count c =
        r.lhs.bytes.count c + r.rhs.count c + (rules.flatMap ruleBytes).count c := by
      intro c
      rw [List.flatMap_cons, List.count_append, ruleBytes, List.count_append]
    rw [List.zipIdx_cons, List.foldlM_cons]
    obtain ⟨f1, a1, a2⟩ := renameLhs_spec isNew repl (decide (k < upd)) f r.lhs (by
      intro c; have := hf c; rw [hc] at this; omega)
    obtain ⟨f2, b1, b2⟩ := renameByte_fold isNew repl r.rhs f1 [] (by
      intro c; have := hf c; rw [hc] at this; have := a2 c; omega)
    have hstep : renameRule isNew repl upd (f, acc) (r, k) =
        some (f2, acc ++ [renRule isNew repl (decide (k < upd)) r]) := by
      simp only [renameRule, a1, b1, Option.bind_eq_bind, Option.bind_some, List.nil_append]
      rfl
    rw [hstep]
    simp only [Option.bind_eq_bind, Option.bind_some]
    obtain ⟨f3, c1, c2⟩ := ih (k + 1) f2 (acc ++ [renRule isNew repl (decide (k < upd)) r]) (by
      intro c; have := hf c; rw [hc] at this; have := a2 c; have := b2 c; omega)
    refine ⟨f3, ?_, ?_⟩
    · rw [c1]; simp
    · intro c
      rw [hc, List.map_cons, List.flatMap_cons, List.count_append]
      have h1 := a2 c
      have h2 := b2 c
      have h3 := c2 c
      have h4 : (ruleBytes (renRule isNew repl (decide (k < upd)) r)).count c =
          (if decide (k < upd) = true then renKey isNew repl r.lhs else r.lhs).bytes.count c +
            (r.rhs.flatMap (renBytes isNew repl)).count c := by
        rw [ruleBytes, List.count_append]; rfl
      simp only at h4 ⊢
      omega

theorem renBytes_keys (isNew : UInt8 → Bool) (repl : UInt8 → UInt8 × UInt8) (ks : List Key)
    (h : ∀ a b, Key.two a b ∈ ks → isNew a = false ∧ isNew b = false) :
    (bytesOf ks).flatMap (renBytes isNew repl) = bytesOf (ks.map (renKey isNew repl)) := by
  induction ks with
  | nil => rfl
  | cons k ks ih =>
    have ih := ih (fun a b hm => h a b (by simp [hm]))
    have e : bytesOf (k :: ks) = k.bytes ++ bytesOf ks := by simp [bytesOf]
    have e' : bytesOf ((k :: ks).map (renKey isNew repl)) =
        (renKey isNew repl k).bytes ++ bytesOf (ks.map (renKey isNew repl)) := by simp [bytesOf]
    rw [e, e', List.flatMap_append, ih]
    congr 1
    cases k with
    | one c =>
      by_cases hc : isNew c = true <;> simp [Key.bytes, renBytes, renKey, hc]
    | two a b =>
      obtain ⟨h1, h2⟩ := h a b (by simp)
      simp [Key.bytes, renBytes, renKey, h1, h2]

/-! ## The invariant -/

/-- A key that may occur: a byte that is not special, or a numbered pair of special symbols. -/
def KeyOK (g : G) : Key → Prop
  | .one c => c ∉ g.specials
  | .two a b => ∃ i, i < g.spr.length ∧ specialPair g.specials i = some (a, b)

/-- The rule with a given left side and right side. -/
def toRule (a : Key × List Key) : Rule := ⟨a.1, bytesOf a.2⟩

/-- `g` is a well-formed grammar with the rules `ars`. -/
structure OK (g : G) (ars : List (Key × List Key)) : Prop where
  rules_eq : g.rules = ars.map toRule
  spec : ∀ c, g.isSpecial c = true ↔ c ∈ g.specials
  nodup : g.specials.Nodup
  le : g.spr.length ≤ g.specials.length * g.specials.length
  ge : g.specials.length = 0 ∨
    (g.specials.length - 1) * (g.specials.length - 1) + 2 ≤ g.spr.length
  squares : ∀ (k : Nat) c, g.specials[k]? = some c → g.spr[k * k]? = some (false, c)
  freq : ∀ c, g.freqs c = (g.rules.flatMap ruleBytes).count c
  keys : ∀ a ∈ ars, KeyOK g a.1 ∧ a.2.length = 2 ∧ ∀ k ∈ a.2, KeyOK g k
  lhs_nodup : (ars.map Prod.fst).Nodup
  ordered : Ordered ars
  var : ∀ c, c ∉ g.specials → (g.isVariable c = true ↔ .one c ∈ ars.map Prod.fst)
  entries : ∀ (i : Nat) b c p, g.spr[i]? = some (b, c) → specialPair g.specials i = some p →
    (∀ k, i ≠ k * k) → (b = true ↔ .two p.1 p.2 ∈ ars.map Prod.fst)

theorem OK.empty : OK empty [] where
  rules_eq := rfl
  spec := by simp [Grammar.empty]
  nodup := by simp [Grammar.empty]
  le := by simp [Grammar.empty]
  ge := Or.inl rfl
  squares := by simp [Grammar.empty]
  freq := by simp [Grammar.empty]
  keys := by simp
  lhs_nodup := by simp
  ordered := trivial
  var := by simp [Grammar.empty]
  entries := by simp [Grammar.empty]

theorem KeyOK.readable {g : G} {ars : List (Key × List Key)} (h : OK g ars) {k : Key}
    (hk : KeyOK g k) : Readable g.isSpecial k := by
  cases k with
  | one c =>
    simp only [KeyOK] at hk
    simp only [Readable]
    cases hc : g.isSpecial c with
    | false => rfl
    | true => exact absurd ((h.spec c).mp hc) hk
  | two a b =>
    obtain ⟨i, _, hi⟩ := hk
    exact (h.spec a).mpr (specialPair_mem hi).1

/-- The table of the postprocessor for a well-formed grammar. -/
theorem OK.postTable {g : G} {ars : List (Key × List Key)} (h : OK g ars) :
    ∃ t0, initTable g = some t0 ∧ (∀ c, t0 (.one c) = [c]) ∧
      (∀ (i : Nat) c p, g.spr[i]? = some (false, c) → specialPair g.specials i = some p →
        t0 (.two p.1 p.2) = [c]) ∧ postTable g = some (evalRules t0 ars) := by
  obtain ⟨t0, h1, h2, h3⟩ := initTable_spec g h.nodup h.le
  refine ⟨t0, h1, h2, h3, ?_⟩
  have hfold : ∀ (l : List (Key × List Key)) (t : Table), (∀ a ∈ l, ∀ k ∈ a.2, KeyOK g k) →
      (l.map toRule).foldlM (fun t r => do
        let e ← uncompress g.isSpecial t r.rhs
        return setKey t r.lhs e) t = some (evalRules t l) := by
    intro l
    induction l with
    | nil => intro t _; rfl
    | cons a l ih =>
      intro t hl
      rw [List.map_cons, List.foldlM_cons]
      have : uncompress g.isSpecial t (toRule a).rhs = some (a.2.flatMap t) :=
        uncompress_keys _ _ _ (fun k hk => (hl a (by simp) k hk).readable h)
      simp only [this, Option.bind_eq_bind, Option.bind_some, Option.pure_def]
      exact ih _ (fun b hb => hl b (by simp [hb]))
  simp only [Grammar.postTable, h1, h.rules_eq, Option.bind_eq_bind, Option.bind_some]
  exact hfold ars t0 (fun a ha => (h.keys a ha).2.2)

end Bwtc.Grammar
