import Verif.GrammarUpdate

/-!
# The symbols listed in a written grammar

What the writer of the grammar needs to know about the special pairs: their number and the number of
symbols freed by them fit into a byte.
-/

set_option autoImplicit false

namespace Bwtc.Grammar

theorem nodup_subset_length {α : Type} [DecidableEq α] : ∀ {l m : List α}, l.Nodup → (∀ x ∈ l, x ∈ m) →
    l.length ≤ m.length := by
  intro l
  induction l with
  | nil => intro m _ _; exact Nat.zero_le _
  | cons a l ih =>
    intro m hn hm
    have ha : a ∈ m := hm a (by simp)
    have := ih (m := m.erase a) (List.nodup_cons.mp hn).2 (by
      intro x hx
      rw [List.mem_erase_of_ne]
      · exact hm x (by simp [hx])
      · rintro rfl
        exact (List.nodup_cons.mp hn).1 hx)
    rw [List.length_erase_of_mem ha] at this
    have : 0 < m.length := List.length_pos_of_mem ha
    rw [List.length_cons]
    omega

/-- All bytes. -/
def allBytes : List UInt8 := (List.range 256).map UInt8.ofNat

theorem mem_allBytes (c : UInt8) : c ∈ allBytes :=
  List.mem_map.mpr ⟨c.toNat, List.mem_range.mpr c.toNat_lt, by simp⟩

theorem length_allBytes : allBytes.length = 256 := by
  rw [allBytes, List.length_map, List.length_range]

theorem nodup_bytes_length {l : List UInt8} (h : l.Nodup) : l.length ≤ 256 := by
  rw [← length_allBytes]
  exact nodup_subset_length h (fun c _ => mem_allBytes c)

/-- A list without repetitions that misses a byte. -/
theorem nodup_bytes_missing {l : List UInt8} (h : l.Nodup) {c : UInt8} (hc : c ∉ l) : l.length ≤ 255 := by
  have := nodup_bytes_length (l := c :: l) (List.nodup_cons.mpr ⟨hc, h⟩)
  rw [List.length_cons] at this
  omega

/-- Facts on the special pairs that decide what is written. -/
structure Listed (g : G) : Prop where
  /-- The number of special symbols fits into a byte. -/
  few : g.specials.length ≤ 255
  /-- A freed symbol is used as a variable, and it is not the first special symbol. -/
  used : ∀ (i : Nat) c, g.spr[i]? = some (false, c) → (∀ k, i ≠ k * k) →
    g.isVariable c = true ∧ g.specials[0]? ≠ some c
  /-- No symbol is freed twice. -/
  uniq : ∀ (i j : Nat) c, g.spr[i]? = some (false, c) → (∀ k, i ≠ k * k) →
    g.spr[j]? = some (false, c) → (∀ k, j ≠ k * k) → i = j
  /-- Without rules there are no special symbols. -/
  start : g.rules = [] → g.specials = []

theorem Listed.empty : Listed empty where
  few := by simp [Grammar.empty]
  used := by simp [Grammar.empty]
  uniq := by simp [Grammar.empty]
  start := fun _ => rfl

theorem updateGrammar_fields {g g' : G} {prs : List ((UInt8 × UInt8) × UInt8)} {freed news : List UInt8}
    {next : List (UInt8 × UInt8)} (h : updateGrammar g prs freed news = some (g', next)) :
    ∃ st, expandLoop freed news (Exp.start (addRules (beginUpdating g) prs)) = some st ∧
      g'.specials = st.specials ∧ g'.spr = st.spr ∧
      ∀ c, st.isVariable c = true → g'.isVariable c = true := by
  unfold updateGrammar expandAlphabet at h
  simp only [Option.bind_eq_bind, Option.bind_eq_some_iff] at h
  obtain ⟨⟨g2, nx⟩, ⟨st, h1, h2⟩, h3⟩ := h
  split at h2
  · cases h2
  · simp only [Option.bind_eq_some_iff, Option.pure_def, Option.some.injEq, Prod.mk.injEq] at h2 h3
    obtain ⟨⟨f, rs⟩, _, rfl, _⟩ := h2
    obtain ⟨rfl, _⟩ := h3
    refine ⟨st, h1, rfl, rfl, ?_⟩
    intro c hc
    simp only [endUpdating]
    rw [setFn_fold, hc]
    rfl

/-- The facts are kept by a round. -/
theorem Listed.update {g : G} {ars : List (Key × List Key)} (h : OK g ars) (hl : Listed g)
    {prs : List ((UInt8 × UInt8) × UInt8)} {freed news frees : List UInt8}
    (hc : Choice g prs freed news frees) (hp : prs ≠ []) {common : UInt8}
    (hcom : common ∉ g.specials ++ news) {g' : G} {next : List (UInt8 × UInt8)}
    (hu : updateGrammar g prs freed news = some (g', next)) : Listed g' := by
  obtain ⟨r1, r2, r3, r4, r5, r6, r7⟩ := addRules_spec prs (beginUpdating g)
  obtain ⟨st, u1, u2, u3, u4⟩ := updateGrammar_fields hu
  generalize hg1 : addRules (beginUpdating g) prs = g1 at r1 r2 r3 r4 r5 r6 r7 u1
  simp only [beginUpdating] at r1 r2 r3 r4 r5 r6 r7
  obtain ⟨nd1, nd2, nd3⟩ := List.nodup_append.mp hc.nodup
  obtain ⟨nd4, nd5, nd6⟩ := List.nodup_append.mp nd1
  have hstart : ExpInv g1 [] [] (Exp.start g1) := by
    apply ExpInv.start
    · rw [r5]; exact h.nodup
    · rw [r5, r6]; exact h.le
    · rw [r5, r6]; have := h.ge; omega
    · rw [r5, r6]; exact h.squares
  obtain ⟨st', s1, s2, s3, s4⟩ := expandLoop_spec g1 freed news [] [] (Exp.start g1) hstart
    (by simpa using nd1)
    (by intro c hcn; simp only [Exp.start]; rw [r5]; exact hc.fresh c (by simp [hcn]))
    (by intro c hcn; simp only [Exp.start]; rw [r5]; exact hc.fresh c (by simp [hcn]))
    (by simp only [Exp.start]; rw [r5, r6]; exact hc.enough)
  rw [u1] at s1
  simp only [Option.some.injEq] at s1
  subst s1
  simp only [List.nil_append] at s2
  have hspec : g'.specials = g.specials ++ news := by rw [u2, s2.specials, r5]
  have hspr : g'.spr = st.spr := u3
  have hlen : g.spr.length ≤ st.spr.length := by have := s2.length; rw [r6] at this; exact this
  have hpre : ∀ (i : Nat), i < g.spr.length → st.spr[i]? = g.spr[i]? := by
    intro i hi
    have := s2.pre
    rw [r6] at this
    conv => rhs; rw [← this]
    rw [List.getElem?_take, if_pos hi]
  -- a freed entry is an old one, or belongs to one of the symbols freed now
  have cases2 : ∀ (i : Nat) c, st.spr[i]? = some (false, c) → (∀ k, i ≠ k * k) →
      (i < g.spr.length ∧ g.spr[i]? = some (false, c)) ∨
      (g.spr.length ≤ i ∧ c ∈ freed ∧ g.isVariable c = false ∧
        specialPair st.specials i = some (st.repl c)) := by
    intro i c hi hk
    by_cases hlt : i < g.spr.length
    · exact Or.inl ⟨hlt, by rw [← hpre i hlt]; exact hi⟩
    · right
      have hil : i < st.spr.length := by
        apply Decidable.byContradiction
        intro hcon
        rw [List.getElem?_eq_none (by omega)] at hi
        cases hi
      obtain ⟨d, d1, d2, d3⟩ := s2.back i (by rw [r6]; omega) hil
      rw [hi] at d3
      simp only [Option.some.injEq, Prod.mk.injEq] at d3
      obtain ⟨d4, rfl⟩ := d3
      have hnt : c ∉ news := by
        intro hm
        rw [s2.special2 c hm] at d2
        obtain ⟨k, hk2⟩ : ∃ k, st.specials[k]? = some c := by
          obtain ⟨m1, _⟩ := specialPair_mem d2
          exact List.getElem?_of_mem m1
        have := specialPair_number hk2 hk2
        have := specialPair_inj s2.nodup d2 this
        apply hk k
        rw [this]
        unfold numberOfSpecialPair
        simp
      rcases d1 with d1 | d1
      · exact absurd d1 hnt
      · refine ⟨by omega, d1, ?_, d2⟩
        rw [r4] at d4
        simpa [hnt] using d4.symm
  refine ⟨?_, ?_, ?_, ?_⟩
  · rw [hspec]
    have : (g.specials ++ news).Nodup := by
      have := s2.nodup
      rw [← u2, hspec] at this
      exact this
    exact nodup_bytes_missing this hcom
  · intro i c hi hk
    rw [hspr] at hi
    rcases cases2 i c hi hk with ⟨a1, a2⟩ | ⟨a1, a2, a3, a4⟩
    · obtain ⟨b1, b2⟩ := hl.used i c a2 hk
      refine ⟨u4 c (by rw [s2.isVariable, r4, b1]; rfl), ?_⟩
      rw [hspec]
      have hpos : 0 < g.specials.length := by
        have := h.le
        apply Decidable.byContradiction
        intro hcon
        have h0 : g.specials.length = 0 := by omega
        rw [h0] at this
        omega
      rw [List.getElem?_append_left hpos]
      exact b2
    · refine ⟨u4 c (by rw [s2.isVariable]; simp [a2]), ?_⟩
      rw [hspec]
      intro hm
      rcases List.mem_append.mp (List.mem_of_getElem? hm) with hm | hm
      · exact hc.fresh c (by simp [a2]) hm
      · exact nd6 c a2 c hm rfl
  · intro i j c hi hki hj hkj
    rw [hspr] at hi hj
    rcases cases2 i c hi hki with ⟨a1, a2⟩ | ⟨a1, a2, a3, a4⟩ <;>
      rcases cases2 j c hj hkj with ⟨b1, b2⟩ | ⟨b1, b2, b3, b4⟩
    · exact hl.uniq i j c a2 hki b2 hkj
    · have := (hl.used i c a2 hki).1
      rw [b3] at this
      cases this
    · have := (hl.used j c b2 hkj).1
      rw [a3] at this
      cases this
    · exact specialPair_inj s2.nodup a4 b4
  · intro hr
    exfalso
    obtain ⟨g2, isNew, repl, e1, e2, _⟩ := update_spec h hc
    rw [hu] at e1
    simp only [Option.some.injEq, Prod.mk.injEq] at e1
    obtain ⟨rfl, _⟩ := e1
    have := e2.rules_eq
    rw [hr] at this
    have := congrArg List.length this
    simp only [List.length_nil, List.length_map, List.length_append] at this
    apply hp
    exact List.eq_nil_of_length_eq_zero (by omega)

end Bwtc.Grammar
