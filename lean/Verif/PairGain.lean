import Verif.PairDecide

/-!
# What the chosen pairs save

The pairs chosen by `findReplaceablePairs` do not overlap, except for a byte doubled, and their frequencies exceed those of the symbols that have to be
escaped by more than 1000.
-/

set_option autoImplicit false

namespace Bwtc.PairReplace
open Grammar FreqTable

/-- The sum of the `n` lowest frequencies in the table. -/
def freqSum (t : FT) : Nat → Nat
  | 0 => 0
  | n + 1 => freqSum t n + (freq32 t n).getD 0

/-- The sum of the frequencies of pairs. -/
def pairSum (l : List P) : Nat := (l.map (·.1)).sum

theorem pairSum_append (l m : List P) : pairSum (l ++ m) = pairSum l + pairSum m := by
  simp [pairSum]

theorem pairSum_single (p : P) : pairSum [p] = p.1 := by
  simp [pairSum]

/-- No pair ends with the first byte of another one. -/
def Apart (p q : P) : Prop := p.2.1 ≠ q.2.2 ∧ p.2.2 ≠ q.2.1

/-- The pairs taken so far and the rest of the list. -/
structure Fair (all : List P) (ps : List P) (st : St) : Prop where
  sub : (st.repl ++ ps).Sublist all
  apart : st.repl.Pairwise Apart
  used : ∀ p ∈ st.repl, st.usedFst p.2.1 = true ∧ st.usedSnd p.2.2 = true

theorem Fair.tail {all ps : List P} {p : P} {st : St} (h : Fair all (p :: ps) st) : Fair all ps st := by
  refine ⟨List.Sublist.trans ?_ h.sub, h.apart, h.used⟩
  exact List.Sublist.append_left (List.sublist_cons_self p ps) _

theorem Fair.take {g : G} {all ps : List P} {p : P} {st : St} (h : Fair all (p :: ps) st) (hs : ¬ skip g st p.2.1 p.2.2 = true) : Fair all ps (st.take p) := by
  simp only [skip, Bool.or_eq_true, not_or, Bool.not_eq_true] at hs
  obtain ⟨⟨⟨h1, h2⟩, -⟩, -⟩ := hs
  refine ⟨?_, ?_, ?_⟩
  · show ((st.repl ++ [p]) ++ ps).Sublist all
    rw [List.append_assoc]
    exact h.sub
  · show (st.repl ++ [p]).Pairwise Apart
    rw [List.pairwise_append]
    refine ⟨h.apart, List.pairwise_singleton _ _, ?_⟩
    intro q hq r hr
    rw [List.mem_singleton] at hr
    subst hr
    obtain ⟨u1, u2⟩ := h.used q hq
    constructor
    · intro he
      rw [he, h1] at u1
      cases u1
    · intro he
      rw [he, h2] at u2
      cases u2
  · intro q hq
    simp only [St.take, setFn]
    have hq' : q ∈ st.repl ∨ q = p := by simpa [St.take] using hq
    rcases hq' with hq' | rfl
    · obtain ⟨u1, u2⟩ := h.used q hq'
      rw [u1, u2]
      simp
    · simp

theorem loop1_fair {g : G} {t : FT} (ht : TabOK t) {all : List P} : ∀ (ps : List P) (w : Nat) (st st' : St) (w' : Nat) (ps' : List P),
    Fair all ps st → st.utility + freqSum t st.cs = pairSum st.repl → (1001 : Int) * st.repl.length ≤ st.utility →
    loop1 g t ps w st = some (st', w', ps') →
    Fair all ps' st' ∧ st'.utility + freqSum t st'.cs = pairSum st'.repl ∧ (1001 : Int) * st'.repl.length ≤ st'.utility := by
  intro ps
  induction ps with
  | nil => intro w st st' w' ps' _ _ _ h; simp [loop1] at h
  | cons p ps ih =>
    intro w st st' w' ps' h1 h2 h3 h
    rw [loop1] at h
    split at h
    · exact ih w st st' w' ps' h1.tail h2 h3 h
    · rename_i hsk
      split at h
      · cases h
      · rename_i fr hfr
        split at h
        · simp only [Option.some.injEq, Prod.mk.injEq] at h
          obtain ⟨rfl, rfl, rfl⟩ := h
          exact ⟨h1, h2, h3⟩
        · rename_i hc
          rw [not_or] at hc
          have hsm := ht.small _ _ hfr
          rw [Nat.mod_eq_of_lt hsm] at hc
          have e1 : freqSum t (st.cs + 1) = freqSum t st.cs + fr := by rw [freqSum, hfr]; rfl
          have e2 : pairSum (st.repl ++ [p]) = pairSum st.repl + p.1 := by rw [pairSum_append, pairSum_single]
          have f1 : Fair all ps { st.take p with
              vars := st.vars + 1
              forFree := if fr = 0 then st.forFree + 1 else st.forFree
              utility := st.utility + p.1 - fr } := by
            have := h1.take hsk
            exact ⟨this.sub, this.apart, this.used⟩
          have f2 : st.utility + p.1 - fr + (freqSum t (st.cs + 1) : Nat) = (pairSum (st.repl ++ [p]) : Nat) := by
            rw [e1, e2]
            omega
          have f3 : (1001 : Int) * ((st.repl ++ [p]).length : Nat) ≤ st.utility + p.1 - fr := by
            rw [List.length_append, List.length_singleton]
            have := hc.1
            omega
          simp only at h
          split at h
          · exact ih _ _ _ _ _ f1 f2 f3 h
          · simp only [Option.some.injEq, Prod.mk.injEq] at h
            obtain ⟨rfl, rfl, rfl⟩ := h
            exact ⟨f1, f2, f3⟩

theorem loop1_counts {g : G} {t : FT} : ∀ (ps : List P) (w : Nat) (st st' : St) (w' : Nat) (ps' : List P),
    st.cs = st.vars + st.specs → loop1 g t ps w st = some (st', w', ps') → st'.cs = st'.vars + st'.specs := by
  intro ps
  induction ps with
  | nil => intro w st st' w' ps' _ h; simp [loop1] at h
  | cons p ps ih =>
    intro w st st' w' ps' h1 h
    rw [loop1] at h
    split at h
    · exact ih w st st' w' ps' h1 h
    · split at h
      · cases h
      · split at h
        · simp only [Option.some.injEq, Prod.mk.injEq] at h
          obtain ⟨rfl, rfl, rfl⟩ := h
          exact h1
        · have e : (st.take p).cs = st.vars + 1 + st.specs := by
            show st.cs + 1 = _
            omega
          simp only at h
          split at h
          · exact ih _ _ _ _ _ (by simp only; exact e) h
          · simp only [Option.some.injEq, Prod.mk.injEq] at h
            obtain ⟨rfl, rfl, rfl⟩ := h
            exact e

theorem loop2_fair {g : G} {t : FT} {all : List P} (old : List P) (C : Int) : ∀ (ps : List P) (k pas : Nat) (ut : Int) (st st' : St) (hope : Bool) (pas' : Nat) (ut' : Int) (ps' : List P),
    Fair all ps st → (∃ new, st.repl = old ++ new ∧ new.length = pas) → ut + freqSum t st.cs = C + pairSum st.repl →
    loop2 g t ps k pas ut st = some (st', hope, pas', ut', ps') →
    Fair all ps' st' ∧ (∃ new, st'.repl = old ++ new ∧ new.length = pas') ∧ ut' + freqSum t st'.cs = C + pairSum st'.repl ∧ st'.utility = st.utility ∧
      st'.vars = st.vars ∧ st'.specs = st.specs ∧ st'.cs + pas = st.cs + pas' := by
  intro ps
  induction ps with
  | nil =>
    intro k pas ut st st' hope pas' ut' ps' h1 h2 h3 h
    cases k with
    | zero =>
      simp only [loop2, Option.some.injEq, Prod.mk.injEq] at h
      obtain ⟨rfl, rfl, rfl, rfl, rfl⟩ := h
      exact ⟨h1, h2, h3, rfl, rfl, rfl, rfl⟩
    | succ k => simp [loop2] at h
  | cons p ps ih =>
    intro k pas ut st st' hope pas' ut' ps' h1 h2 h3 h
    cases k with
    | zero =>
      simp only [loop2, Option.some.injEq, Prod.mk.injEq] at h
      obtain ⟨rfl, rfl, rfl, rfl, rfl⟩ := h
      exact ⟨h1, h2, h3, rfl, rfl, rfl, rfl⟩
    | succ k =>
      rw [loop2] at h
      split at h
      · exact ih (k + 1) pas ut st st' hope pas' ut' ps' h1.tail h2 h3 h
      · rename_i hsk
        split at h
        · cases h
        · rename_i fr hfr
          split at h
          · simp only [Option.some.injEq, Prod.mk.injEq] at h
            obtain ⟨rfl, rfl, rfl, rfl, rfl⟩ := h
            exact ⟨h1, h2, h3, rfl, rfl, rfl, rfl⟩
          · have e1 : freqSum t (st.cs + 1) = freqSum t st.cs + fr := by rw [freqSum, hfr]; rfl
            have e2 : pairSum (st.repl ++ [p]) = pairSum st.repl + p.1 := by rw [pairSum_append, pairSum_single]
            have f1 := h1.take hsk
            obtain ⟨new, n1, n2⟩ := h2
            have f2 : ∃ new, (st.take p).repl = old ++ new ∧ new.length = pas + 1 :=
              ⟨new ++ [p], by show st.repl ++ [p] = _; rw [n1, List.append_assoc], by rw [List.length_append, List.length_singleton, n2]⟩
            have f3 : ut + p.1 - fr + (freqSum t (st.cs + 1) : Nat) = C + (pairSum (st.repl ++ [p]) : Nat) := by
              rw [e1, e2]
              omega
            split at h
            · obtain ⟨a1, a2, a3, a4, a5, a6, a7⟩ := ih k (pas + 1) _ _ st' hope pas' ut' ps' f1 f2 f3 h
              refine ⟨a1, a2, a3, a4, a5, a6, ?_⟩
              have : (st.take p).cs = st.cs + 1 := rfl
              omega
            · simp only [Option.some.injEq, Prod.mk.injEq] at h
              obtain ⟨rfl, rfl, rfl, rfl, rfl⟩ := h
              refine ⟨f1, f2, f3, rfl, rfl, rfl, ?_⟩
              show st.cs + 1 + pas = st.cs + (pas + 1)
              omega

/-- What is known of the pairs that are replaced: `n` symbols become special symbols or variables. -/
structure Profit (t : FT) (all repl : List P) (n : Nat) (u : Int) : Prop where
  sub : repl.Sublist all
  apart : repl.Pairwise Apart
  gain : u + freqSum t n = pairSum repl
  big : repl ≠ [] → 1001 ≤ u

theorem loop3_fair {g : G} {t : FT} {all : List P} (N : Nat) : ∀ (ps : List P) (tS : Nat) (st st' : St), ps.length ≤ N →
    Fair all ps st → st.utility + freqSum t st.cs = pairSum st.repl → 0 ≤ st.utility → (st.repl ≠ [] → 1001 ≤ st.utility) → st.cs = st.vars + st.specs →
    loop3 g t ps tS st = some st' → Profit t all st'.repl (st'.vars + st'.specs) st'.utility := by
  induction N with
  | zero =>
    intro ps tS st st' hN _ _ _ _ _ h
    rw [loop3] at h
    split at h
    · cases h
    · split at h
      · cases h
      · simp only at h
        have : ps = [] := List.eq_nil_of_length_eq_zero (by omega)
        subst this
        rw [show (if tS = 0 then 2 else 2 * tS) = (if tS = 0 then 1 else 2 * tS - 1) + 1 by
          split <;> omega, loop2] at h
        cases h
  | succ N ih =>
    intro ps tS st st' hN h1 h2 h3 h4 h5 h
    rw [loop3] at h
    split at h
    · cases h
    · rename_i f1 hf1
      split at h
      · cases h
      · rename_i f2 hf2
        simp only at h
        split at h
        · cases h
        · rename_i _ st1 hope pas ut ps' hl2
          have hsum : freqSum t (st.cs + if tS = 0 then 2 else 1) = freqSum t st.cs + f1 + f2 := by
            by_cases h0 : tS = 0
            · rw [if_pos h0] at hf2 ⊢
              rw [freqSum, freqSum, hf1, hf2]
              rfl
            · rw [if_neg h0] at hf2 ⊢
              simp only [Option.some.injEq] at hf2
              rw [freqSum, hf1, ← hf2]
              rfl
          have hC : (0 - (f1 : Int) - (f2 : Int)) + (freqSum t (st.cs + if tS = 0 then 2 else 1) : Nat) =
              ((freqSum t st.cs : Nat) - (pairSum st.repl : Nat) : Int) + (pairSum st.repl : Nat) := by
            rw [hsum]
            omega
          have F0 : Fair all ps { st with cs := st.cs + if tS = 0 then 2 else 1 } := ⟨h1.sub, h1.apart, h1.used⟩
          obtain ⟨a1, ⟨new, a2, a2'⟩, a3, a4, a5, a6, a7⟩ := loop2_fair st.repl _ ps _ 0 _ _ st1 hope pas ut ps' F0 ⟨[], by simp, rfl⟩ hC hl2
          simp only at a4 a5 a6 a7
          split at h
          · rename_i hacc
            have g1 : st1.utility + ut + (freqSum t st1.cs : Nat) = (pairSum st1.repl : Nat) := by omega
            have g2 : st1.cs = st1.vars + pas + (st1.specs + if tS = 0 then 2 else 1) := by omega
            split at h
            · split at h
              · exact ih ps' _ { st1 with
                    vars := st1.vars + pas
                    specs := st1.specs + (if tS = 0 then 2 else 1)
                    utility := st1.utility + ut } st' (by omega) ⟨a1.sub, a1.apart, a1.used⟩ g1 (by simp only; omega) (fun _ => by simp only; omega) g2 h
              · cases h
            · simp only [Option.some.injEq] at h
              subst h
              refine ⟨List.Sublist.trans (List.sublist_append_left _ _) a1.sub, a1.apart, ?_, fun _ => ?_⟩
              · simp only
                rw [← g2]
                exact g1
              · simp only
                omega
          · split at h
            · cases h
            · simp only [Option.some.injEq] at h
              subst h
              have hr : st1.repl.take (st1.repl.length - pas) = st.repl := by
                rw [a2, List.length_append, a2', Nat.add_sub_cancel, List.take_left]
              simp only [hr]
              refine ⟨List.Sublist.trans (List.sublist_append_left _ _) h1.sub, h1.apart, ?_, ?_⟩
              · rw [a4, a5, a6, ← h5]
                exact h2
              · rw [a4]
                exact h4

theorem findReplaceables_fair {g : G} {t : FT} (ht : TabOK t) {start : Nat} {pairs : List P} {st : St} (h : findReplaceables g t start pairs = some st) :
    Profit t pairs st.repl (st.vars + st.specs) st.utility := by
  unfold findReplaceables at h
  simp only [Option.bind_eq_bind, Option.bind_eq_some_iff] at h
  obtain ⟨free, hfree, h⟩ := h
  obtain ⟨_, c1, a0, c2, c3⟩ := countFree_spec t t.fr 0 free hfree rfl
  split at h
  · cases h
  · have fin : ∀ (st1 : St) (w1 : Nat) (ps1 : List P), Fair pairs ps1 st1 → st1.utility + freqSum t st1.cs = pairSum st1.repl → (1001 : Int) * st1.repl.length ≤ st1.utility →
        st1.cs = st1.vars + st1.specs →
        (if ps1 ≠ [] ∧ st1.cs < t.last ∧ w1 = 0 then loop3 g t ps1 g.specials.length st1 else some st1) = some st →
        Profit t pairs st.repl (st.vars + st.specs) st.utility := by
      intro st1 w1 ps1 h1 h2 h3 h4 h5
      have hb : st1.repl ≠ [] → 1001 ≤ st1.utility := by
        intro hne
        have := List.length_pos_iff.mpr hne
        omega
      split at h5
      · exact loop3_fair ps1.length ps1 _ st1 st (Nat.le_refl _) h1 h2 (by omega) hb h4 h5
      · simp only [Option.some.injEq] at h5
        subst h5
        refine ⟨List.Sublist.trans (List.sublist_append_left _ _) h1.sub, h1.apart, ?_, hb⟩
        rw [← h4]
        exact h2
    generalize hst0 : (⟨[], fun _ => false, fun c => decide (c = 0), 0, 0, 0, 0, 0⟩ : St) = st0 at h
    have hstart : Fair pairs (pairs.drop start) st0 := by
      rw [← hst0]
      exact ⟨by simpa using List.drop_sublist _ _, List.Pairwise.nil, by simp⟩
    have s2 : st0.utility + freqSum t st0.cs = pairSum st0.repl := by rw [← hst0]; rfl
    have s3 : (1001 : Int) * st0.repl.length ≤ st0.utility := by rw [← hst0]; simp
    split at h
    · rw [Option.bind_eq_some_iff] at h
      obtain ⟨⟨st1, w1, ps1⟩, h1, h2⟩ := h
      obtain ⟨b1, b2, b3⟩ := loop1_fair ht _ _ _ _ _ _ hstart s2 s3 h1
      have b4 := loop1_counts _ _ _ _ _ _ (by subst hst0; rfl) h1
      exact fin st1 w1 ps1 b1 b2 b3 b4 h2
    · exact fin _ _ _ hstart s2 s3 (by subst hst0; rfl) h

theorem findReplaceablePairs_fair {g : G} {t : FT} (ht : TabOK t) {pairs : List P} {b : Best} (h : findReplaceablePairs g t pairs = some b) :
    Profit t pairs b.repl (b.vars + b.specs) b.utility := by
  unfold findReplaceablePairs at h
  have main : ∀ (l : List Nat) (b0 b : Best), Profit t pairs b0.repl (b0.vars + b0.specs) b0.utility →
      l.foldlM (fun best i => do
        let st ← findReplaceables g t i pairs
        if st.utility > best.utility then
          return ⟨st.utility, st.repl, st.vars, st.specs, st.forFree⟩
        else return best) b0 = some b → Profit t pairs b.repl (b.vars + b.specs) b.utility := by
    intro l
    induction l with
    | nil =>
      intro b0 b h0 hb
      simp only [List.foldlM_nil, Option.pure_def, Option.some.injEq] at hb
      subst hb
      exact h0
    | cons i l ih =>
      intro b0 b h0 hb
      rw [List.foldlM_cons] at hb
      simp only [Option.bind_eq_bind, Option.bind_eq_some_iff] at hb
      obtain ⟨b1, ⟨st, hst, hb1⟩, hb2⟩ := hb
      refine ih b1 b ?_ hb2
      split at hb1
      · simp only [Option.pure_def, Option.some.injEq] at hb1
        subst hb1
        exact findReplaceables_fair ht hst
      · simp only [Option.pure_def, Option.some.injEq] at hb1
        subst hb1
        exact h0
  exact main _ _ _ ⟨List.nil_sublist _, List.Pairwise.nil, rfl, fun h => absurd rfl h⟩ h

end Bwtc.PairReplace
