import Verif.PairTally
import Verif.PairRounds

/-!
# A round does not lengthen the text

By more than the number of odd runs less 1001.
-/

set_option autoImplicit false

namespace Bwtc.PairReplace
open Grammar FreqTable CircBuf

theorem sortedPairs_nodup (f : UInt8 → UInt8 → Nat) : ((sortedPairs f).map (·.2)).Nodup := by
  have h1 : ((sortedPairs f).map (·.2)).Perm ((makePairList f).map (·.2)) := (List.mergeSort_perm _ _).map _
  rw [h1.nodup_iff, makePairList, List.map_map]
  unfold List.Nodup
  rw [List.pairwise_map, List.pairwise_iff_getElem]
  intro i j hi hj hij he
  rw [List.length_range] at hi hj
  simp only [List.getElem_range, Function.comp_apply, Prod.mk.injEq] at he
  have e1 := congrArg UInt8.toNat he.1
  have e2 := congrArg UInt8.toNat he.2
  simp only [UInt8.toNat_ofNat'] at e1 e2
  omega

/-- The table and the search in a run of `choose`. -/
theorem choose_setup {mk : (UInt8 → Nat) → FT} {beyond : Option Nat} {g : G}
    {ars : List (Key × List Key)} {data : List UInt8} {an : An} {pl : Plan} {x : Nat}
    (hok : OK g ars) (han : analyseData g.freqs data = some an) (hl : data.length ≤ 2 ^ 32)
    (hmk : Initial an.freqs (mk an.freqs)) (hx : ∀ c, an.freqs c < x) (hx2 : x + 1003 < 2 ^ 32)
    (hbeyond : g.specials ≠ [] → ∃ y, beyond = some y ∧ x ≤ y)
    (h : choose mk beyond g an = some pl) :
    ∃ (t : FT) (F' : UInt8 → Nat) (best : Best), TabOK t ∧ Inv F' t ∧ (∀ c, c ∉ g.specials → data.count c ≤ F' c) ∧
      (∀ c, freq32 t (t.loc c) = some (F' c)) ∧ findReplaceablePairs g t (sortedPairs an.pairs) = some best ∧ best.forFree ≤ best.vars ∧
      keysAt t 0 best.forFree = some pl.frees ∧ keysAt t best.forFree best.specs = some pl.news ∧
      keysAt t (best.forFree + best.specs) (best.vars - best.forFree) = some pl.freed ∧
      best.repl.length = (pl.freed ++ pl.frees).length ∧ pl.prs = (best.repl.map (·.2)).zip (pl.freed ++ pl.frees) := by
  obtain ⟨hF, hpa, hpb⟩ := analyseData_spec han hl
  unfold choose at h
  simp only [Option.bind_eq_bind, Option.bind_eq_some_iff] at h
  obtain ⟨t, ht, best, hbest, frees, hfrees, news, hnews, freed, hfreed, h⟩ := h
  have hrem : ∃ F', Removed an.freqs x ((specialKeys g).reverse ++ []) F' t := by
    have h0 : Removed an.freqs x [] an.freqs (mk an.freqs) := by
      have hi := initial_inv hmk
      have hlast := hmk.2.2.2
      refine ⟨hi, by simpa using hlast, fun k _ => ⟨rfl, ?_⟩, by simp⟩
      have := hi.loc_lt k
      omega
    by_cases hsp : g.specials = []
    · have : specialKeys g = [] := by
        apply List.eq_nil_iff_forall_not_mem.mpr
        intro c hc
        rw [specialKeys_mem hok, hsp] at hc
        simp at hc
      rw [this] at ht ⊢
      simp only [removeAll, Option.some.injEq] at ht
      subst ht
      exact ⟨_, h0⟩
    · obtain ⟨y, rfl, hxy⟩ := hbeyond hsp
      obtain ⟨t', F', e1, e2⟩ := removeAll_spec hx hxy (specialKeys g) [] _ _ h0
        (by rw [List.append_nil]; exact specialKeys_nodup g)
      rw [e1] at ht
      simp only [Option.some.injEq] at ht
      subst ht
      exact ⟨F', e2⟩
  generalize hks : (specialKeys g).reverse ++ [] = ks at hrem
  have hkmem : ∀ c, c ∈ ks ↔ c ∈ g.specials := by
    intro c
    rw [← hks, List.append_nil, List.mem_reverse, specialKeys_mem hok]
  obtain ⟨F', hR⟩ := hrem
  have hle : ∀ k, F' k ≤ x := by
    intro k
    by_cases hk : k ∈ ks
    · exact (hR.gone k hk).2.2
    · rw [(hR.same k hk).1]
      exact Nat.le_of_lt (hx k)
  have hfr : ∀ i k v, t.fr[i]? = some (k, v) → freq32 t i = some (F' k) ∧ t.loc k = i := by
    intro i k v hi
    obtain ⟨c1, c2⟩ := hR.inv.cells i k v hi
    refine ⟨?_, c1⟩
    have := hle k
    simp only [freq32, getFrequency, hi, Option.map_some, ← c2]
    rw [Nat.mod_eq_of_lt (by omega)]
  have hfr' : ∀ i a, freq32 t i = some a → ∃ k v, t.fr[i]? = some (k, v) ∧ a = F' k := by
    intro i a ha
    cases hc : t.fr[i]? with
    | none => simp [freq32, getFrequency, hc] at ha
    | some e =>
      obtain ⟨k, v⟩ := e
      have := (hfr i k v hc).1
      rw [this] at ha
      simp only [Option.some.injEq] at ha
      exact ⟨k, v, rfl, ha.symm⟩
  have htab : TabOK t := by
    refine ⟨?_, ?_⟩
    · intro i j a b hij ha hb
      obtain ⟨k, v, e1, rfl⟩ := hfr' i a ha
      obtain ⟨k', v', e2, rfl⟩ := hfr' j b hb
      by_cases he : i = j
      · subst he
        rw [e1] at e2
        simp only [Option.some.injEq, Prod.mk.injEq] at e2
        rw [e2.1]
        exact Nat.le_refl _
      · have := hR.inv.sorted i j _ _ (by omega) e1 e2
        simp only at this
        rw [(hR.inv.cells _ _ _ e1).2, (hR.inv.cells _ _ _ e2).2]
        exact this
    · intro i a ha
      obtain ⟨k, v, _, rfl⟩ := hfr' i a ha
      have := hle k
      omega
  have hfound := findReplaceablePairs_spec htab (sortedPairs_sorted an.pairs)
    (fun p hp => sortedPairs_mem hp) hok.le hbest
  have hvle := hfound.le
  rw [Nat.min_eq_left hvle] at hfrees hnews hfreed
  rw [if_neg (by omega)] at hfreed
  split at h
  · cases h
  · simp only [Option.bind_eq_some_iff] at h
    obtain ⟨common, hcommon, h⟩ := h
    split at h
    · rename_i hlen
      simp only [Option.pure_def, Option.some.injEq] at h
      subst h
      refine ⟨t, F', best, htab, hR.inv, ?_, ?_, hbest, hvle, hfrees, hnews, hfreed, hlen, rfl⟩
      · intro c hc
        rw [(hR.same c (by rw [hkmem]; exact hc)).1, hF c]
        omega
      · intro c
        obtain ⟨v, hv⟩ := hR.inv.keys c
        exact (hfr _ _ _ hv).1
    · cases h

/-- The sum of the frequencies of consecutive keys. -/
theorem keysAt_sum {F : UInt8 → Nat} {t : FT} (h : Inv F t) (hf : ∀ c, freq32 t (t.loc c) = some (F c)) {i n : Nat} {ks : List UInt8}
    (hk : keysAt t i n = some ks) : freqSum t i + (ks.map F).sum = freqSum t (i + n) := by
  obtain ⟨h1, h2⟩ := keysAt_spec h hk
  have main : ∀ m, m ≤ n → freqSum t i + ((ks.take m).map F).sum = freqSum t (i + m) := by
    intro m
    induction m with
    | zero => intro _; simp
    | succ m ih =>
      intro hm
      have hlt : m < ks.length := by omega
      rw [List.take_add_one, List.getElem?_eq_getElem hlt]
      simp only [Option.toList_some, List.map_append, List.map_cons, List.map_nil, List.sum_append, List.sum_cons, List.sum_nil]
      have h3 := h2 m _ (List.getElem?_eq_getElem hlt)
      have h4 := hf ks[m]
      rw [h3] at h4
      have h5 : freqSum t (i + (m + 1)) = freqSum t (i + m) + F ks[m] := by
        rw [show i + (m + 1) = i + m + 1 by omega, freqSum, h4]
        rfl
      have := ih (by omega)
      omega
  have := main n (Nat.le_refl _)
  rw [List.take_of_length_le (by omega)] at this
  exact this

/-- What is known of a plan that replaces anything: the pairs are different and do not overlap, and they were counted more often than the
symbols to be escaped occur, by more than 1000. -/
structure Pays (data : List UInt8) (an : An) (pl : Plan) : Prop where
  nodup : (pl.prs.map (·.1)).Nodup
  apart : ApartFn (inList (pl.prs.map (·.1)))
  gain : ((pl.news ++ pl.freed).map fun c => data.count c).sum + 1001 ≤ sumOver (pl.prs.map (·.1)) an.pairs

theorem choose_pays {mk : (UInt8 → Nat) → FT} {beyond : Option Nat} {g : G}
    {ars : List (Key × List Key)} {data : List UInt8} {an : An} {pl : Plan} {x : Nat}
    (hok : OK g ars) (han : analyseData g.freqs data = some an) (hl : data.length ≤ 2 ^ 32)
    (hmk : Initial an.freqs (mk an.freqs)) (hx : ∀ c, an.freqs c < x) (hx2 : x + 1003 < 2 ^ 32)
    (hbeyond : g.specials ≠ [] → ∃ y, beyond = some y ∧ x ≤ y)
    (h : choose mk beyond g an = some pl) (hne : pl.prs ≠ []) : Pays data an pl := by
  have hplan := choose_ok hok han hl hmk hx hx2 hbeyond h
  obtain ⟨t, F', best, htab, hinv, hcount, hfr, hbest, hle, h1, h2, h3, h4, h5⟩ := choose_setup hok han hl hmk hx hx2 hbeyond h
  have hp := findReplaceablePairs_fair htab hbest
  have hmap : pl.prs.map (·.1) = best.repl.map (·.2) := by
    rw [h5]
    exact List.map_fst_zip (by rw [List.length_map]; omega)
  have hnd : (pl.prs.map (·.1)).Nodup := by
    rw [hmap]
    exact List.Nodup.sublist (hp.sub.map _) (sortedPairs_nodup _)
  refine ⟨hnd, ?_, ?_⟩
  · intro a b c hab hbc
    simp only [inList, decide_eq_true_eq, hmap] at hab hbc
    by_cases he : (a, b) = (b, c)
    · simp only [Prod.mk.injEq] at he
      exact he
    · exfalso
      obtain ⟨p, hp1, hp2⟩ := List.mem_map.mp hab
      obtain ⟨q, hq1, hq2⟩ := List.mem_map.mp hbc
      have hpq : p ≠ q := by
        rintro rfl
        rw [hp2] at hq2
        exact he hq2
      have this : Apart p q := by
        obtain ⟨i, hi, hpi⟩ := List.mem_iff_getElem.mp hp1
        obtain ⟨j, hj, hqj⟩ := List.mem_iff_getElem.mp hq1
        have hpw := List.pairwise_iff_getElem.mp hp.apart
        rcases Nat.lt_trichotomy i j with hij | hij | hij
        · have := hpw i j hi hj hij
          rw [hpi, hqj] at this
          exact this
        · subst hij
          exact absurd (hpi.symm.trans hqj) hpq
        · have := hpw j i hj hi hij
          rw [hpi, hqj] at this
          exact ⟨fun e => this.2 e.symm, fun e => this.1 e.symm⟩
      have h7 := this.2
      rw [hp2, hq2] at h7
      exact h7 rfl
  · have hr : best.repl ≠ [] := by
      intro h0
      apply hne
      rw [h5, h0]
      rfl
    have hbig := hp.big hr
    have hgain := hp.gain
    have e0 : freqSum t 0 = 0 := rfl
    have s1 := keysAt_sum hinv hfr h1
    have s2 := keysAt_sum hinv hfr h2
    have s3 := keysAt_sum hinv hfr h3
    rw [Nat.zero_add] at s1
    have e1 : best.forFree + best.specs + (best.vars - best.forFree) = best.vars + best.specs := by omega
    rw [e1] at s3
    have hch := hplan.choice hne
    have hcnt : ∀ l : List UInt8, (∀ c ∈ l, c ∈ pl.freed ++ pl.news ++ pl.frees) → (l.map fun c => data.count c).sum ≤ (l.map F').sum := by
      intro l
      induction l with
      | nil => intro _; simp
      | cons c l ih =>
        intro hl'
        have ih' := ih (fun d hd => hl' d (by simp [hd]))
        have hc := hcount c (hch.fresh c (hl' c (by simp)))
        simp only [List.map_cons, List.sum_cons]
        omega
    have c1 := hcnt (pl.news ++ pl.freed) (by
      intro c hc
      simp only [List.mem_append] at hc ⊢
      rcases hc with hc | hc
      · exact Or.inl (Or.inr hc)
      · exact Or.inl (Or.inl hc))
    have c2 : ((pl.news ++ pl.freed).map F').sum = (pl.news.map F').sum + (pl.freed.map F').sum := by
      rw [List.map_append, List.sum_append]
    have hsum : pairSum best.repl = sumOver (pl.prs.map (·.1)) an.pairs := by
      rw [hmap, pairSum, sumOver, List.map_map]
      congr 1
      apply List.map_congr_left
      intro p hp'
      exact sortedPairs_mem (hp.sub.subset hp')
    rw [← hsum]
    omega

/-! ## The table -/

theorem setCell_fold_mem (common : UInt8) (x y : UInt8) (prs : List ((UInt8 × UInt8) × UInt8)) : ∀ R : Repl, (x, y) ∈ prs.map (·.1) →
    ∃ v, ((x, y), v) ∈ prs ∧ prs.foldl (fun R e => setCell R e.1.1 e.1.2 (e.2, common)) R x y = (v, common) := by
  induction prs with
  | nil => intro R h; simp at h
  | cons e prs ih =>
    intro R h
    rw [List.foldl_cons]
    by_cases hm : (x, y) ∈ prs.map (·.1)
    · obtain ⟨v, h1, h2⟩ := ih (setCell R e.1.1 e.1.2 (e.2, common)) hm
      exact ⟨v, by simp [h1], h2⟩
    · obtain ⟨⟨a, b⟩, w⟩ := e
      rw [List.map_cons, List.mem_cons] at h
      rcases h with h | h
      · simp only [Prod.mk.injEq] at h
        obtain ⟨rfl, rfl⟩ := h
        refine ⟨w, by simp, ?_⟩
        have hno : ∀ (l : List ((UInt8 × UInt8) × UInt8)) (R : Repl), (x, y) ∉ l.map (·.1) →
            l.foldl (fun R e => setCell R e.1.1 e.1.2 (e.2, common)) R x y = R x y := by
          intro l
          induction l with
          | nil => intro R _; rfl
          | cons e l ih2 =>
            intro R hl
            rw [List.map_cons, List.mem_cons, not_or] at hl
            rw [List.foldl_cons, ih2 _ hl.2, setCell, if_neg]
            rintro ⟨rfl, rfl⟩
            exact hl.1 rfl
        rw [hno _ _ hm]
        simp [setCell]
      · exact absurd h hm

theorem setRow_other (common : UInt8) (x y : UInt8) (l : List (UInt8 × (UInt8 × UInt8))) : ∀ R : Repl, x ∉ l.map (·.1) →
    l.foldl (fun R e => setRow common R e.1 e.2) R x y = R x y := by
  induction l with
  | nil => intro R _; rfl
  | cons e l ih =>
    intro R h
    rw [List.map_cons, List.mem_cons, not_or] at h
    rw [List.foldl_cons, ih _ h.2, setRow, if_neg (fun h' => h.1 h'.1)]

theorem setRow_other' (common : UInt8) (x y : UInt8) (l : List UInt8) : ∀ R : Repl, x ∉ l →
    l.foldl (fun R n => setRow common R n (n, n)) R x y = R x y := by
  induction l with
  | nil => intro R _; rfl
  | cons e l ih =>
    intro R h
    rw [List.mem_cons, not_or] at h
    rw [List.foldl_cons, ih _ h.2, setRow, if_neg (fun h' => h.1 h'.1)]

/-- The table replaces all the pairs of the plan. -/
theorem replTable_pair {common : UInt8} {prs : List ((UInt8 × UInt8) × UInt8)} {freed news : List UInt8} {next : List (UInt8 × UInt8)} {x y : UInt8}
    (h : (x, y) ∈ prs.map (·.1)) (hf : x ∉ freed) (hn : x ∉ news) : ∃ v, ((x, y), v) ∈ prs ∧ replTable common prs freed news next x y = (v, common) := by
  obtain ⟨v, h1, h2⟩ := setCell_fold_mem common x y prs (fun _ _ => (common, common)) h
  refine ⟨v, h1, ?_⟩
  unfold replTable
  rw [setRow_other' _ _ _ _ _ hn, setRow_other _ _ _ _ _ (by
    intro hm
    obtain ⟨⟨a, b⟩, hab, rfl⟩ := List.mem_map.mp hm
    exact hf (List.of_mem_zip hab).1)]
  exact h2

theorem countP_sum (data : List UInt8) (l : List UInt8) (hl : l.Nodup) : data.countP (fun c => decide (c ∈ l)) = (l.map fun c => data.count c).sum := by
  induction l with
  | nil => simp
  | cons a l ih =>
    rw [List.nodup_cons] at hl
    rw [List.map_cons, List.sum_cons, ← ih hl.2]
    have : ∀ data : List UInt8, data.countP (fun c => decide (c ∈ a :: l)) = data.count a + data.countP (fun c => decide (c ∈ l)) := by
      intro data
      induction data with
      | nil => rfl
      | cons c data ihd =>
        rw [List.countP_cons, List.countP_cons, List.count_cons, ihd]
        by_cases h1 : c = a
        · subst h1
          simp [hl.1]
          omega
        · by_cases h2 : c ∈ l <;> simp [h1, h2] <;> omega
    exact this data

/-- The table made for a plan. -/
theorem apply_table {g g1 : G} {ars : List (Key × List Key)} {data : List UInt8} {pl : Plan} {R1 : Repl} (hok : OK g ars) (hplan : PlanOK g data pl)
    (hne : ¬ pl.prs = []) (hap : apply g pl = some (g1, R1)) :
    Replaces (inList (pl.prs.map (·.1))) R1 pl.common ∧ Uniform R1 pl.common ∧
      (∀ x y, (x, y) ∈ pl.prs.map (·.1) → escaped R1 pl.common x = false ∧ escaped R1 pl.common y = false) ∧
      (∀ x, escaped R1 pl.common x = decide (x ∈ pl.news ++ pl.freed)) ∧
      data.countP (escaped R1 pl.common) = ((pl.news ++ pl.freed).map fun d => data.count d).sum := by
  have hch := hplan.choice hne
  obtain ⟨g2, isNew, repl, u1, u2, u3, u4, u5, u6, -⟩ := update_spec hok hch
  have htab := replTable_spec hch u3 u4 (by rw [← u6]; exact u5) (hplan.common1 hne) (hplan.common2 hne)
  rw [apply, if_neg hne, u1] at hap
  simp only [Option.bind_eq_bind, Option.bind_some, Option.pure_def, Option.some.injEq, Prod.mk.injEq] at hap
  obtain ⟨-, hR⟩ := hap
  rw [hR] at htab
  have hvar : ∀ x y v, ((x, y), v) ∈ pl.prs → v ≠ pl.common := by
    intro x y v hv he
    apply hplan.common2 hne
    rw [← hch.vars, ← he]
    exact List.mem_map_of_mem hv
  have hnot : ∀ x y, (x, y) ∈ pl.prs.map (·.1) → isNew x = false ∧ isNew y = false := by
    intro x y hxy
    obtain ⟨e, he, hexy⟩ := List.mem_map.mp hxy
    obtain ⟨-, -, p1, p2⟩ := hch.pairs e he
    rw [hexy] at p1 p2
    simp only [List.mem_append, not_or] at p1 p2
    constructor
    · cases h : isNew x with
      | false => rfl
      | true =>
        rcases (u3 x).mp h with h | h
        · exact absurd h p1.1.2
        · exact absurd h p1.1.1
    · cases h : isNew y with
      | false => rfl
      | true =>
        rcases (u3 y).mp h with h | h
        · exact absurd h p2.1.2
        · exact absurd h p2.1.1
  have hesc : ∀ x, escaped R1 pl.common x = isNew x := by
    intro x
    cases h : isNew x with
    | true =>
      obtain ⟨h1, -, h2⟩ := htab.new x 0 h
      simp only [escaped, decide_eq_true_eq, h1]
      exact h2
    | false =>
      simp only [escaped, decide_eq_false_iff_not, Decidable.not_not]
      rcases htab.old x 0 h with h1 | ⟨v, -, -, h1⟩ <;> rw [h1]
  have hpair : ∀ x y, (x, y) ∈ pl.prs.map (·.1) → ∃ v, v ≠ pl.common ∧ R1 x y = (v, pl.common) := by
    intro x y hxy
    obtain ⟨h1, -⟩ := hnot x y hxy
    have hx : ¬ (x ∈ pl.news ∨ x ∈ pl.freed) := by
      intro h
      rw [(u3 x).mpr h] at h1
      cases h1
    rw [not_or] at hx
    obtain ⟨v, h2, h3⟩ := replTable_pair (common := pl.common) (next := pl.freed.map repl) hxy hx.2 hx.1
    rw [hR] at h3
    exact ⟨v, hvar x y v h2, h3⟩
  have hrep : Replaces (inList (pl.prs.map (·.1))) R1 pl.common := by
    refine ⟨?_, ?_, ?_⟩
    · intro x y h
      simp only [inList, decide_eq_true_eq] at h
      exact hpair x y h
    · intro x y h
      simp only [inList, decide_eq_false_iff_not] at h
      cases hn : isNew x with
      | true =>
        obtain ⟨h1, -, h2⟩ := htab.new x y hn
        right
        rw [h1]
        exact h2
      | false =>
        rcases htab.old x y hn with h1 | ⟨v, hv, -, -⟩
        · exact Or.inl h1
        · exact absurd (List.mem_map.mpr ⟨_, hv, rfl⟩) h
    · intro x y h
      simp only [inList, decide_eq_true_eq] at h
      rw [hesc]
      exact (hnot x y h).2
  have hcount : data.countP (escaped R1 pl.common) = ((pl.news ++ pl.freed).map fun d => data.count d).sum := by
    rw [← countP_sum]
    · congr 1
      funext x
      rw [hesc x]
      cases h : isNew x with
      | true =>
        symm
        rw [decide_eq_true_eq, List.mem_append]
        exact (u3 x).mp h
      | false =>
        symm
        rw [decide_eq_false_iff_not, List.mem_append]
        intro h'
        rw [(u3 x).mpr h'] at h
        cases h
    · have := hch.nodup
      rw [List.nodup_append] at this
      have h1 := this.1
      rw [List.nodup_append] at h1 ⊢
      exact ⟨h1.2.1, h1.1, fun a ha b hb he => h1.2.2 b hb a ha he.symm⟩
  refine ⟨hrep, htab.uniform, ?_, ?_, hcount⟩
  · intro x y h
    rw [hesc, hesc]
    exact hnot x y h
  · intro x
    rw [hesc x]
    cases h : isNew x with
    | true =>
      symm
      rw [decide_eq_true_eq, List.mem_append]
      exact (u3 x).mp h
    | false =>
      symm
      rw [decide_eq_false_iff_not, List.mem_append]
      intro h'
      rw [(u3 x).mpr h'] at h
      cases h

/-- One round: unless nothing is replaced, the text becomes shorter by 1001 bytes less the number of odd runs of bytes whose pair is
replaced, and not much more than a third of the bytes is escaped. -/
theorem round_fits {mk : (UInt8 → Nat) → FT} (hmk : ∀ F, Initial F (mk F)) {beyond : Option Nat} {g g' : G} {ars : List (Key × List Key)}
    {c : UInt8} {rest : List UInt8} {R : Repl} {common : UInt8} (hok : OK g ars) (hlen : rest.length + 395758 ≤ 2 ^ 32)
    (hb : g.specials ≠ [] → ∃ y, beyond = some y ∧ 2 ^ 32 ≤ y)
    (hr : round mk beyond g (c :: rest) = some (g', R, common)) :
    (g' = g ∧ R = fun _ _ => (common, common)) ∨
    ∃ D : UInt8 → Bool, (∀ a, D a = true → (R a a).2 = common ∧ R a a ≠ (common, common)) ∧
      (writeGo R common c rest).length + 1001 ≤ rest.length + 1 + oddRuns D (c :: rest) ∧
      3 * (c :: rest).countP (escaped R common) + 2002 ≤ rest.length + 1 + 2 * oddRuns D (c :: rest) := by
  have hL : (c :: rest).length = rest.length + 1 := List.length_cons
  generalize hN : (c :: rest).length = N at hL
  unfold round at hr
  simp only [Option.bind_eq_bind, Option.bind_eq_some_iff] at hr
  obtain ⟨an, han, pl, hpl, ⟨g1, R1⟩, hap, hr⟩ := hr
  simp only [Option.pure_def, Option.some.injEq, Prod.mk.injEq] at hr
  obtain ⟨rfl, rfl, rfl⟩ := hr
  have hplan := round_plan hmk hok (by rw [hN]; clear hN; omega) hb han hpl
  by_cases hne : pl.prs = []
  · rw [apply, if_pos hne] at hap
    simp only [Option.some.injEq, Prod.mk.injEq] at hap
    exact Or.inl ⟨hap.1.symm, hap.2.symm⟩
  · right
    have hfreq := (analyseData_spec han (by omega)).1
    have hrl := ruleBytes_length hok
    have hrc := rules_le hok
    have hpays : Pays (c :: rest) an pl := by
      refine choose_pays (x := N + 6 * g.rules.length + 1) hok han (by omega) (hmk _) ?_
        (by omega) ?_ hpl hne
      · intro d
        rw [hfreq, hok.freq]
        have h1 : (g.rules.flatMap ruleBytes).count d ≤ _ := List.count_le_length
        have h2 : (c :: rest).count d ≤ _ := List.count_le_length
        omega
      · intro hs
        obtain ⟨y, h1, h2⟩ := hb hs
        exact ⟨y, h1, by omega⟩
    obtain ⟨hrep, hunif, hnot, -, hcount⟩ := apply_table hok hplan hne hap
    have hlen1 := writeGo_length hrep hunif rest.length c rest (Nat.le_refl _)
    have hgr := greedy_escaped (S := inList (pl.prs.map (·.1))) (E := escaped R1 pl.common) (by
      intro x y h
      simp only [inList, decide_eq_true_eq] at h
      exact hnot x y h) rest false c (by intro h; cases h)
    have hsum := sumOver_analyseData hpays.nodup han (by omega)
    have htal := tally_le hpays.apart rest true 0 c false 1 0 (Nat.le_refl _) (Or.inl rfl) (by intro _; simp) (by intro h; cases h) (Or.inl rfl)
    have hg := hpays.gain
    refine ⟨fun a => inList (pl.prs.map (·.1)) a a, ?_, ?_, ?_⟩
    · intro a ha
      simp only [inList, decide_eq_true_eq] at ha
      obtain ⟨v, hv, h1⟩ := hrep.pair a a (by simp only [inList, decide_eq_true_eq]; exact ha)
      rw [h1]
      exact ⟨rfl, by intro h; simp only [Prod.mk.injEq] at h; exact hv h.1⟩
    · rw [oddRuns]
      omega
    · rw [oddRuns]
      simp only [Bool.false_eq_true, if_false] at hgr
      omega

theorem round_uniform {mk : (UInt8 → Nat) → FT} (hmk : ∀ F, Initial F (mk F)) {beyond : Option Nat} {g g' : G}
    {data : List UInt8} {R : Repl} {common : UInt8} (h : Formed g) (hlen : data.length + 395757 ≤ 2 ^ 32)
    (hb : g.specials ≠ [] → ∃ y, beyond = some y ∧ 2 ^ 32 ≤ y)
    (hr : round mk beyond g data = some (g', R, common)) : Uniform R common := by
  unfold round at hr
  simp only [Option.bind_eq_bind, Option.bind_eq_some_iff] at hr
  obtain ⟨an, han, pl, hpl, ⟨g1, R1⟩, hap, hr⟩ := hr
  simp only [Option.pure_def, Option.some.injEq, Prod.mk.injEq] at hr
  obtain ⟨rfl, rfl, rfl⟩ := hr
  obtain ⟨ars, hok, hl⟩ := h
  have hplan := round_plan hmk hok hlen hb han hpl
  unfold apply at hap
  split at hap
  · injection hap with hap
    injection hap with _ e1
    rw [← e1]
    exact fun c d => Iff.rfl
  · rename_i hne
    have hch := hplan.choice hne
    obtain ⟨g2, isNew, repl, u1, u2, u3, u4, u5, u6, -⟩ := update_spec hok hch
    have htab := replTable_spec hch u3 u4 (by rw [← u6]; exact u5) (hplan.common1 hne) (hplan.common2 hne)
    rw [u1] at hap
    simp only [Option.bind_eq_bind, Option.bind_some, Option.pure_def, Option.some.injEq, Prod.mk.injEq] at hap
    rw [← hap.2]
    exact htab.uniform

/-! ## Calm texts -/

/-- The text has at most 1001 runs of equal bytes whose length is odd and at least 3. -/
def Calm (data : List UInt8) : Prop := oddRuns (fun _ => true) data ≤ 1001

/-- A round does not lengthen a calm text and escapes at most a third of it. -/
theorem round_calm {mk : (UInt8 → Nat) → FT} (hmk : ∀ F, Initial F (mk F)) {beyond : Option Nat} {g g' : G}
    {data : List UInt8} {R : Repl} {common : UInt8} (hf : Formed g) (hlen : data.length + 395757 ≤ 2 ^ 32)
    (hb : g.specials ≠ [] → ∃ y, beyond = some y ∧ 2 ^ 32 ≤ y) (hc : Calm data)
    (hr : round mk beyond g data = some (g', R, common)) :
    3 * data.countP (escaped R common) ≤ data.length ∧ ∀ out, writeOut R common data = some out → out.length ≤ data.length := by
  match data, hr with
  | [], hr => simp [round, analyseData] at hr
  | c :: rest, hr =>
    obtain ⟨ars, hok, -⟩ := hf
    have hwo : ∀ out, writeOut R common (c :: rest) = some out → out = writeGo R common c rest := by
      intro out hout
      match rest, hout with
      | [], hout => simp [writeOut] at hout
      | e :: rest, hout => simpa [writeOut] using hout.symm
    have hL : (c :: rest).length = rest.length + 1 := List.length_cons
    generalize hN : (c :: rest).length = N at hL hlen ⊢
    rcases round_fits hmk hok (by clear hN; omega) hb hr with ⟨-, rfl⟩ | ⟨D, -, h1, h2⟩
    · constructor
      · have : (c :: rest).countP (escaped (fun _ _ => (common, common)) common) = 0 := by
          rw [List.countP_eq_zero]
          intro x _
          simp [escaped]
        rw [this]
        omega
      · intro out hout
        rw [hwo out hout, writeGo_const, hN]
        exact Nat.le_refl _
    · have h3 := oddRuns_mono (D := D) (E := fun _ => true) (fun _ _ => rfl) (c :: rest)
      unfold Calm at hc
      constructor
      · omega
      · intro out hout
        rw [hwo out hout]
        omega

/-- In all rounds the text is calm, and in the rounds in place it has at least 5 bytes and the last one need not be escaped. -/
def CalmRounds (mk : (UInt8 → Nat) → FT) (beyond : Option Nat) (small : Nat → Bool) (n : Nat) :
    Nat → Pre → Prop
  | 0, _ => True
  | k + 1, s =>
    match (if s.tmp.isNone && small s.length then some (List.replicate (s.length + 1) (0 : UInt8))
      else s.tmp) with
    | none => 5 ≤ s.length ∧ Calm (s.block.take s.length) ∧
        ∀ g R common, round mk beyond s.g (s.block.take s.length) = some (g, R, common) →
          (∀ c, s.block[s.length - 1]? = some c → escaped R common c = false) ∧
          ∀ block length, writeInPlace R common s.block s.length = some (block, length) → length ≠ n →
            CalmRounds mk beyond small n k { s with block := block, length := length, g := g }
    | some tmp => Calm ((if s.srcTmp then tmp else s.block).take s.length) ∧ ∀ g R common out dst,
        round mk beyond s.g ((if s.srcTmp then tmp else s.block).take s.length) = some (g, R, common) →
        writeOut R common ((if s.srcTmp then tmp else s.block).take s.length) = some out →
        store (if s.srcTmp then s.block else tmp) 0 out = some dst →
        CalmRounds mk beyond small n k
          (if s.srcTmp then ⟨dst, some tmp, false, out.length, s.rounds + 1, g⟩
            else ⟨s.block, some dst, true, out.length, s.rounds + 1, g⟩)

theorem calm_safe {mk : (UInt8 → Nat) → FT} (hmk : ∀ F, Initial F (mk F)) {beyond : Option Nat}
    {small : Nat → Bool} {n M : Nat} (hlen : M + 395758 ≤ 2 ^ 32) (hsm : small n = false) : ∀ (k : Nat) (s : Pre), Bounded M s →
      (k ≤ 1 ∧ s.g.specials = [] ∨ ∃ y, beyond = some y ∧ 2 ^ 32 ≤ y) → s.length ≤ n → (s.tmp ≠ none → s.length < n) →
      (s.tmp = none → s.length ≤ s.block.length) → CalmRounds mk beyond small n k s → SafeRounds mk beyond small n k s := by
  intro k
  induction k with
  | zero => intro s _ _ _ _ _ _; trivial
  | succ k ih =>
    intro s hs hb hln hlt hfit h
    have hb' : s.g.specials ≠ [] → ∃ y, beyond = some y ∧ 2 ^ 32 ≤ y := by
      intro hne
      rcases hb with hb | hb
      · exact absurd hb.2 hne
      · exact hb
    have ih' : ∀ s1, Bounded M s1 → s1.length ≤ n → (s1.tmp ≠ none → s1.length < n) → (s1.tmp = none → s1.length ≤ s1.block.length) →
        CalmRounds mk beyond small n k s1 → SafeRounds mk beyond small n k s1 := by
      intro s1 a1 a2 a3 a4 a5
      rcases hb with hb | hb
      · obtain rfl : k = 0 := by omega
        trivial
      · exact ih s1 a1 (Or.inr hb) a2 a3 a4 a5
    rw [CalmRounds] at h
    rw [SafeRounds]
    generalize htmp : (if s.tmp.isNone && small s.length then
      some (List.replicate (s.length + 1) (0 : UInt8)) else s.tmp) = tmp at h ⊢
    match tmp, htmp, h with
    | none, htmp, h =>
      have hnone : s.tmp = none := by
        split at htmp
        · cases htmp
        · exact htmp
      have hlb := hfit hnone
      obtain ⟨h5, hcalm, h⟩ := h
      simp only
      intro g R common hround
      obtain ⟨hlast, hnext⟩ := h g R common hround
      have hbd := hs.block
      have htl : (s.block.take s.length).length = s.length := by rw [List.length_take]; omega
      obtain ⟨e1, e2⟩ := round_calm hmk hs.formed (by rw [htl]; omega) hb' hcalm hround
      rw [htl] at e1 e2
      have hf := round_formed hmk hs.formed (by rw [htl]; omega) hb' hround
      have hsafe : SafeWrite R common s.block s.length := ⟨h5, e1, hlast, fun out hout => Nat.le_trans (e2 out hout) hlb⟩
      refine ⟨hsafe, ?_⟩
      intro block length hwrite hne
      obtain ⟨i1, i2⟩ := writeInPlace_inside hwrite
      have hll : length ≤ s.length := by
        match hd : s.block.take s.length with
        | [] => rw [hd] at htl; simp at htl; omega
        | [_] => rw [hd] at htl; simp at htl; omega
        | a :: d :: rest =>
          have hunif : Uniform R common := by
            rw [hd] at hround
            exact round_uniform hmk hs.formed (by rw [← hd, htl]; omega) hb' hround
          rw [hd] at e2
          have hfit' := e2 _ rfl
          have := writeInPlace_spec hunif h5 hlb hd hsafe.2.1 hlast (Nat.le_trans hfit' hlb)
          rw [hwrite] at this
          simp only [Option.some.injEq, Prod.mk.injEq] at this
          rw [this.2]
          exact hfit'
      refine ih' _ ⟨by simp only; omega, hs.tmp, by simp only; omega, fun _ => by simp only; omega, hf⟩ (by simp only; omega) ?_ (fun _ => by simp only; omega)
        (hnext block length hwrite hne)
      intro hc
      exact absurd hnone hc
    | some tmp, htmp, h =>
      have hltn : s.length < n := by
        split at htmp
        · rename_i hc
          simp only [Bool.and_eq_true] at hc
          apply Nat.lt_of_le_of_ne hln
          intro he
          rw [he, hsm] at hc
          cases hc.2
        · exact hlt (by rw [htmp]; simp)
      have htl : tmp.length ≤ M + 1 := by
        split at htmp
        · rename_i hc
          simp only [Bool.and_eq_true, Option.isNone_iff_eq_none] at hc
          have := hs.first hc.1
          simp only [Option.some.injEq] at htmp
          rw [← htmp, List.length_replicate]
          omega
        · exact hs.tmp tmp htmp
      obtain ⟨hcalm, h⟩ := h
      have hbd := hs.block
      simp only
      intro g R common out dst hround hout hstore
      have hnext := h g R common out dst hround hout hstore
      have htl2 : ((if s.srcTmp then tmp else s.block).take s.length).length + 395757 ≤ 2 ^ 32 := by
        rw [List.length_take]
        split <;> omega
      have hll := (round_calm hmk hs.formed htl2 hb' hcalm hround).2 out hout
      have hf := round_formed hmk hs.formed htl2 hb' hround
      rw [List.length_take] at hll
      have hol : out.length < n := by omega
      refine ⟨by omega, ?_⟩
      obtain ⟨i1, i2⟩ := store_length hstore
      cases hst : s.srcTmp with
      | false =>
        rw [hst] at hnext i1 i2
        simp only [Bool.false_eq_true, if_false] at hnext i1 i2 ⊢
        refine ih' _ ⟨hbd, ?_, by simp only; omega, by simp, hf⟩ (by simp only; omega) (fun _ => by simp only; omega) (by simp) hnext
        intro t ht
        simp only [Option.some.injEq] at ht
        rw [← ht]
        omega
      | true =>
        rw [hst] at hnext i1 i2
        simp only [if_true] at hnext i1 i2 ⊢
        refine ih' _ ⟨by simp only; omega, ?_, by simp only; omega, by simp, hf⟩ (by simp only; omega) (fun _ => by simp only; omega) (by simp) hnext
        intro t ht
        simp only [Option.some.injEq] at ht
        exact ht ▸ htl

end Bwtc.PairReplace
