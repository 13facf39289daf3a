import Verif.PairRound

/-!
# The choice of pairs and symbols is sound
-/

set_option autoImplicit false

namespace Bwtc.PairReplace
open Grammar FreqTable

/-! ## Frequencies -/

/-- What has been counted after the bytes `done`. -/
structure AnInv (F0 : UInt8 → Nat) (done : List UInt8) (st : An) : Prop where
  freqs : ∀ c, st.freqs c = F0 c + done.count c
  fst : ∀ a b, st.pairs a b + (if st.prev.2 = a then 1 else 0) ≤ done.count a
  snd : ∀ a b, st.pairs a b ≤ done.count b

theorem AnInv.step {F0 : UInt8 → Nat} {done : List UInt8} {st : An} (h : AnInv F0 done st)
    (x : UInt8) (n : Nat) (hn : n ≤ 1) :
    AnInv F0 (done ++ [x])
      ⟨(st.prev.2, x), inc st.freqs x, addPair st.pairs st.prev.2 x n⟩ := by
  have hc : ∀ c, (done ++ [x]).count c = done.count c + if x = c then 1 else 0 := by
    intro c
    rw [List.count_append, List.count_singleton]
    simp
  refine ⟨?_, ?_, ?_⟩
  · intro c
    simp only [inc_apply, h.freqs c, hc, List.count_singleton, beq_iff_eq]
    omega
  · intro a b
    simp only [hc, addPair]
    have := h.fst a b
    split
    · rename_i hab
      rw [if_pos hab.1.symm] at this
      omega
    · omega
  · intro a b
    simp only [hc, addPair]
    have := h.snd a b
    split
    · rename_i hab
      rw [if_pos hab.2.symm]
      omega
    · omega

theorem analyse1_inv {F0 : UInt8 → Nat} {done : List UInt8} {st : An} (h : AnInv F0 done st)
    (x : UInt8) : AnInv F0 (done ++ [x]) (analyse1 st x) := h.step x 1 (Nat.le_refl _)

theorem analyse0_inv {F0 : UInt8 → Nat} {done : List UInt8} {st : An} (h : AnInv F0 done st)
    (x : UInt8) : AnInv F0 (done ++ [x]) (analyse0 st x) :=
  h.step x _ (by split <;> omega)

theorem analyseLoop_inv {F0 : UInt8 → Nat} (k : Nat) : ∀ (rest done : List UInt8) (st st' : An)
    (rest' : List UInt8), AnInv F0 done st → analyseLoop k rest st = some (st', rest') →
    AnInv F0 (done ++ rest.take (2 * k)) st' ∧ rest' = rest.drop (2 * k) := by
  induction k with
  | zero =>
    intro rest done st st' rest' h he
    simp only [analyseLoop, Option.some.injEq, Prod.mk.injEq] at he
    obtain ⟨rfl, rfl⟩ := he
    simpa using h
  | succ k ih =>
    intro rest done st st' rest' h he
    match rest, he with
    | [], he => simp [analyseLoop] at he
    | [_], he => simp [analyseLoop] at he
    | a :: b :: rest, he =>
      rw [analyseLoop] at he
      obtain ⟨h1, h2⟩ := ih rest _ _ _ _ (analyse1_inv (analyse0_inv h a) b) he
      rw [show 2 * (k + 1) = 2 * k + 1 + 1 by omega, List.take_succ_cons, List.take_succ_cons,
        List.drop_succ_cons, List.drop_succ_cons]
      refine ⟨by simpa using h1, h2⟩

theorem analyseLoop_isSome (k : Nat) : ∀ (rest : List UInt8) (st : An), 2 * k ≤ rest.length →
    ∃ r, analyseLoop k rest st = some r := by
  induction k with
  | zero => intro rest st _; exact ⟨_, rfl⟩
  | succ k ih =>
    intro rest st hl
    match rest, hl with
    | [], hl => simp at hl
    | [_], hl => simp at hl; omega
    | a :: b :: rest, hl =>
      rw [analyseLoop]
      exact ih rest _ (by simp at hl; omega)

/-- The frequencies of a text, and bounds for the frequencies of the pairs. -/
theorem analyseData_spec {F0 : UInt8 → Nat} {data : List UInt8} {an : An}
    (h : analyseData F0 data = some an) (hl : data.length ≤ 2 ^ 32) :
    (∀ c, an.freqs c = F0 c + data.count c) ∧ (∀ a b, an.pairs a b ≤ data.count a) ∧
      ∀ a b, an.pairs a b ≤ data.count b := by
  match data, h, hl with
  | [], h, _ => simp [analyseData] at h
  | first :: rest, h, hl =>
    have hl' : rest.length % 2 ^ 32 = rest.length := Nat.mod_eq_of_lt (by simp at hl; omega)
    rw [analyseData, hl'] at h
    simp only [Option.bind_eq_bind, Option.bind_eq_some_iff] at h
    obtain ⟨⟨st, rest'⟩, h1, h2⟩ := h
    have h0 : AnInv F0 [first] (beginAnalysing F0 first) := by
      refine ⟨?_, ?_, ?_⟩
      · intro c
        simp only [beginAnalysing, inc_apply]
        omega
      · intro a b
        simp only [beginAnalysing, List.count_singleton, beq_iff_eq]
        by_cases hfa : first = a <;> simp [hfa]
      · intro a b
        simp [beginAnalysing]
    obtain ⟨h3, h4⟩ := analyseLoop_inv _ _ _ _ _ _ h0 h1
    have fin : AnInv F0 (first :: rest) an := by
      simp only at h2
      by_cases hp : (rest.length + 1) % 2 = 0
      · rw [if_pos hp] at h2
        have hd : rest = rest.take (2 * (rest.length / 2)) ++ rest.drop (2 * (rest.length / 2)) :=
          (List.take_append_drop _ _).symm
        have hlen : (rest.drop (2 * (rest.length / 2))).length = 1 := by
          rw [List.length_drop]; omega
        rw [← h4] at hd hlen
        match rest', hlen, h2 with
        | [x], _, h2 =>
          simp only [Option.pure_def, Option.some.injEq] at h2
          rw [← h2]
          have := analyse0_inv h3 x
          rw [List.append_assoc, ← hd] at this
          exact this
      · rw [if_neg hp] at h2
        simp only [Option.pure_def, Option.some.injEq] at h2
        rw [← h2]
        rw [List.take_of_length_le (by omega)] at h3
        exact h3
    refine ⟨fin.freqs, ?_, fin.snd⟩
    intro a b
    have := fin.fst a b
    omega

/-! ## The sorted list of pairs -/

theorem pairGe_trans (a b c : P) : pairGe a b = true → pairGe b c = true → pairGe a c = true := by
  simp only [pairGe, Bool.or_eq_true, Bool.and_eq_true, decide_eq_true_eq, beq_iff_eq]
  omega

theorem pairGe_total (a b : P) : (pairGe a b || pairGe b a) = true := by
  simp only [pairGe, Bool.or_eq_true, Bool.and_eq_true, decide_eq_true_eq, beq_iff_eq]
  omega

theorem sortedPairs_sorted (f : UInt8 → UInt8 → Nat) :
    (sortedPairs f).Pairwise fun p q => q.1 ≤ p.1 := by
  refine List.Pairwise.imp ?_ (List.pairwise_mergeSort pairGe_trans pairGe_total _)
  intro a b h
  simp only [pairGe, Bool.or_eq_true, Bool.and_eq_true, decide_eq_true_eq, beq_iff_eq] at h
  omega

theorem sortedPairs_mem {f : UInt8 → UInt8 → Nat} {p : P} (h : p ∈ sortedPairs f) :
    p.1 = f p.2.1 p.2.2 := by
  rw [sortedPairs, List.mem_mergeSort, makePairList, List.mem_map] at h
  obtain ⟨i, _, rfl⟩ := h
  rfl

/-! ## The search -/

/-- The frequencies in the table ascend and are not too large. -/
structure TabOK (t : FT) : Prop where
  sorted : ∀ i j a b, i ≤ j → freq32 t i = some a → freq32 t j = some b → a ≤ b
  small : ∀ i a, freq32 t i = some a → a + 1003 < 2 ^ 32

/-- Pairs that have been taken: they have no special symbols and are more frequent than the first
`n` symbols and at least as frequent as the remaining pairs. -/
structure Taken (g : G) (t : FT) (f : UInt8 → UInt8 → Nat) (n : Nat) (repl ps : List P) : Prop where
  bound : ∀ p ∈ repl, ∀ i, i < n → ∀ a, freq32 t i = some a → a + 1003 < p.1
  order : ∀ p ∈ repl, ∀ q ∈ ps, q.1 ≤ p.1
  nonspec : ∀ p ∈ repl, g.isSpecial p.2.1 = false ∧ g.isSpecial p.2.2 = false
  freq : ∀ p ∈ repl, p.1 = f p.2.1 p.2.2

theorem Taken.tail {g : G} {t : FT} {f : UInt8 → UInt8 → Nat} {n : Nat} {repl ps : List P} {p : P}
    (h : Taken g t f n repl (p :: ps)) : Taken g t f n repl ps :=
  ⟨h.bound, fun q hq r hr => h.order q hq r (by simp [hr]), h.nonspec, h.freq⟩

theorem Taken.mono {g : G} {t : FT} {f : UInt8 → UInt8 → Nat} {n m : Nat} {repl ps : List P}
    (h : Taken g t f n repl ps) (hm : m ≤ n) : Taken g t f m repl ps :=
  ⟨fun p hp i hi => h.bound p hp i (by omega), h.order, h.nonspec, h.freq⟩

/-- Taking the next pair, with the symbol at position `cs`. -/
theorem Taken.push {g : G} {t : FT} (ht : TabOK t) {f : UInt8 → UInt8 → Nat} {n cs : Nat}
    {repl ps : List P} {p : P} (h : Taken g t f n repl (p :: ps))
    (hs : (p :: ps).Pairwise fun p q => q.1 ≤ p.1) (hf : p.1 = f p.2.1 p.2.2) {fr : Nat}
    (hfr : freq32 t cs = some fr) (hlt : ¬ (fr + 1003) % 2 ^ 32 ≥ p.1)
    (hns : g.isSpecial p.2.1 = false ∧ g.isSpecial p.2.2 = false) :
    Taken g t f (cs + 1) (repl ++ [p]) ps := by
  have hsm := ht.small cs fr hfr
  rw [Nat.mod_eq_of_lt hsm] at hlt
  rw [List.pairwise_cons] at hs
  refine ⟨?_, ?_, ?_, ?_⟩
  · intro q hq i hi a ha
    have hle := ht.sorted i cs a fr (by omega) ha hfr
    rcases List.mem_append.mp hq with hq | hq
    · have := h.order q hq p (by simp)
      omega
    · rw [List.mem_singleton] at hq
      subst hq
      omega
  · intro q hq r hr
    rcases List.mem_append.mp hq with hq | hq
    · exact h.order q hq r (by simp [hr])
    · rw [List.mem_singleton] at hq
      subst hq
      exact hs.1 r hr
  · intro q hq
    rcases List.mem_append.mp hq with hq | hq
    · exact h.nonspec q hq
    · rw [List.mem_singleton] at hq
      subst hq
      exact hns
  · intro q hq
    rcases List.mem_append.mp hq with hq | hq
    · exact h.freq q hq
    · rw [List.mem_singleton] at hq
      subst hq
      exact hf

theorem not_skip {g : G} {st : St} {a b : UInt8} (h : ¬ skip g st a b = true) :
    g.isSpecial a = false ∧ g.isSpecial b = false := by
  simp only [skip, Bool.or_eq_true, not_or, Bool.not_eq_true] at h
  exact ⟨h.2, h.1.2⟩

theorem countFree_spec (t : FT) : ∀ (l : List (UInt8 × Nat)) (i k : Nat),
    countFree l i = some k → t.fr.drop i = l → i ≤ k ∧
      (∀ j a, i ≤ j → j < k → freq32 t j = some a → a = 0) ∧
      ∃ a, freq32 t k = some a ∧ a ≠ 0 := by
  intro l
  induction l with
  | nil => intro i k h; simp [countFree] at h
  | cons e l ih =>
    intro i k h hd
    have hi : t.fr[i]? = some e := by
      have := congrArg (·[0]?) hd
      simpa using this
    have hfi : freq32 t i = some (e.2 % 2 ^ 32) := by
      simp [freq32, getFrequency, hi]
    rw [countFree] at h
    split at h
    · rename_i h0
      obtain ⟨h1, h2, h3⟩ := ih (i + 1) k h (by rw [← List.drop_drop, hd]; rfl)
      refine ⟨by omega, ?_, h3⟩
      intro j a hj hk ha
      by_cases hji : j = i
      · subst hji
        rw [hfi] at ha
        simp only [Option.some.injEq] at ha
        omega
      · exact h2 j a (by omega) hk ha
    · rename_i h0
      simp only [Option.some.injEq] at h
      subst h
      exact ⟨Nat.le_refl _, fun j a h1 h2 => by omega, _, hfi, h0⟩

/-- State of the first loop. -/
structure L1 (g : G) (t : FT) (f : UInt8 → UInt8 → Nat) (free total : Nat) (ps : List P)
    (withoutNew : Nat) (st : St) : Prop where
  taken : Taken g t f st.cs st.repl ps
  sorted : ps.Pairwise fun p q => q.1 ≤ p.1
  freqs : ∀ p ∈ ps, p.1 = f p.2.1 p.2.2
  cs : st.cs = st.vars
  len : st.repl.length = st.vars
  specs : st.specs = 0
  total : withoutNew + st.vars = total
  forFree : st.forFree = min st.vars free

theorem loop1_spec {g : G} {t : FT} (ht : TabOK t) {f : UInt8 → UInt8 → Nat} {free total : Nat}
    (hfree : ∀ i a, freq32 t i = some a → (a = 0 ↔ i < free)) :
    ∀ (ps : List P) (w : Nat) (st : St) (st' : St) (w' : Nat) (ps' : List P),
      L1 g t f free total ps w st → loop1 g t ps w st = some (st', w', ps') →
      L1 g t f free total ps' w' st' := by
  intro ps
  induction ps with
  | nil => intro w st st' w' ps' _ h; simp [loop1] at h
  | cons p ps ih =>
    intro w st st' w' ps' hi h
    rw [loop1] at h
    split at h
    · exact ih w st st' w' ps' ⟨hi.taken.tail, (List.pairwise_cons.mp hi.sorted).2,
        fun q hq => hi.freqs q (by simp [hq]), hi.cs, hi.len, hi.specs, hi.total, hi.forFree⟩ h
    · rename_i hsk
      split at h
      · cases h
      · rename_i fr hfr
        split at h
        · simp only [Option.some.injEq, Prod.mk.injEq] at h
          obtain ⟨rfl, rfl, rfl⟩ := h
          exact hi
        · rename_i hc
          rw [not_or] at hc
          have hnext : L1 g t f free total ps (w - 1) { st.take p with
              vars := st.vars + 1
              forFree := if fr = 0 then st.forFree + 1 else st.forFree
              utility := st.utility + p.1 - fr } := by
            refine ⟨?_, (List.pairwise_cons.mp hi.sorted).2, fun q hq => hi.freqs q (by simp [hq]),
              ?_, ?_, hi.specs, ?_, ?_⟩
            · exact hi.taken.push ht hi.sorted (hi.freqs p (by simp)) hfr hc.1
                ⟨(not_skip hsk).1, (not_skip hsk).2⟩
            · simp only [St.take, hi.cs]
            · simp only [St.take, List.length_append, List.length_singleton, hi.len]
            · simp only
              have := hi.total
              omega
            · simp only
              have h1 := hi.forFree
              have h2 := hfree st.cs fr hfr
              have h3 := hi.cs
              split
              · rename_i h0
                have := h2.mp h0
                omega
              · rename_i h0
                have : ¬ st.cs < free := fun hlt => h0 (h2.mpr hlt)
                omega
          simp only at h
          split at h
          · exact ih _ _ _ _ _ hnext h
          · simp only [Option.some.injEq, Prod.mk.injEq] at h
            obtain ⟨rfl, rfl, rfl⟩ := h
            exact hnext

/-- The inner loop: the pairs before it are kept, at most `k` pairs are added. -/
theorem loop2_spec {g : G} {t : FT} (ht : TabOK t) {f : UInt8 → UInt8 → Nat} {n : Nat}
    (old : List P) (st0 : St) :
    ∀ (ps : List P) (k pas : Nat) (ut : Int) (st st' : St) (hope : Bool) (pas' : Nat) (ut' : Int)
      (ps' : List P),
      st.repl.take old.length = old → st.repl.length = old.length + pas → n ≤ st.cs →
      (st.vars = st0.vars ∧ st.specs = st0.specs ∧ st.forFree = st0.forFree ∧
        st.utility = st0.utility) →
      Taken g t f (if pas = 0 then n else st.cs) st.repl ps →
      ps.Pairwise (fun p q => q.1 ≤ p.1) → (∀ p ∈ ps, p.1 = f p.2.1 p.2.2) →
      st.cs = st0.cs + pas →
      loop2 g t ps k pas ut st = some (st', hope, pas', ut', ps') →
      st'.repl.take old.length = old ∧ st'.repl.length = old.length + pas' ∧ pas ≤ pas' ∧
        pas' ≤ pas + k ∧ (hope = true → pas' = pas + k) ∧
        (st'.vars = st0.vars ∧ st'.specs = st0.specs ∧ st'.forFree = st0.forFree ∧
          st'.utility = st0.utility) ∧
        Taken g t f (if pas' = 0 then n else st'.cs) st'.repl ps' ∧
        ps'.Pairwise (fun p q => q.1 ≤ p.1) ∧ (∀ p ∈ ps', p.1 = f p.2.1 p.2.2) ∧
        st'.cs = st0.cs + pas' ∧ ps'.length + (pas' - pas) ≤ ps.length := by
  intro ps
  induction ps with
  | nil =>
    intro k pas ut st st' hope pas' ut' ps' h1 h2 h3 h4 h5 h6 h7 h8 h
    cases k with
    | zero =>
      simp only [loop2, Option.some.injEq, Prod.mk.injEq] at h
      obtain ⟨rfl, rfl, rfl, rfl, rfl⟩ := h
      exact ⟨h1, h2, Nat.le_refl _, by omega, fun _ => rfl, h4, h5, h6, h7, h8, by simp⟩
    | succ k => simp [loop2] at h
  | cons p ps ih =>
    intro k pas ut st st' hope pas' ut' ps' h1 h2 h3 h4 h5 h6 h7 h8 h
    cases k with
    | zero =>
      simp only [loop2, Option.some.injEq, Prod.mk.injEq] at h
      obtain ⟨rfl, rfl, rfl, rfl, rfl⟩ := h
      exact ⟨h1, h2, Nat.le_refl _, by omega, fun _ => rfl, h4, h5, h6, h7, h8, by simp⟩
    | succ k =>
      rw [loop2] at h
      split at h
      · obtain ⟨a1, a2, a3, a4, a5, a6, a7, a8, a9, a10, a11⟩ := ih (k + 1) pas ut st st' hope pas'
          ut' ps' h1 h2 h3 h4 h5.tail (List.pairwise_cons.mp h6).2
          (fun q hq => h7 q (by simp [hq])) h8 h
        exact ⟨a1, a2, a3, a4, a5, a6, a7, a8, a9, a10, by simp only [List.length_cons]; omega⟩
      · rename_i hsk
        split at h
        · cases h
        · rename_i fr hfr
          split at h
          · simp only [Option.some.injEq, Prod.mk.injEq] at h
            obtain ⟨rfl, rfl, rfl, rfl, rfl⟩ := h
            exact ⟨h1, h2, Nat.le_refl _, by omega, by simp, h4, h5, h6, h7, h8, by simp⟩
          · rename_i hc
            have hT : Taken g t f (st.cs + 1) (st.repl ++ [p]) ps :=
              h5.push ht h6 (h7 p (by simp)) hfr hc (not_skip hsk)
            have e1 : (st.take p).repl.take old.length = old := by
              simp only [St.take]
              rw [List.take_append_of_le_length (by omega), h1]
            have e2 : (st.take p).repl.length = old.length + (pas + 1) := by
              simp only [St.take, List.length_append, List.length_singleton]; omega
            have e4 : (st.take p).vars = st0.vars ∧ (st.take p).specs = st0.specs ∧
              (st.take p).forFree = st0.forFree ∧ (st.take p).utility = st0.utility := h4
            have e5 : Taken g t f (if pas + 1 = 0 then n else (st.take p).cs) (st.take p).repl ps := by
              rw [if_neg (by omega)]
              exact hT
            have e8 : (st.take p).cs = st0.cs + (pas + 1) := by simp only [St.take]; omega
            split at h
            · obtain ⟨a1, a2, a3, a4, a5, a6, a7, a8, a9, a10, a11⟩ := ih k (pas + 1) _ _ st' hope pas'
                ut' ps' e1 e2 (by simp only [St.take]; omega) e4 e5 (List.pairwise_cons.mp h6).2
                (fun q hq => h7 q (by simp [hq])) e8 h
              exact ⟨a1, a2, by omega, by omega, fun hh => by have := a5 hh; omega, a6, a7, a8, a9, a10,
                by simp only [List.length_cons]; omega⟩
            · simp only [Option.some.injEq, Prod.mk.injEq] at h
              obtain ⟨rfl, rfl, rfl, rfl, rfl⟩ := h
              exact ⟨e1, e2, by omega, by omega, by simp, e4, e5, (List.pairwise_cons.mp h6).2,
                fun q hq => h7 q (by simp [hq]), e8, by simp only [List.length_cons]; omega⟩

/-- What the search returns. -/
structure Found (g : G) (t : FT) (f : UInt8 → UInt8 → Nat) (repl : List P)
    (vars specs forFree : Nat) : Prop where
  taken : Taken g t f (vars + specs) repl []
  len : repl.length = vars
  le : forFree ≤ vars
  zero : ∀ i a, i < forFree → freq32 t i = some a → a = 0
  enough : Enough (vars - forFree) specs g.specials.length g.spr.length
  specs : vars = 0 → specs = 0

theorem loop3_spec {g : G} {t : FT} (ht : TabOK t) {f : UInt8 → UInt8 → Nat} (N : Nat) :
    ∀ (ps : List P) (tSpecials : Nat) (st st' : St), ps.length ≤ N →
      Taken g t f st.cs st.repl ps → ps.Pairwise (fun p q => q.1 ≤ p.1) →
      (∀ p ∈ ps, p.1 = f p.2.1 p.2.2) → Found g t f st.repl st.vars st.specs st.forFree →
      st.cs = st.vars + st.specs → tSpecials = g.specials.length + st.specs →
      g.spr.length + st.specs + (st.vars - st.forFree) = tSpecials * tSpecials →
      loop3 g t ps tSpecials st = some st' → Found g t f st'.repl st'.vars st'.specs st'.forFree := by
  induction N with
  | zero =>
    intro ps tS st st' hN hT hs hf hF hcs htS heq h
    rw [loop3] at h
    split at h
    · cases h
    · split at h
      · cases h
      · rename_i f2 _
        simp only at h
        have : ps = [] := List.eq_nil_of_length_eq_zero (by omega)
        subst this
        rw [show (if tS = 0 then 2 else 2 * tS) = (if tS = 0 then 1 else 2 * tS - 1) + 1 by
          split <;> omega, loop2] at h
        cases h
  | succ N ih =>
    intro ps tS st st' hN hT hs hf hF hcs htS heq h
    rw [loop3] at h
    split at h
    · cases h
    · rename_i f1 _
      split at h
      · cases h
      · rename_i f2 _
        simp only at h
        split at h
        · cases h
        · rename_i _ st1 hope pas ut ps' hl2
          have hT0 : Taken g t f (if (0 : Nat) = 0 then st.cs else
              (st.cs + if tS = 0 then 2 else 1)) st.repl ps := hT
          obtain ⟨a1, a2, a3, a4, a5, ⟨a6, a6', a6'', a6'''⟩, a7, a8, a9, a10, a11⟩ :=
            loop2_spec ht (n := st.cs) st.repl { st with cs := st.cs + if tS = 0 then 2 else 1 } ps _ 0 _ _
              st1 hope pas ut ps' (by simp) (by simp) (by simp only; split <;> omega) ⟨rfl, rfl, rfl, rfl⟩
              hT0 hs hf (by simp) hl2
          simp only at a6 a6' a6'' a6''' a10
          split at h
          · rename_i hacc
            have hpas : pas ≠ 0 := by omega
            rw [if_neg hpas] at a7
            have hvle := hF.le
            have hlen := hF.len
            have hF' : Found g t f st1.repl (st1.vars + pas)
                (st1.specs + if tS = 0 then 2 else 1) st1.forFree := by
              refine ⟨⟨?_, fun _ _ q hq => by simp at hq, a7.nonspec, a7.freq⟩, by omega, by omega, ?_, ?_,
                by omega⟩
              · intro p hp i hi a ha
                exact a7.bound p hp i (by omega) a ha
              · intro i a hi ha
                exact hF.zero i a (by omega) ha
              · have hv : st1.vars + pas - st1.forFree = (st.vars - st.forFree) + pas := by omega
                rw [hv]
                by_cases h0 : tS = 0
                · subst h0
                  simp only [if_true] at a4 ⊢
                  have e1 : g.specials.length = 0 := by omega
                  have e2 : st1.specs = 0 := by omega
                  have e3 : st.specs = 0 := by omega
                  rw [e1, e2]
                  rw [e3] at heq
                  constructor
                  · omega
                  · intro _; omega
                · rw [if_neg h0] at a4 ⊢
                  have e1 : g.specials.length + (st1.specs + 1) = tS + 1 := by omega
                  have e2 := sq_succ tS
                  constructor
                  · rw [e1, e2]
                    omega
                  · intro _
                    rw [show g.specials.length + (st1.specs + 1) - 1 = tS by omega, ← heq]
                    omega
            split at h
            · rename_i hh
              split at h
              · have hpl := a5 hh
                refine ih ps' _ _ st' (by omega) ?_ a8 a9 hF' ?_ ?_ ?_ h
                · exact a7
                · simp only
                  omega
                · simp only
                  omega
                · simp only
                  have hv : st1.vars + pas - st1.forFree = (st.vars - st.forFree) + pas := by omega
                  rw [hv]
                  by_cases h0 : tS = 0
                  · subst h0
                    simp only [if_true] at hpl ⊢
                    omega
                  · rw [if_neg h0] at hpl ⊢
                    rw [sq_succ]
                    omega
              · cases h
            · simp only [Option.some.injEq] at h
              subst h
              exact hF'
          · split at h
            · cases h
            · simp only [Option.some.injEq] at h
              subst h
              simp only
              rw [show st1.repl.length - pas = st.repl.length by omega, a1, a6, a6', a6'']
              exact hF

theorem findReplaceables_spec {g : G} {t : FT} (ht : TabOK t) {f : UInt8 → UInt8 → Nat} {start : Nat}
    {pairs : List P} (hs : pairs.Pairwise fun p q => q.1 ≤ p.1) (hf : ∀ p ∈ pairs, p.1 = f p.2.1 p.2.2)
    {st : St} (h : findReplaceables g t start pairs = some st) :
    Found g t f st.repl st.vars st.specs st.forFree := by
  unfold findReplaceables at h
  simp only [Option.bind_eq_bind, Option.bind_eq_some_iff] at h
  obtain ⟨free, hfree, h⟩ := h
  obtain ⟨_, c1, a0, c2, c3⟩ := countFree_spec t t.fr 0 free hfree rfl
  have hfr : ∀ i a, freq32 t i = some a → (a = 0 ↔ i < free) := by
    intro i a ha
    constructor
    · intro h0
      apply Decidable.byContradiction
      intro hc
      have := ht.sorted free i a0 a (by omega) c2 ha
      omega
    · intro hi
      exact c1 i a (by omega) hi ha
  split at h
  · cases h
  · rename_i hle
    have fin : ∀ (st1 : St) (w1 : Nat) (ps1 : List P),
        L1 g t f free (g.specials.length * g.specials.length - g.spr.length + free) ps1 w1 st1 →
        (if ps1 ≠ [] ∧ st1.cs < t.last ∧ w1 = 0 then loop3 g t ps1 g.specials.length st1
          else some st1) = some st → Found g t f st.repl st.vars st.specs st.forFree := by
      intro st1 w1 ps1 hL h2
      have l1 := hL.total
      have l2 := hL.forFree
      have l3 := hL.specs
      have l4 := hL.cs
      have hF : Found g t f st1.repl st1.vars st1.specs st1.forFree := by
        refine ⟨⟨?_, fun _ _ q hq => by simp at hq, hL.taken.nonspec, hL.taken.freq⟩, hL.len, by omega, ?_,
          ?_, fun _ => l3⟩
        · intro p hp i hi a ha
          exact hL.taken.bound p hp i (by omega) a ha
        · intro i a hi ha
          exact (hfr i a ha).mpr (by omega)
        · rw [l3]
          constructor
          · rw [Nat.add_zero, Nat.add_zero]
            omega
          · omega
      split at h2
      · rename_i hc
        refine loop3_spec ht ps1.length ps1 _ st1 st (Nat.le_refl _) hL.taken hL.sorted hL.freqs hF
          (by omega) (by omega) (by omega) h2
      · simp only [Option.some.injEq] at h2
        subst h2
        exact hF
    generalize hst0 : (⟨[], fun _ => false, fun c => decide (c = 0), 0, 0, 0, 0, 0⟩ : St) = st0 at h
    have hstart : L1 g t f free (g.specials.length * g.specials.length - g.spr.length + free)
        (pairs.drop start) (g.specials.length * g.specials.length - g.spr.length + free) st0 := by
      rw [← hst0]
      refine ⟨⟨by simp, by simp, by simp, by simp⟩, hs.sublist (List.drop_sublist _ _),
        fun p hp => hf p (List.mem_of_mem_drop hp), rfl, rfl, rfl, by simp, by simp⟩
    split at h
    · rw [Option.bind_eq_some_iff] at h
      obtain ⟨⟨st1, w1, ps1⟩, h1, h2⟩ := h
      exact fin st1 w1 ps1 (loop1_spec ht hfr _ _ _ _ _ _ hstart h1) h2
    · exact fin _ _ _ hstart h

theorem findReplaceablePairs_spec {g : G} {t : FT} (ht : TabOK t) {f : UInt8 → UInt8 → Nat}
    {pairs : List P} (hs : pairs.Pairwise fun p q => q.1 ≤ p.1) (hf : ∀ p ∈ pairs, p.1 = f p.2.1 p.2.2)
    (hle : g.spr.length ≤ g.specials.length * g.specials.length)
    {b : Best} (h : findReplaceablePairs g t pairs = some b) :
    Found g t f b.repl b.vars b.specs b.forFree := by
  unfold findReplaceablePairs at h
  have main : ∀ (l : List Nat) (b0 b : Best), Found g t f b0.repl b0.vars b0.specs b0.forFree →
      l.foldlM (fun best i => do
        let st ← findReplaceables g t i pairs
        if st.utility > best.utility then
          return ⟨st.utility, st.repl, st.vars, st.specs, st.forFree⟩
        else return best) b0 = some b → Found g t f b.repl b.vars b.specs b.forFree := by
    intro l
    induction l with
    | nil =>
      intro b0 b h0 hb
      simp only [List.foldlM_nil, Option.pure_def, Option.some.injEq] at hb
      subst hb
      exact h0
    | cons i l ih =>
      intro b0 b h0 hb
      rw [List.foldlM_cons] at hb
      simp only [Option.bind_eq_bind, Option.bind_eq_some_iff] at hb
      obtain ⟨b1, ⟨st, hst, hb1⟩, hb2⟩ := hb
      refine ih b1 b ?_ hb2
      split at hb1
      · simp only [Option.pure_def, Option.some.injEq] at hb1
        subst hb1
        exact findReplaceables_spec ht hs hf hst
      · simp only [Option.pure_def, Option.some.injEq] at hb1
        subst hb1
        exact h0
  refine main _ _ _ ?_ h
  refine ⟨⟨by simp, by simp, by simp, by simp⟩, rfl, Nat.le_refl _, by simp, ⟨by simpa using hle, by simp⟩,
    fun _ => rfl⟩

/-! ## The plan -/

theorem mapM_some_spec {α β : Type} {f : α → Option β} : ∀ {l : List α} {r : List β},
    l.mapM f = some r → r.length = l.length ∧ ∀ (i : Nat) (a : α), l[i]? = some a → r[i]? = f a := by
  intro l
  induction l with
  | nil => intro r h; simp at h; subst h; simp
  | cons x l ih =>
    intro r h
    rw [List.mapM_cons] at h
    simp only [Option.bind_eq_bind, Option.bind_eq_some_iff, Option.pure_def, Option.some.injEq] at h
    obtain ⟨y, h1, ys, h2, rfl⟩ := h
    obtain ⟨h3, h4⟩ := ih h2
    refine ⟨by simp [h3], ?_⟩
    intro i a hi
    cases i with
    | zero => simp at hi; subst hi; simp [h1]
    | succ i => simp at hi ⊢; exact h4 i a hi

/-- Distinct cells of the table have distinct keys. -/
theorem keysAt_spec {F : UInt8 → Nat} {t : FT} (h : Inv F t) {i n : Nat} {ks : List UInt8}
    (hk : keysAt t i n = some ks) :
    ks.length = n ∧ ∀ (j : Nat) (c : UInt8), ks[j]? = some c → t.loc c = i + j := by
  obtain ⟨h1, h2⟩ := mapM_some_spec hk
  rw [List.length_range] at h1
  refine ⟨h1, ?_⟩
  intro j c hj
  have hlt : j < n := by
    obtain ⟨hlt, _⟩ := List.getElem?_eq_some_iff.mp hj
    omega
  have := h2 j j (by rw [List.getElem?_range hlt])
  rw [hj, getKey] at this
  have := this.symm
  rw [Option.map_eq_some_iff] at this
  obtain ⟨⟨k, v⟩, h3, h4⟩ := this
  simp only at h4
  subst h4
  exact (h.cells _ _ _ h3).1

theorem keysAt_mem {F : UInt8 → Nat} {t : FT} (h : Inv F t) {i n : Nat} {ks : List UInt8}
    (hk : keysAt t i n = some ks) {c : UInt8} (hc : c ∈ ks) : i ≤ t.loc c ∧ t.loc c < i + n := by
  obtain ⟨h1, h2⟩ := keysAt_spec h hk
  obtain ⟨j, hj⟩ := List.mem_iff_getElem?.mp hc
  obtain ⟨hlt, _⟩ := List.getElem?_eq_some_iff.mp hj
  have := h2 j c hj
  omega

theorem keysAt_nodup {F : UInt8 → Nat} {t : FT} (h : Inv F t) {i n : Nat} {ks : List UInt8}
    (hk : keysAt t i n = some ks) : ks.Nodup := by
  obtain ⟨h1, h2⟩ := keysAt_spec h hk
  unfold List.Nodup
  rw [List.pairwise_iff_getElem]
  intro a b ha hb hab he
  have e1 := h2 a _ (List.getElem?_eq_getElem ha)
  have e2 := h2 b _ (List.getElem?_eq_getElem hb)
  rw [he] at e1
  omega

theorem specialKeys_mem {g : G} {ars : List (Key × List Key)} (h : OK g ars) (c : UInt8) :
    c ∈ specialKeys g ↔ c ∈ g.specials := by
  rw [specialKeys, List.mem_filter, ← h.spec c]
  constructor
  · exact fun h => h.2
  · intro hc
    refine ⟨?_, hc⟩
    rw [List.mem_map]
    exact ⟨c.toNat, List.mem_range.mpr c.toNat_lt, UInt8.ofNat_toNat⟩

theorem specialKeys_nodup (g : G) : (specialKeys g).Nodup := by
  unfold specialKeys
  refine List.Pairwise.filter _ ?_
  show ((List.range 256).map UInt8.ofNat).Nodup
  rw [List.nodup_iff_pairwise_ne, List.pairwise_map]
  have hp : (List.range 256).Pairwise (· < ·) := List.pairwise_lt_range
  refine List.Pairwise.imp_of_mem ?_ hp
  intro a b ha hb hab hc
  rw [List.mem_range] at ha hb
  have := ofNat_inj ha hb hc
  omega

/-- The plan made by `decideReplacements` is sound. -/
theorem choose_ok {mk : (UInt8 → Nat) → FT} {beyond : Option Nat} {g : G}
    {ars : List (Key × List Key)} {data : List UInt8} {an : An} {pl : Plan} {x : Nat}
    (hok : OK g ars) (han : analyseData g.freqs data = some an) (hl : data.length ≤ 2 ^ 32)
    (hmk : Initial an.freqs (mk an.freqs)) (hx : ∀ c, an.freqs c < x) (hx2 : x + 1003 < 2 ^ 32)
    (hbeyond : g.specials ≠ [] → ∃ y, beyond = some y ∧ x ≤ y)
    (h : choose mk beyond g an = some pl) : PlanOK g data pl := by
  obtain ⟨hF, hpa, hpb⟩ := analyseData_spec han hl
  unfold choose at h
  simp only [Option.bind_eq_bind, Option.bind_eq_some_iff] at h
  obtain ⟨t, ht, best, hbest, frees, hfrees, news, hnews, freed, hfreed, h⟩ := h
  have hrem : ∃ F', Removed an.freqs x ((specialKeys g).reverse ++ []) F' t := by
    have h0 : Removed an.freqs x [] an.freqs (mk an.freqs) := by
      have hi := initial_inv hmk
      have hlast := hmk.2.2.2
      refine ⟨hi, by simpa using hlast, fun k _ => ⟨rfl, ?_⟩, by simp⟩
      have := hi.loc_lt k
      omega
    by_cases hsp : g.specials = []
    · have : specialKeys g = [] := by
        apply List.eq_nil_iff_forall_not_mem.mpr
        intro c hc
        rw [specialKeys_mem hok, hsp] at hc
        simp at hc
      rw [this] at ht ⊢
      simp only [removeAll, Option.some.injEq] at ht
      subst ht
      exact ⟨_, h0⟩
    · obtain ⟨y, rfl, hxy⟩ := hbeyond hsp
      obtain ⟨t', F', e1, e2⟩ := removeAll_spec hx hxy (specialKeys g) [] _ _ h0
        (by rw [List.append_nil]; exact specialKeys_nodup g)
      rw [e1] at ht
      simp only [Option.some.injEq] at ht
      subst ht
      exact ⟨F', e2⟩
  generalize hks : (specialKeys g).reverse ++ [] = ks at hrem
  have hkmem : ∀ c, c ∈ ks ↔ c ∈ g.specials := by
    intro c
    rw [← hks, List.append_nil, List.mem_reverse, specialKeys_mem hok]
  obtain ⟨F', hR⟩ := hrem
  have hle : ∀ k, F' k ≤ x := by
    intro k
    by_cases hk : k ∈ ks
    · exact (hR.gone k hk).2.2
    · rw [(hR.same k hk).1]
      exact Nat.le_of_lt (hx k)
  have hfr : ∀ i k v, t.fr[i]? = some (k, v) → freq32 t i = some (F' k) ∧ t.loc k = i := by
    intro i k v hi
    obtain ⟨c1, c2⟩ := hR.inv.cells i k v hi
    refine ⟨?_, c1⟩
    have := hle k
    simp only [freq32, getFrequency, hi, Option.map_some, ← c2]
    rw [Nat.mod_eq_of_lt (by omega)]
  have hfr' : ∀ i a, freq32 t i = some a → ∃ k v, t.fr[i]? = some (k, v) ∧ a = F' k := by
    intro i a ha
    cases hc : t.fr[i]? with
    | none => simp [freq32, getFrequency, hc] at ha
    | some e =>
      obtain ⟨k, v⟩ := e
      have := (hfr i k v hc).1
      rw [this] at ha
      simp only [Option.some.injEq] at ha
      exact ⟨k, v, rfl, ha.symm⟩
  have htab : TabOK t := by
    refine ⟨?_, ?_⟩
    · intro i j a b hij ha hb
      obtain ⟨k, v, e1, rfl⟩ := hfr' i a ha
      obtain ⟨k', v', e2, rfl⟩ := hfr' j b hb
      by_cases he : i = j
      · subst he
        rw [e1] at e2
        simp only [Option.some.injEq, Prod.mk.injEq] at e2
        rw [e2.1]
        exact Nat.le_refl _
      · have := hR.inv.sorted i j _ _ (by omega) e1 e2
        simp only at this
        rw [(hR.inv.cells _ _ _ e1).2, (hR.inv.cells _ _ _ e2).2]
        exact this
    · intro i a ha
      obtain ⟨k, v, _, rfl⟩ := hfr' i a ha
      have := hle k
      omega
  have hfound := findReplaceablePairs_spec htab (sortedPairs_sorted an.pairs)
    (fun p hp => sortedPairs_mem hp) hok.le hbest
  have hvle := hfound.le
  rw [Nat.min_eq_left hvle] at hfrees hnews hfreed
  rw [if_neg (by omega)] at hfreed
  split at h
  · cases h
  · rename_i hlast
    simp only [Option.bind_eq_some_iff] at h
    obtain ⟨common, hcommon, h⟩ := h
    split at h
    · rename_i hlen
      simp only [Option.pure_def, Option.some.injEq] at h
      subst h
      have hfreel := (keysAt_spec hR.inv hfrees).1
      have hfreedl := (keysAt_spec hR.inv hfreed).1
      have hnewsl := (keysAt_spec hR.inv hnews).1
      have hcl : t.loc common = t.last - 1 := by
        rw [getKey, Option.map_eq_some_iff] at hcommon
        obtain ⟨⟨k, v⟩, h3, h4⟩ := hcommon
        simp only at h4
        subst h4
        exact (hR.inv.cells _ _ _ h3).1
      -- symbols that are used lie in the first cells
      have hused : ∀ c ∈ freed ++ news ++ frees, t.loc c < best.vars + best.specs := by
        intro c hc
        rw [List.mem_append, List.mem_append] at hc
        rcases hc with (hc | hc) | hc
        · have := keysAt_mem hR.inv hfreed hc; omega
        · have := keysAt_mem hR.inv hnews hc; omega
        · have := keysAt_mem hR.inv hfrees hc; omega
      -- symbols of the pairs do not
      have hsym : ∀ p ∈ best.repl, ∀ a, g.isSpecial a = false → p.1 ≤ data.count a →
          a ∉ g.specials ∧ best.vars + best.specs ≤ t.loc a ∧ t.loc a < t.last := by
        intro p hp a ha hcount
        have h1 : a ∉ g.specials := by
          rw [← hok.spec a, ha]; simp
        have h2 := hR.same a (by rw [hkmem]; exact h1)
        refine ⟨h1, ?_, h2.2⟩
        apply Decidable.byContradiction
        intro hc
        obtain ⟨v, hv⟩ := hR.inv.keys a
        obtain ⟨e1, _⟩ := hfr _ _ _ hv
        have := hfound.taken.bound p hp (t.loc a) (by omega) _ e1
        rw [h2.1, hF a] at this
        omega
      have hfsts : ∀ p ∈ best.repl, (p.2.1 ∉ g.specials ∧ best.vars + best.specs ≤ t.loc p.2.1 ∧
          t.loc p.2.1 < t.last) ∧ (p.2.2 ∉ g.specials ∧ best.vars + best.specs ≤ t.loc p.2.2 ∧
          t.loc p.2.2 < t.last) := by
        intro p hp
        obtain ⟨n1, n2⟩ := hfound.taken.nonspec p hp
        have hq := hfound.taken.freq p hp
        refine ⟨hsym p hp _ n1 ?_, hsym p hp _ n2 ?_⟩
        · rw [hq]; exact hpa _ _
        · rw [hq]; exact hpb _ _
      have hnonspec : best.repl ≠ [] → ∀ c, t.loc c < t.last → c ∉ g.specials := by
        intro _ c hc hs
        have := (hR.gone c ((hkmem c).mpr hs)).1
        omega
      have hbig : best.repl ≠ [] → best.vars + best.specs < t.last := by
        intro hne
        obtain ⟨p, ps, hp⟩ := List.exists_cons_of_ne_nil hne
        have := (hfsts p (by rw [hp]; simp)).1
        omega
      have hnn : ∀ {l : List (UInt8 × UInt8)} {m : List UInt8}, l.zip m ≠ [] → l ≠ [] := by
        intro l m h0 h1
        subst h1
        simp at h0
      have hne : (best.repl.map (·.2)).zip (freed ++ frees) ≠ [] → best.repl ≠ [] := by
        intro h0 h1
        exact hnn h0 (by rw [h1]; rfl)
      have hzero : ∀ c ∈ frees, best.repl ≠ [] ∧ an.freqs c = 0 := by
        intro c hc
        have h1 := keysAt_mem hR.inv hfrees hc
        have h0 : best.repl ≠ [] := by
          intro h0
          have := hfound.len
          rw [h0] at this
          simp at this
          omega
        refine ⟨h0, ?_⟩
        have h2 := hbig h0
        have h3 := hnonspec h0 c (by omega)
        obtain ⟨v, hv⟩ := hR.inv.keys c
        have h4 := hfound.zero (t.loc c) _ (by omega) (hfr _ _ _ hv).1
        rw [← (hR.same c (by rw [hkmem]; exact h3)).1]
        exact h4
      refine ⟨?_, ?_, ?_, ?_⟩
      · intro hp
        have h0 := hne hp
        refine ⟨?_, ?_, ?_, ?_, ?_, ?_⟩
        · exact List.map_snd_zip (by rw [List.length_map]; omega)
        · rw [List.nodup_append, List.nodup_append]
          refine ⟨⟨keysAt_nodup hR.inv hfreed, keysAt_nodup hR.inv hnews, ?_⟩,
            keysAt_nodup hR.inv hfrees, ?_⟩
          · intro a ha b hb hab
            subst hab
            have := keysAt_mem hR.inv hfreed ha
            have := keysAt_mem hR.inv hnews hb
            omega
          · intro a ha b hb hab
            subst hab
            have := keysAt_mem hR.inv hfrees hb
            rcases List.mem_append.mp ha with ha | ha
            · have := keysAt_mem hR.inv hfreed ha
              omega
            · have := keysAt_mem hR.inv hnews ha
              omega
        · intro c hc
          have := hused c hc
          have := hbig h0
          exact hnonspec h0 c (by omega)
        · intro e he
          have he1 := (List.of_mem_zip he).1
          rw [List.mem_map] at he1
          obtain ⟨p, hp1, hp2⟩ := he1
          obtain ⟨⟨a1, a2, a3⟩, b1, b2, b3⟩ := hfsts p hp1
          rw [hp2] at a1 a2 b1 b2
          refine ⟨a1, b1, ?_, ?_⟩
          · intro hc
            have := hused _ hc
            omega
          · intro hc
            have := hused _ hc
            omega
        · intro c hc
          have := (hzero c hc).2
          rw [hF, hok.freq] at this
          rw [← List.count_eq_zero]
          omega
        · rw [hfreedl, hnewsl]
          exact hfound.enough
      · intro hp
        have h0 := hne hp
        have h1 := hbig h0
        show common ∉ _
        rw [List.mem_append, not_or]
        refine ⟨hnonspec h0 _ (by omega), ?_⟩
        intro hc
        have := keysAt_mem hR.inv hnews hc
        omega
      · intro hp
        have h0 := hne hp
        have h1 := hbig h0
        show common ∉ _
        rw [List.mem_append, not_or]
        refine ⟨?_, ?_⟩
        · intro hc
          have := keysAt_mem hR.inv hfreed hc
          omega
        · intro hc
          have := keysAt_mem hR.inv hfrees hc
          omega
      · intro c hc
        have := (hzero c hc).2
        rw [hF] at this
        rw [← List.count_eq_zero]
        omega
    · cases h

end Bwtc.PairReplace
