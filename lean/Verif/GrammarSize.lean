import Verif.GrammarStep

/-!
# The sizes of the replacements of the postprocessor

The constructor of `Postprocessor` (Postprocessor.cpp:62-94) expands every rule, so `m_replacements` holds the full expansion of every
variable, whether or not the data uses it.  The model is `postTable`.
-/

set_option autoImplicit false

namespace Bwtc.Grammar

theorem uncompress_size {isSpecial : UInt8 → Bool} {t : Table} {L : Nat} (ht : ∀ k, (t k).length ≤ L) :
    ∀ (n : Nat) (l out : List UInt8), l.length = n → uncompress isSpecial t l = some out → out.length ≤ L * l.length := by
  intro n
  induction n using Nat.strongRecOn with
  | _ n ih =>
    intro l out hl h
    match l, hl, h with
    | [], _, h =>
      rw [uncompress] at h; cases h; simp
    | [c], _, h =>
      rw [uncompress] at h
      by_cases hc : isSpecial c = true
      · rw [if_pos hc] at h; cases h
      · rw [if_neg hc] at h; cases h; simpa using ht (.one c)
    | c :: d :: rest, hl, h =>
      rw [uncompress] at h
      simp only [List.length_cons] at hl
      by_cases hc : isSpecial c = true
      · rw [if_pos hc] at h
        simp only [Option.bind_eq_bind, Option.bind_eq_some_iff] at h
        obtain ⟨r, h1, h2⟩ := h
        cases h2
        have := ih rest.length (by omega) rest r rfl h1
        have := ht (.two c d)
        simp only [List.length_append, List.length_cons, Nat.mul_add]
        omega
      · rw [if_neg hc] at h
        simp only [Option.bind_eq_bind, Option.bind_eq_some_iff] at h
        obtain ⟨r, h1, h2⟩ := h
        cases h2
        have := ih (d :: rest).length (by simp only [List.length_cons]; omega) (d :: rest) r rfl h1
        have := ht (.one c)
        simp only [List.length_append, List.length_cons, Nat.mul_add] at *
        omega

theorem freed_size (fs : List ((UInt8 × UInt8) × UInt8)) : ∀ (t : Table) (L : Nat), (∀ k, (t k).length ≤ L) →
    ∀ k, (fs.foldl (fun t e => setKey t (.two e.1.1 e.1.2) (t (.two e.1.1 e.1.2) ++ [e.2])) t k).length ≤ L + fs.length := by
  induction fs with
  | nil => intro t L h k; simpa using h k
  | cons e fs ih =>
    intro t L h k
    rw [List.foldl_cons]
    refine Nat.le_trans (ih _ (L + 1) ?_ k) (by simp only [List.length_cons]; omega)
    intro k
    unfold setKey
    split
    · simpa using h _
    · exact Nat.le_succ_of_le (h k)

theorem rules_size {isSpecial : UInt8 → Bool} {m : Nat} (hm : 1 ≤ m) (rs : List Rule) : ∀ (t t' : Table) (L : Nat),
    (∀ k, (t k).length ≤ L) → (∀ r ∈ rs, r.rhs.length ≤ m) →
    rs.foldlM (fun t r => do
      let e ← uncompress isSpecial t r.rhs
      return setKey t r.lhs e) t = some t' → ∀ k, (t' k).length ≤ L * m ^ rs.length := by
  induction rs with
  | nil => intro t t' L h _ he k; cases he; simpa using h k
  | cons r rs ih =>
    intro t t' L h hr he k
    rw [List.foldlM_cons] at he
    simp only [Option.bind_eq_bind, Option.bind_eq_some_iff] at he
    obtain ⟨t1, ⟨e, h1, h2⟩, h3⟩ := he
    cases h2
    have hL : L ≤ L * m := Nat.le_mul_of_pos_right L hm
    have := ih (setKey t r.lhs e) t' (L * m) ?_ (fun x hx => hr x (List.mem_cons_of_mem _ hx)) (by simpa using h3) k
    · rw [List.length_cons, Nat.pow_succ, Nat.mul_comm (m ^ _) m, ← Nat.mul_assoc]; exact this
    · intro j
      unfold setKey
      split
      · exact Nat.le_trans (uncompress_size h _ _ _ rfl h1) (Nat.mul_le_mul_left L (hr r (List.mem_cons_self ..)))
      · exact Nat.le_trans (h j) hL

theorem freedSymbols_size {g : G} {fs : List ((UInt8 × UInt8) × UInt8)} (h : freedSymbols g = some fs) : fs.length ≤ g.spr.length := by
  unfold freedSymbols at h
  have h1 : ∀ (l : List ((Bool × UInt8) × Nat)) (fs : List ((UInt8 × UInt8) × UInt8)),
      l.mapM (fun e => (specialPair g.specials e.2).map fun p => (p, e.1.2)) = some fs → fs.length = l.length := by
    intro l
    induction l with
    | nil => intro fs h; cases h; rfl
    | cons e l ih =>
      intro fs h
      rw [List.mapM_cons] at h
      simp only [Option.bind_eq_bind, Option.bind_eq_some_iff] at h
      obtain ⟨x, _, y, h2, h3⟩ := h
      cases h3
      rw [List.length_cons, List.length_cons, ih y h2]
  rw [h1 _ _ h]
  exact Nat.le_trans (List.length_filter_le _ _) (Nat.le_of_eq List.length_zipIdx)

theorem postTable_size {g : G} {t : Table} {m : Nat} (hm : 1 ≤ m) (hr : ∀ r ∈ g.rules, r.rhs.length ≤ m) (h : postTable g = some t)
    (k : Key) : (t k).length ≤ (1 + g.spr.length) * m ^ g.rules.length := by
  unfold postTable initTable at h
  simp only [Option.bind_eq_bind, Option.bind_eq_some_iff] at h
  obtain ⟨t0, ⟨fs, h1, h2⟩, h3⟩ := h
  cases h2
  refine rules_size hm _ _ _ _ ?_ hr h3 k
  intro k
  refine Nat.le_trans (freed_size fs baseTable 1 ?_ k) (by have := freedSymbols_size h1; omega)
  intro k
  cases k <;> simp [baseTable]

/-- The rule that replaces a byte by two of it; the reader accepts it any number of times (Grammar.cpp:202-308). -/
def twice (c : UInt8) : Rule := ⟨.one c, [c, c]⟩

theorem twice_fold {isSpecial : UInt8 → Bool} {c : UInt8} (hc : isSpecial c = false) : ∀ (n : Nat) (t : Table), ∃ t',
    (List.replicate n (twice c)).foldlM (fun t r => do
      let e ← uncompress isSpecial t r.rhs
      return setKey t r.lhs e) t = some t' ∧ (t' (.one c)).length = 2 ^ n * (t (.one c)).length ∧ ∀ k, k ≠ .one c → t' k = t k := by
  intro n
  induction n with
  | zero => intro t; exact ⟨t, rfl, by simp, fun _ _ => rfl⟩
  | succ n ih =>
    intro t
    have hu : uncompress isSpecial t [c, c] = some (t (.one c) ++ t (.one c)) := by
      rw [uncompress, if_neg (by simp [hc]), uncompress, if_neg (by simp [hc])]
      rfl
    obtain ⟨t', h1, h2, h3⟩ := ih (setKey t (.one c) (t (.one c) ++ t (.one c)))
    refine ⟨t', ?_, ?_, ?_⟩
    · rw [List.replicate_succ, List.foldlM_cons]
      simp only [twice, hu, Option.bind_eq_bind, Option.bind_some]
      exact h1
    · rw [h2, setKey, if_pos rfl, List.length_append, Nat.pow_succ, Nat.mul_assoc, Nat.two_mul]
    · intro k hk
      rw [h3 k hk, setKey, if_neg hk]

theorem uncompress_plain {isSpecial : UInt8 → Bool} {t : Table} : ∀ (l : List UInt8),
    (∀ c ∈ l, isSpecial c = false ∧ t (.one c) = [c]) → uncompress isSpecial t l = some l
  | [], _ => by rw [uncompress]
  | [c], h => by
    obtain ⟨h1, h2⟩ := h c (by simp)
    rw [uncompress, if_neg (by simp [h1]), h2]
  | c :: d :: rest, h => by
    obtain ⟨h1, h2⟩ := h c (by simp)
    rw [uncompress, if_neg (by simp [h1]), uncompress_plain (d :: rest) (fun x hx => h x (List.mem_cons_of_mem _ hx)), h2]
    rfl

theorem evalRules_other (rs : List (Key × List Key)) : ∀ (t : Table) (k : Key), k ∉ rs.map Prod.fst → evalRules t rs k = t k := by
  induction rs with
  | nil => intro t k _; rfl
  | cons r rs ih =>
    intro t k hk
    simp only [List.map_cons, List.mem_cons, not_or] at hk
    rw [evalRules_cons, ih _ k hk.2, setKey, if_neg hk.1]

/-- What a variable stands for in the end is what its right side stands for in the end. -/
theorem evalRules_final (rs : List (Key × List Key)) : ∀ (t : Table), (rs.map Prod.fst).Nodup → Ordered rs →
    ∀ a ∈ rs, evalRules t rs a.1 = a.2.flatMap (evalRules t rs) := by
  induction rs with
  | nil => intro t _ _ a ha; cases ha
  | cons r rs ih =>
    intro t hn ho a ha
    rw [List.map_cons, List.nodup_cons] at hn
    rcases List.mem_cons.mp ha with rfl | ha
    · rw [evalRules_cons, evalRules_other rs _ _ hn.1, setKey, if_pos rfl]
      refine flatMap_congr _ fun k hk => ?_
      have h1 := ho.1 k hk
      simp only [List.map_cons, List.mem_cons, not_or] at h1
      rw [evalRules_other rs _ _ h1.2, setKey, if_neg h1.1]
    · rw [evalRules_cons]
      exact ih _ hn.2 ho.2 a ha

theorem part_size (t : Table) (k : Key) (l : List Key) (h : k ∈ l) : (t k).length ≤ (l.flatMap t).length := by
  induction l with
  | nil => cases h
  | cons j l ih =>
    rw [List.flatMap_cons, List.length_append]
    rcases List.mem_cons.mp h with rfl | h
    · omega
    · have := ih h; omega

/-- Every variable occurs in the data or in the right side of a later rule. -/
def Used : List (Key × List Key) → List Key → Prop
  | [], _ => True
  | r :: rs, toks => (r.1 ∈ toks ∨ ∃ s ∈ rs, r.1 ∈ s.2) ∧ Used rs toks

theorem used_size {t : Table} {toks : List Key} (rs : List (Key × List Key)) (hu : Used rs toks)
    (he : ∀ a ∈ rs, t a.1 = a.2.flatMap t) : ∀ a ∈ rs, (t a.1).length ≤ (toks.flatMap t).length := by
  induction rs with
  | nil => intro a ha; cases ha
  | cons r rs ih =>
    have hrs := ih hu.2 (fun a ha => he a (List.mem_cons_of_mem _ ha))
    intro a ha
    rcases List.mem_cons.mp ha with rfl | ha
    · rcases hu.1 with h | ⟨s, hs, h⟩
      · exact part_size t _ _ h
      · refine Nat.le_trans (part_size t _ _ h) ?_
        rw [← he s (List.mem_cons_of_mem _ hs)]
        exact hrs s hs
    · exact hrs a ha

end Bwtc.Grammar
