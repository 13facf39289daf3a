import Verif.GrammarUsedRound

/-!
# Variables in use, in terms of bytes
-/

set_option autoImplicit false

namespace Bwtc.PairReplace
open Grammar FreqTable

/-- The symbols of a text: a special symbol and the byte after it are one symbol (Postprocessor.cpp:98-110).  A special symbol at the end is
no symbol. -/
def symbols (isSpecial : UInt8 → Bool) : List UInt8 → List Key
  | [] => []
  | [c] => if isSpecial c then [] else [.one c]
  | c :: d :: rest => if isSpecial c then .two c d :: symbols isSpecial rest else .one c :: symbols isSpecial (d :: rest)

theorem symbols_keys (isSpecial : UInt8 → Bool) (ks : List Key) (h : ∀ k ∈ ks, Readable isSpecial k) : symbols isSpecial (bytesOf ks) = ks := by
  induction ks with
  | nil => rfl
  | cons k ks ih =>
    have ih' := ih fun j hj => h j (List.mem_cons_of_mem _ hj)
    have hk := h k (List.mem_cons_self ..)
    rw [bytesOf_cons]
    cases k with
    | one c =>
      have hc : isSpecial c = false := hk
      show symbols isSpecial (c :: bytesOf ks) = _
      cases hb : bytesOf ks with
      | nil =>
        rw [hb] at ih'
        rw [symbols, if_neg (by simp [hc]), ← ih']
        rfl
      | cons d rest =>
        rw [hb] at ih'
        rw [symbols, if_neg (by simp [hc]), ih']
    | two a b =>
      have ha : isSpecial a = true := hk
      show symbols isSpecial (a :: b :: bytesOf ks) = _
      rw [symbols, if_pos ha, ih']

theorem used_get {toks : List Key} (rs : List (Key × List Key)) (h : Used rs toks) : ∀ (i : Nat) (r : Key × List Key), rs[i]? = some r →
    r.1 ∈ toks ∨ ∃ j s, i < j ∧ rs[j]? = some s ∧ r.1 ∈ s.2 := by
  induction rs with
  | nil => intro i r h; simp at h
  | cons q rs ih =>
    intro i r hr
    cases i with
    | zero =>
      simp only [List.getElem?_cons_zero, Option.some.injEq] at hr
      subst hr
      rcases h.1 with h | ⟨s, hs, h⟩
      · exact Or.inl h
      · obtain ⟨j, hj⟩ := List.mem_iff_getElem?.mp hs
        exact Or.inr ⟨j + 1, s, by omega, by simpa using hj, h⟩
    | succ i =>
      simp only [List.getElem?_cons_succ] at hr
      rcases ih h.2 i r hr with h | ⟨j, s, h1, h2, h3⟩
      · exact Or.inl h
      · exact Or.inr ⟨j + 1, s, by omega, by simpa using h2, h3⟩

theorem MeansUsed.every {g : G} {data orig : List UInt8} (h : MeansUsed g data orig) (i : Nat) (r : Rule) (hr : g.rules[i]? = some r) :
    r.lhs ∈ symbols g.isSpecial data ∨ ∃ j s, i < j ∧ g.rules[j]? = some s ∧ r.lhs ∈ symbols g.isSpecial s.rhs := by
  obtain ⟨ars, toks, t, h1, h2, h3, _, _, _, _, h8⟩ := h
  rw [h1.rules_eq, List.getElem?_map, Option.map_eq_some_iff] at hr
  obtain ⟨a, ha, rfl⟩ := hr
  rw [h2, symbols_keys _ _ fun k hk => (h3 k hk).readable h1]
  rcases used_get ars h8 i a ha with h | ⟨j, s, e1, e2, e3⟩
  · exact Or.inl h
  · refine Or.inr ⟨j, toRule s, e1, ?_, ?_⟩
    · rw [h1.rules_eq, List.getElem?_map, e2]
      rfl
    · have hs := (h1.keys s (List.mem_of_getElem? e2)).2.2
      show a.1 ∈ symbols g.isSpecial (bytesOf s.2)
      rw [symbols_keys _ _ fun k hk => (hs k hk).readable h1]
      exact e3

end Bwtc.PairReplace
