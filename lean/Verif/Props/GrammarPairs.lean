import Verif.GrammarUpdate

/-!
# C34: escape pairs are numbered without collision
-/

set_option autoImplicit false

namespace Bwtc.Props
open Grammar

/-- C34: for any number `n` of special symbols, the numbering is a bijection between the ordered
pairs of indices below `n` and the numbers below `n * n`. -/
theorem C34_numbering_is_bijective (n : Nat) :
    (∀ a b, a < n → b < n →
      numberOfSpecialPair a b < n * n ∧ pairIndices (numberOfSpecialPair a b) = (a, b)) ∧
    (∀ i, i < n * n → (pairIndices i).1 < n ∧ (pairIndices i).2 < n ∧
      numberOfSpecialPair (pairIndices i).1 (pairIndices i).2 = i) :=
  ⟨fun a b ha hb => ⟨number_lt ha hb, pairIndices_number a b⟩,
   fun i hi => ⟨(pairIndices_lt hi).1, (pairIndices_lt hi).2, number_pairIndices i⟩⟩

/-- C34: with distinct special symbols, every number below `n * n` has a pair, no two numbers have
the same pair, every ordered pair of special symbols is used, and later special symbols do not
change the pair of a number. -/
theorem C34_symbol_pairs (sp : List UInt8) (hn : sp.Nodup) :
    (∀ i, i < sp.length * sp.length ↔ (specialPair sp i).isSome) ∧
    (∀ i j p, specialPair sp i = some p → specialPair sp j = some p → i = j) ∧
    (∀ a ∈ sp, ∀ b ∈ sp, ∃ i, i < sp.length * sp.length ∧ specialPair sp i = some (a, b)) ∧
    (∀ i p more, specialPair sp i = some p → specialPair (sp ++ more) i = some p) := by
  refine ⟨?_, fun i j p hi hj => specialPair_inj hn hi hj, ?_,
    fun i p more h => specialPair_append more h⟩
  · intro i
    constructor
    · intro hi
      obtain ⟨p, hp⟩ := specialPair_isSome hi
      rw [hp]; rfl
    · intro hs
      obtain ⟨p, hp⟩ := Option.isSome_iff_exists.mp hs
      simp only [specialPair, Option.bind_eq_bind, Option.bind_eq_some_iff] at hp
      obtain ⟨a, ha, b, hb, _⟩ := hp
      rw [← number_pairIndices i]
      exact number_lt (List.getElem?_eq_some_iff.mp ha).1 (List.getElem?_eq_some_iff.mp hb).1
  · intro a ha b hb
    obtain ⟨i, hi⟩ := List.getElem?_of_mem ha
    obtain ⟨j, hj⟩ := List.getElem?_of_mem hb
    exact ⟨_, number_lt (List.getElem?_eq_some_iff.mp hi).1 (List.getElem?_eq_some_iff.mp hj).1,
      specialPair_number hi hj⟩

/-- C34: `expandAlphabet` gives the freed symbols and the new special symbols pairwise different
pairs, and none of them is a pair that was in use before; the pair at position `i` of the list of
pairs is pair number `i`. -/
theorem C34_expand_alphabet (g : G) (freed news : List UInt8) (hn : g.specials.Nodup)
    (hle : g.spr.length ≤ g.specials.length * g.specials.length)
    (hge : g.specials.length = 0 ∨
      (g.specials.length - 1) * (g.specials.length - 1) + 1 ≤ g.spr.length)
    (hsq : ∀ (k : Nat) c, g.specials[k]? = some c → g.spr[k * k]? = some (false, c))
    (hfresh : (freed ++ news).Nodup) (hnews : ∀ c ∈ news, c ∉ g.specials)
    (hfreed : ∀ c ∈ freed, c ∉ g.specials)
    (henough : Enough freed.length news.length g.specials.length g.spr.length) :
    ∃ st, expandLoop freed news (Exp.start g) = some st ∧ st.specials = g.specials ++ news ∧
      st.next = freed.map st.repl ∧ (∀ c ∈ news, st.repl c = (c, c)) ∧
      (∀ c ∈ freed ++ news, ∀ d ∈ freed ++ news, st.repl c = st.repl d → c = d) ∧
      (∀ c ∈ freed ++ news, ∀ i, i < g.spr.length → specialPair g.specials i ≠ some (st.repl c)) ∧
      (∀ c ∈ freed ++ news, ∃ i b, specialPair st.specials i = some (st.repl c) ∧
        st.spr[i]? = some (b, c)) := by
  obtain ⟨st, s1, s2, _, _⟩ := expandLoop_spec g freed news [] [] (Exp.start g)
    (ExpInv.start g hn hle hge hsq) (by simpa using hfresh) hnews hfreed henough
  simp only [List.nil_append] at s2
  have mem : ∀ c, c ∈ freed ++ news → c ∈ news ∨ c ∈ freed := by
    intro c hc
    rcases List.mem_append.mp hc with h | h
    · exact Or.inr h
    · exact Or.inl h
  refine ⟨st, s1, s2.specials, s2.next, s2.special2, ?_, ?_, ?_⟩
  · intro c hc d hd he
    obtain ⟨i, _, _, i3, i4⟩ := s2.num c (mem c hc)
    obtain ⟨j, _, _, j3, j4⟩ := s2.num d (mem d hd)
    rw [← he] at j3
    have := specialPair_inj s2.nodup i3 j3
    subst this
    rw [i4] at j4
    simp only [Option.some.injEq, Prod.mk.injEq] at j4
    exact j4.2
  · intro c hc i hi he
    obtain ⟨j, j1, _, j3, _⟩ := s2.num c (mem c hc)
    have h := specialPair_append news he
    rw [← s2.specials] at h
    have := specialPair_inj s2.nodup h j3
    omega
  · intro c hc
    obtain ⟨j, _, _, j3, j4⟩ := s2.num c (mem c hc)
    exact ⟨j, _, j3, j4⟩

/-- Non-vacuity: three symbols are freed in an empty grammar; three new special symbols are needed
for five symbols. -/
example : [(10 : UInt8), 20, 30, 1, 2].Nodup ∧ Enough 2 2 0 0 ∧ Enough 5 3 0 0 ∧
    Enough 4 1 2 4 := by
  refine ⟨by decide, ?_, ?_, ?_⟩ <;> unfold Enough <;> omega

example : [(7 : UInt8), 9, 200].Nodup ∧ specialPair [7, 9, 200] 7 = some (200, 7) ∧
    numberOfSpecialPair 2 0 = 7 := by decide

/-- The pairs of two freed symbols in an empty grammar. -/
example : (expandLoop [10, 20] [1, 2] (Exp.start empty)).map (·.next) = some [(1, 2), (2, 1)] := by
  simp [expandLoop, Exp.start, empty, takeSpecial, freeSymbol, nextPair]

end Bwtc.Props
