import Mathlib.Data.List.Perm.Subperm
import Verif.WaveTrees
import Verif.WaveParams

/-!
# Where the search for the parameters of the run-length code is undefined

The converse of `findParameters_spec` for run lengths that occur fewer than ten times each.
-/

set_option autoImplicit false

namespace Bwtc.Wave
open Huff

/-- The selection on integers that all occur `f < 10` times: none is selected, and the map holds one entry. -/
theorem select_rare (cheap : Nat × Nat → Bool) {f : Nat} (hf : f < 10) (l : List (Nat × Nat)) (hl : ∀ p ∈ l, p.1 = f)
    (R : List Bool) (cl : List (Nat × Nat)) (mf : Nat) (m : List (Nat × Nat)) (hm : m = [] ∨ ∃ i, m = [(f, i)]) (hne : l ≠ []) :
    ∃ i < R.length + l.length, select cheap l ⟨R, cl, mf, m⟩ = ⟨R ++ List.replicate l.length false, cl, mf, [(f, i)]⟩ := by
  induction l generalizing R m with
  | nil => exact absurd rfl hne
  | cons p l ih =>
    have hp := hl p (by simp)
    have hset : mapSet p.1 R.length m = [(f, R.length)] := by
      rw [hp]
      rcases hm with rfl | ⟨i, rfl⟩
      · rfl
      · simp [mapSet]
    rw [select, if_neg (by omega), hset]
    by_cases hnil : l = []
    · subst hnil
      exact ⟨R.length, by simp, by simp [select]⟩
    · obtain ⟨i, hi, e⟩ := ih (fun q hq => hl q (List.mem_cons_of_mem _ hq)) (R ++ [false]) [(f, R.length)]
        (Or.inr ⟨_, rfl⟩) hnil
      refine ⟨i, by simp at hi ⊢; omega, ?_⟩
      simp only at e ⊢
      rw [e, List.length_cons, List.replicate_succ, List.append_assoc]
      rfl

/-- The sum of the costs of integers that occur `f` times each is not zero, if one of them has no Huffman code. -/
theorem totalCost_bounds {w f B n : Nat} {cl : List (Nat × Nat)} (hcl : ∀ q ∈ cl, q.1 ≤ B)
    (l : List (Nat × Nat)) (hl : ∀ p ∈ l, p.1 = f ∧ fixedLen p.2 w ≤ B) (hn : l.length ≤ n) (hB : n * (f * B) < 2 ^ 64)
    (rs : List Bool) (hrs : rs.length = l.length) :
    totalCost w 0 cl l rs ≤ l.length * (f * B) ∧ (0 < f → false ∈ rs → 0 < totalCost w 0 cl l rs) := by
  induction l generalizing rs with
  | nil =>
    cases rs with
    | nil => simp [totalCost]
    | cons _ _ => simp at hrs
  | cons p l ih =>
    cases rs with
    | nil => simp at hrs
    | cons r rs =>
      simp only [List.length_cons] at hrs hn
      obtain ⟨i1, i2⟩ := ih (fun q hq => hl q (List.mem_cons_of_mem _ hq)) (by omega) rs (by omega)
      obtain ⟨p1, p2⟩ := hl p (by simp)
      have hlen : ∀ len, len ≤ B → f * len ≤ f * B := fun len h => Nat.mul_le_mul (Nat.le_refl f) h
      have hsum : (l.length + 1) * (f * B) < 2 ^ 64 := Nat.lt_of_le_of_lt (Nat.mul_le_mul hn (Nat.le_refl _)) hB
      obtain ⟨len, e, g1, g2⟩ : ∃ len, totalCost w 0 cl (p :: l) (r :: rs) = (f * len + totalCost w 0 cl l rs) % 2 ^ 64 ∧
          len ≤ B ∧ (r = false → 0 < len) := by
        rw [totalCost, p1]
        refine ⟨_, rfl, ?_, ?_⟩
        · cases r with
          | true =>
            rw [if_pos rfl]
            split
            · next q hq => exact hcl q (List.mem_reverse.mp (List.mem_of_find?_eq_some hq))
            · omega
          | false => rw [if_neg (by simp)]; omega
        · rintro rfl
          rw [if_neg (by simp), fixedLen]; omega
      rw [e, List.length_cons]
      rw [Nat.add_mul, Nat.one_mul] at hsum ⊢
      have := hlen len g1
      rw [Nat.mod_eq_of_lt (by omega)]
      refine ⟨by omega, fun h0 hf => ?_⟩
      cases r with
      | true =>
        have := i2 h0 (by simpa using hf)
        omega
      | false =>
        have : 0 < f * len := Nat.mul_pos h0 (g2 rfl)
        omega

/-- At depth 1 and 2 one integer gets a Huffman code. -/
theorem integerLengths_rare (cheap : Nat × Nat → Bool) {f d : Nat} (hf : f < 10) {l : List (Nat × Nat)} (hl : ∀ p ∈ l, p.1 = f)
    (hne : l ≠ []) (hd : 1 ≤ d) {removed : List Bool} {lens : List (Nat × Nat)} {z : Nat}
    (h : integerLengths cheap d l = some (removed, lens, z)) :
    d ≤ 2 ∧ ∃ i, removed = (List.replicate l.length false).set i true := by
  obtain ⟨i, hi, e⟩ := select_rare cheap hf l hl [] [] 0 [] (Or.inl rfl) hne
  rw [List.nil_append] at e
  have hi' : i < l.length := by simpa using hi
  rw [integerLengths, e] at h
  simp only [List.length_nil, List.reverse_cons, List.reverse_nil, List.nil_append] at h
  rw [if_pos (by omega), force] at h
  simp only [List.length_nil, Nat.add_zero, List.nil_append] at h
  rw [if_pos (by omega), List.getElem?_eq_getElem hi'] at h
  simp only [force, List.length_cons, List.length_nil] at h
  by_cases h3 : 0 + 1 + (0 + 1) < d
  · rw [if_pos h3] at h
    simp at h
  · rw [if_neg h3] at h
    refine ⟨by omega, i, ?_⟩
    simp only [Option.bind_eq_bind, Option.bind_some, Option.bind_eq_some_iff] at h
    obtain ⟨_, _, _, _, _, _, _, _, h⟩ := h
    have h' := Option.some.inj h
    simp only [Prod.mk.injEq] at h'
    exact h'.1.symm

theorem false_mem_set (n i : Nat) (hn : 2 ≤ n) : false ∈ (List.replicate n false).set i true := by
  by_cases h : i = 0
  · refine List.mem_of_getElem? (i := 1) ?_
    rw [List.getElem?_set_ne (by omega), List.getElem?_replicate, if_pos (by omega)]
  · refine List.mem_of_getElem? (i := 0) ?_
    rw [List.getElem?_set_ne (by omega), List.getElem?_replicate, if_pos (by omega)]

theorem searchDepth_rare (cheap : Nat → Nat → Nat × Nat → Bool) {f : Nat} (hf0 : 0 < f) (hf : f < 10) {l : List (Nat × Nat)}
    (hl : ∀ p ∈ l, p.1 = f) (h3 : 3 ≤ l.length) (hn : l.length < 2 ^ 30) (hnd : (l.map (·.2)).Nodup)
    (hpos : ∀ p ∈ l, p.2 ≠ 0) (h32 : ∀ p ∈ l, p.2 < 2 ^ 32) {w : Nat} (hw : w < 16) (st : List (Nat × Nat) × Nat × Nat) :
    searchDepth cheap l w [1, 2, 3] st = none := by
  have hne : l ≠ [] := by intro h; rw [h] at h3; simp at h3
  have low : ∀ d, 1 ≤ d → d ≤ 2 → ∃ bits tmp, bitsForIntegers cheap w d l = some (bits, tmp) ∧ bits ≠ 0 := by
    intro d hd1 hd2
    rw [bitsForIntegers, if_neg (by omega), if_neg (by omega)]
    rcases integerLengths_cases (cheap w d) hnd hpos hd1 (by omega) (by omega) with
      ⟨removed, lens, e1, e2, e3⟩ | ⟨_, e2, _⟩
    · obtain ⟨_, i, e4⟩ := integerLengths_rare (cheap w d) hf hl hne hd1 e1
      rw [e1]
      refine ⟨_, _, rfl, ?_⟩
      have hlens : lens.length ≤ l.length + 1 := by
        have : (lens.map (·.2)).Subperm (0 :: l.map (·.2)) := List.subperm_of_subset e2.nodup (by
          intro x hx
          rcases e3 x hx with h | h
          · simp [h]
          · exact List.mem_cons_of_mem _ h)
        have := this.length_le
        simpa using this
      have hb := totalCost_bounds (w := w) (f := f) (B := l.length + 100) (n := l.length) (cl := lens)
        (fun q hq => by have := e2.bound q hq; omega) l
        (fun p hp => ⟨hl p hp, by
          have := fixedB_le (w := w) (Nat.pos_of_ne_zero (hpos p hp)) (h32 p hp)
          rw [fixedLen]; omega⟩) (Nat.le_refl _) (by
          have h1 : f * (l.length + 100) ≤ 10 * (2 ^ 30 + 100) := Nat.mul_le_mul (by omega) (by omega)
          have h2 : l.length * (f * (l.length + 100)) ≤ 2 ^ 30 * (10 * (2 ^ 30 + 100)) := Nat.mul_le_mul (by omega) h1
          exact Nat.lt_of_le_of_lt h2 (by decide)) removed (by rw [e4, List.length_set, List.length_replicate])
      have := hb.2 hf0 (by rw [e4]; exact false_mem_set _ _ (by omega))
      omega
    · omega
  obtain ⟨b1, t1, e1, n1⟩ := low 1 (by omega) (by omega)
  obtain ⟨b2, t2, e2, n2⟩ := low 2 (by omega) (by omega)
  have high : bitsForIntegers cheap w 3 l = none := by
    rw [bitsForIntegers, if_neg (by omega), if_neg (by omega)]
    cases he : integerLengths (cheap w 3) 3 l with
    | none => rfl
    | some r =>
      obtain ⟨removed, lens, z⟩ := r
      have := (integerLengths_rare (cheap w 3) hf hl hne (by omega) he).1
      omega
  simp only [searchDepth, e1, e2, high, if_neg n1, if_neg n2]
  split <;> split <;> rfl

theorem findParameters_rare_none (cheap : Nat → Nat → Nat × Nat → Bool) {f : Nat} (hf0 : 0 < f) (hf : f < 10) {l : List (Nat × Nat)}
    (hl : ∀ p ∈ l, p.1 = f) (h3 : 3 ≤ l.length) (hn : l.length < 2 ^ 30) (hnd : (l.map (·.2)).Nodup)
    (hpos : ∀ p ∈ l, p.2 ≠ 0) (h32 : ∀ p ∈ l, p.2 < 2 ^ 32) : findParameters cheap l = none := by
  have hp := sortPairs_perm l
  rw [findParameters, List.range_succ_eq_map]
  have := searchDepth_rare cheap hf0 hf (l := sortPairs l) (fun p h => hl p (hp.mem_iff.mp h)) (by rw [hp.length_eq]; exact h3)
    (by rw [hp.length_eq]; exact hn) (by rw [(hp.map _).nodup_iff]; exact hnd) (fun p h => hpos p (hp.mem_iff.mp h))
    (fun p h => h32 p (hp.mem_iff.mp h)) (w := 0) (by omega)
  simp only [searchW, this]
  rfl

end Bwtc.Wave
