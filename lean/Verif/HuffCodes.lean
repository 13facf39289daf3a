import Verif.HuffTree

/-!
# Canonical Huffman codes

Model of `computeHuffmanCodes` (Utils.cpp:180-233).
-/

set_option autoImplicit false

namespace Bwtc.HuffCodes
open Bwtc.Huff

/-- `table[k] = v`. -/
def upd (f : Nat → Nat) (k v : Nat) : Nat → Nat := fun x => if x = k then v else f x

/-- Counting the codes of each length (Utils.cpp:182-185).  A length above 255 would be an
out-of-bounds access. -/
def countLens : List Nat → (Nat → Nat) → Option (Nat → Nat)
  | [], c => some c
  | l :: ls, c => if l < 256 then countLens ls (upd c l (c l + 1)) else none

/-- The largest length in use (Utils.cpp:186-188), looking at lengths below the argument. -/
def maxLen (c : Nat → Nat) : Nat → Nat
  | 0 => 0
  | k + 1 => if c k > 0 then k else maxLen c k

/-- The loop computing the first code of each length (Utils.cpp:195-198); `k + 1` is the first
argument. -/
def startLoop (c : Nat → Nat) : Nat → Nat → (Nat → Nat) → (Nat → Nat)
  | 0, _, st => st
  | k + 1, first, st => startLoop c k ((first + c k) / 2) (upd st k first)

/-- Assigning codes (Utils.cpp:199-201). -/
def assign : List Nat → (Nat → Nat) → List Nat
  | [], _ => []
  | l :: ls, st => if l > 0 then st l :: assign ls (upd st l (st l + 1)) else 0 :: assign ls st

/-- `computeHuffmanCodes` (Utils.cpp:180-201).  `maxLen` scans downwards instead of upwards;
values stay below 2^32 (proved: below 257). -/
def computeHuffmanCodes (clen : List Nat) : Option (List Nat) :=
  match countLens clen (fun _ => 0) with
  | none => none
  | some c => some (assign clen (startLoop c (maxLen c 256 + 1) 0 (fun _ => 0)))

/-! ## Lemmas -/

theorem countLens_spec (ls : List Nat) (h : ∀ l ∈ ls, l < 256) : ∀ (c : Nat → Nat),
    ∃ c', countLens ls c = some c' ∧ ∀ l, c' l = c l + ls.count l := by
  induction ls with
  | nil => intro c; exact ⟨c, rfl, by simp⟩
  | cons a ls ih =>
    intro c
    obtain ⟨c', h1, h2⟩ := ih (fun l hl => h l (by simp [hl])) (upd c a (c a + 1))
    refine ⟨c', ?_, ?_⟩
    · rw [countLens, if_pos (h a (by simp)), h1]
    · intro l
      rw [h2, List.count_cons, upd]
      by_cases hl : l = a
      · subst hl
        simp
        omega
      · have : (a == l) = false := by simp; omega
        simp [hl, this]

theorem maxLen_spec (c : Nat → Nat) (k : Nat) : (∀ l, maxLen c k < l → l < k → c l = 0) ∧
    (maxLen c k = 0 ∨ (c (maxLen c k) > 0 ∧ maxLen c k < k)) := by
  induction k with
  | zero => exact ⟨fun l _ h => by omega, Or.inl rfl⟩
  | succ k ih =>
    rw [maxLen]
    split
    · rename_i hc
      exact ⟨fun l h1 h2 => by omega, Or.inr ⟨hc, by omega⟩⟩
    · rename_i hc
      refine ⟨?_, ?_⟩
      · intro l h1 h2
        by_cases hl : l = k
        · subst hl
          omega
        · exact ih.1 l h1 (by omega)
      · rcases ih.2 with h | ⟨h, h'⟩
        · exact Or.inl h
        · exact Or.inr ⟨h, by omega⟩

/-- Kraft sum of the lengths above `l`. -/
def above (m : Nat) (ls : List Nat) (l : Nat) : Nat := kraft m (ls.filter fun x => l < x)

theorem above_step (m : Nat) (ls : List Nat) (l : Nat) :
    above m ls l = above m ls (l + 1) + ls.count (l + 1) * 2 ^ (m - (l + 1)) := by
  unfold above
  induction ls with
  | nil => simp [kraft]
  | cons a ls ih =>
    rw [List.filter_cons, List.filter_cons, List.count_cons]
    by_cases h1 : a = l + 1
    · subst h1
      simp only [Nat.lt_irrefl, decide_false, Bool.false_eq_true, if_false]
      rw [if_pos (by simp), kraft_cons, ih, if_pos (by simp), Nat.add_mul]
      omega
    · have hb : (a == l + 1) = false := by simp [h1]
      rw [hb]
      simp only [Bool.false_eq_true, if_false, Nat.add_zero]
      by_cases h2 : l + 1 < a
      · have h3 : l < a := by omega
        simp only [h2, h3, decide_true, if_true, kraft_cons]
        omega
      · have h3 : ¬ l < a := by omega
        simp only [h2, h3, decide_false, Bool.false_eq_true, if_false]
        exact ih

theorem above_split (m : Nat) (ls : List Nat) (l : Nat) :
    above m ls 0 = kraft m (ls.filter fun x => 0 < x ∧ x ≤ l) + above m ls l := by
  unfold above
  induction ls with
  | nil => simp [kraft]
  | cons a ls ih =>
    rw [List.filter_cons, List.filter_cons, List.filter_cons]
    by_cases h0 : 0 < a
    · by_cases h1 : a ≤ l
      · have h2 : ¬ l < a := by omega
        simp only [h0, h1, h2, and_self, decide_true, decide_false, Bool.false_eq_true, if_true, if_false, kraft_cons]
        omega
      · have h2 : l < a := by omega
        simp only [h0, h1, h2, and_false, decide_true, decide_false, Bool.false_eq_true, if_true, if_false, kraft_cons]
        omega
    · have h2 : ¬ l < a := by omega
      simp only [h0, h2, false_and, decide_false, Bool.false_eq_true, if_false]
      exact ih

theorem kraft_dvd (m l : Nat) (ls : List Nat) (h : ∀ x ∈ ls, x ≤ l) : 2 ^ (m - l) ∣ kraft m ls := by
  induction ls with
  | nil => simp [kraft]
  | cons a ls ih =>
    rw [kraft_cons]
    exact Nat.dvd_add (Nat.pow_dvd_pow 2 (by have := h a (by simp); omega)) (ih (fun x hx => h x (by simp [hx])))

theorem above_mono (m : Nat) (ls : List Nat) {a b : Nat} (h : a ≤ b) : above m ls b ≤ above m ls a := by
  induction h with
  | refl => exact Nat.le_refl _
  | @step k _ ih =>
    have := above_step m ls k
    rw [Nat.succ_eq_add_one]
    omega

theorem startLoop_get (c : Nat → Nat) : ∀ (k first : Nat) (st : Nat → Nat) (l : Nat), k ≤ l →
    startLoop c k first st l = st l := by
  intro k
  induction k with
  | zero => intro first st l _; rfl
  | succ k ih =>
    intro first st l hl
    rw [startLoop, ih _ _ _ (by omega), upd, if_neg (by omega)]

theorem startLoop_rec (c : Nat → Nat) : ∀ (k first : Nat) (st : Nat → Nat), 
    (∀ l, l < k → startLoop c (k + 1) first st l = (startLoop c (k + 1) first st (l + 1) + c (l + 1)) / 2) ∧
      startLoop c (k + 1) first st k = first := by
  intro k
  induction k with
  | zero =>
    intro first st
    exact ⟨fun l hl => by omega, by simp [startLoop, upd]⟩
  | succ k ih =>
    intro first st
    obtain ⟨h1, h2⟩ := ih ((first + c (k + 1)) / 2) (upd st (k + 1) first)
    have htop : startLoop c (k + 1 + 1) first st (k + 1) = first := by
      rw [startLoop, startLoop_get _ _ _ _ _ (Nat.le_refl _), upd, if_pos rfl]
    refine ⟨?_, htop⟩
    intro l hl
    by_cases hlk : l = k
    · subst hlk
      rw [htop]
      rw [startLoop]
      exact h2
    · rw [startLoop]
      exact h1 l (by omega)

theorem assign_length (ls : List Nat) : ∀ st, (assign ls st).length = ls.length := by
  induction ls with
  | nil => intro st; rfl
  | cons l ls ih =>
    intro st
    rw [assign]
    split <;> simp [ih]

theorem assign_get (ls : List Nat) : ∀ (st : Nat → Nat) (i l : Nat), ls[i]? = some l → 0 < l →
    (assign ls st)[i]? = some (st l + (ls.take i).count l) := by
  induction ls with
  | nil => intro st i l h _; simp at h
  | cons a ls ih =>
    intro st i l h h0
    rw [assign]
    cases i with
    | zero =>
      simp at h
      subst h
      rw [if_pos h0]
      simp
    | succ i =>
      rw [List.getElem?_cons_succ] at h
      split
      · rename_i ha
        rw [List.getElem?_cons_succ, ih _ i l h h0, List.take_succ_cons, List.count_cons, upd]
        by_cases hl : l = a
        · subst hl
          simp
          omega
        · have : (a == l) = false := by simp; omega
          simp [hl, this]
      · rename_i ha
        rw [List.getElem?_cons_succ, ih _ i l h h0, List.take_succ_cons, List.count_cons]
        have : (a == l) = false := by simp; omega
        simp [this]

theorem assign_zero (ls : List Nat) : ∀ (st : Nat → Nat) (i : Nat), ls[i]? = some 0 →
    (assign ls st)[i]? = some 0 := by
  induction ls with
  | nil => intro st i h; simp at h
  | cons a ls ih =>
    intro st i h
    rw [assign]
    cases i with
    | zero =>
      simp at h
      subst h
      simp
    | succ i =>
      rw [List.getElem?_cons_succ] at h
      split <;> exact ih _ i h

theorem above_dvd {m l : Nat} {ls : List Nat} (hk : above m ls 0 = 2 ^ m) : 2 ^ (m - l) ∣ above m ls l := by
  have h6 := above_split m ls l
  rw [hk] at h6
  have h7 : 2 ^ (m - l) ∣ 2 ^ m := Nat.pow_dvd_pow 2 (by omega)
  rw [h6] at h7
  exact (Nat.dvd_add_right (kraft_dvd m l _ (by
    intro x hx
    simp only [List.mem_filter, decide_eq_true_eq] at hx
    exact hx.2.2))).mp h7

theorem filter_count (ls : List Nat) (l : Nat) :
    (ls.filter fun x => l < x).length = ls.count (l + 1) + (ls.filter fun x => l + 1 < x).length := by
  induction ls with
  | nil => rfl
  | cons a ls ih =>
    rw [List.filter_cons, List.filter_cons, List.count_cons]
    by_cases h1 : a = l + 1
    · subst h1
      simp only [Nat.lt_irrefl, decide_false, if_true, Bool.false_eq_true, if_false, Nat.lt_succ_self, decide_true,
        List.length_cons, beq_self_eq_true]
      omega
    · have hb : (a == l + 1) = false := by simp [h1]
      by_cases h3 : l < a
      · have h4 : l + 1 < a := by omega
        simp only [h3, h4, hb, decide_true, if_true, Bool.false_eq_true, if_false, List.length_cons]
        omega
      · have h4 : ¬ l + 1 < a := by omega
        simp only [h3, h4, hb, decide_false, Bool.false_eq_true, if_false]
        omega

/-- In a complete code the longest codeword is shorter than the number of codewords. -/
theorem complete_bound {ls : List Nat} {m : Nat} (hmem : m ∈ ls) (hk : above m ls 0 = 2 ^ m) :
    m + 1 ≤ ls.length := by
  have main : ∀ d l, l + d = m → ∃ S, S * 2 ^ (m - l) = above m ls l ∧ S + (m - l) ≤ (ls.filter fun x => l < x).length := by
    intro d
    induction d with
    | zero =>
      intro l hl
      have : l = m := by omega
      subst this
      obtain ⟨S, hS⟩ := above_dvd (l := l) hk
      -- nothing needs to be above the maximum
      refine ⟨S, by rw [hS, Nat.mul_comm], ?_⟩
      rw [Nat.sub_self, Nat.pow_zero, Nat.one_mul] at hS
      rw [← hS, Nat.sub_self, Nat.add_zero]
      unfold above kraft
      have : ∀ xs : List Nat, (xs.map fun x => 2 ^ (l - x)).sum ≤ xs.length ∨ ∃ x ∈ xs, x < l := by
        intro xs
        induction xs with
        | nil => simp
        | cons x xs ih =>
          rcases ih with h | ⟨y, hy, hlt⟩
          · by_cases hx : x < l
            · exact Or.inr ⟨x, by simp, hx⟩
            · left
              rw [List.map_cons, List.sum_cons, show l - x = 0 by omega, List.length_cons]
              omega
          · exact Or.inr ⟨y, by simp [hy], hlt⟩
      rcases this (ls.filter fun x => l < x) with h | ⟨y, hy, hlt⟩
      · exact h
      · simp at hy
        omega
    | succ d ih =>
      intro l hl
      obtain ⟨S', h1, h2⟩ := ih (l + 1) (by omega)
      · obtain ⟨S, hS⟩ := above_dvd (l := l) hk
        refine ⟨S, by rw [hS, Nat.mul_comm], ?_⟩
        have h4 := above_step m ls l
        rw [← h1, ← Nat.add_mul, hS] at h4
        have hp : 2 ^ (m - l) = 2 ^ (m - (l + 1)) * 2 := by
          rw [← Nat.pow_succ]
          congr 1
          omega
        rw [hp, Nat.mul_assoc, Nat.mul_comm (S' + _)] at h4
        have h5 := Nat.eq_of_mul_eq_mul_left (Nat.pow_pos (by omega)) h4
        have hpos : 0 < S := by
          rcases Nat.eq_zero_or_pos S with h0 | h0
          · exfalso
            subst h0
            rw [Nat.mul_zero] at hS
            have : 1 ≤ kraft m (ls.filter fun x => l < x) := by
              have hm : m ∈ ls.filter fun x => l < x := by simp [hmem]; omega
              unfold kraft
              have h7 : 2 ^ (m - m) ∈ (ls.filter fun x => l < x).map fun x => 2 ^ (m - x) :=
                List.mem_map_of_mem hm
              generalize ((ls.filter fun x => l < x).map fun x => 2 ^ (m - x)) = ys at *
              rw [Nat.sub_self, Nat.pow_zero] at h7
              clear h4 h5 h1 h2 hS hm ih
              induction ys with
              | nil => simp at h7
              | cons y ys ih =>
                rw [List.sum_cons]
                rcases List.mem_cons.mp h7 with h | h
                · omega
                · have := ih h
                  omega
            unfold above at hS
            omega
          · exact h0
        rw [filter_count]
        omega
  obtain ⟨S, h1, h2⟩ := main m 0 (by omega)
  · rw [hk, Nat.sub_zero] at h1
    have : S = 1 := by
      have hp : 0 < 2 ^ m := Nat.pow_pos (by omega)
      exact Nat.eq_of_mul_eq_mul_right hp (by omega)
    have h3 : (ls.filter fun x => 0 < x).length ≤ ls.length := List.length_filter_le _ _
    omega

/-- What is known about the codes for lengths `ls` (at most 256 of them). -/
structure Canon (ls codes : List Nat) (m : Nat) (st : Nat → Nat) : Prop where
  len : codes.length = ls.length
  le : ∀ l ∈ ls, l ≤ m
  scaled : ∀ l, l ≤ m → st l * 2 ^ (m - l) = above m ls l
  code : ∀ (i l : Nat), ls[i]? = some l → 0 < l → codes[i]? = some (st l + (ls.take i).count l)
  zero : ∀ i : Nat, ls[i]? = some 0 → codes[i]? = some 0
  small : ∀ l, 0 < l → l ≤ m → st l + ls.count l ≤ 256

theorem take_count_lt {ls : List Nat} {i l : Nat} (h : ls[i]? = some l) :
    (ls.take i).count l < ls.count l := by
  have hlt := (List.getElem?_eq_some_iff.mp h).1
  have he := (List.getElem?_eq_some_iff.mp h).2
  have : ls = ls.take i ++ l :: ls.drop (i + 1) := by
    rw [← he, List.getElem_cons_drop, List.take_append_drop]
  have h2 := congrArg (List.count l) this
  rw [List.count_append, List.count_cons_self] at h2
  omega

/-- Codes computed from lengths satisfying the Kraft equality. -/
theorem compute_canon (ls : List Nat) (h256 : ls.length ≤ 256) (hlt : ∀ l ∈ ls, l < 256)
    (hk : ∀ m, (∀ l ∈ ls, l ≤ m) → kraft m (ls.filter fun x => 0 < x) = 2 ^ m) :
    ∃ codes m st, computeHuffmanCodes ls = some codes ∧ Canon ls codes m st := by
  obtain ⟨c, h1, h2⟩ := countLens_spec ls hlt (fun _ => 0)
  simp only [Nat.zero_add] at h2
  obtain ⟨hm1, hm2⟩ := maxLen_spec c 256
  have hle : ∀ l ∈ ls, l ≤ maxLen c 256 := by
    intro l hl
    apply Classical.byContradiction
    intro hc
    have h3 := hm1 l (by omega) (hlt l hl)
    rw [h2] at h3
    have := List.count_pos_iff.mpr hl
    omega
  generalize hmm : maxLen c 256 = m at *
  obtain ⟨hr1, hr2⟩ := startLoop_rec c m 0 (fun _ => 0)
  generalize hst : startLoop c (m + 1) 0 (fun _ => 0) = st at *
  have hkm : above m ls 0 = 2 ^ m := hk m hle
  have habm : above m ls m = 0 := by
    unfold above
    have : ls.filter (fun x => m < x) = [] := by
      rw [List.filter_eq_nil_iff]
      intro x hx
      have := hle x hx
      simp
      omega
    rw [this]
    rfl
  have hscaled : ∀ d l, l + d = m → st l * 2 ^ (m - l) = above m ls l := by
    intro d
    induction d with
    | zero =>
      intro l hl
      have : l = m := by omega
      subst this
      rw [habm, hr2]
      omega
    | succ d ih =>
      intro l hl
      have h3 := ih (l + 1) (by omega)
      have h4 := above_step m ls l
      rw [← h3, ← Nat.add_mul, ← h2 (l + 1)] at h4
      have h5 := hr1 l (by omega)
      have hdvd : 2 ^ (m - l) ∣ above m ls l := by
        have h6 := above_split m ls l
        rw [hkm] at h6
        have h7 : 2 ^ (m - l) ∣ 2 ^ m := Nat.pow_dvd_pow 2 (by omega)
        rw [h6] at h7
        exact (Nat.dvd_add_right (kraft_dvd m l _ (by
          intro x hx
          simp only [List.mem_filter, decide_eq_true_eq] at hx
          exact hx.2.2))).mp h7
      have hp : 2 ^ (m - l) = 2 ^ (m - (l + 1)) * 2 := by
        rw [← Nat.pow_succ]
        congr 1
        omega
      rw [h4, hp, Nat.mul_comm (st (l + 1) + c (l + 1))] at hdvd
      have heven : 2 ∣ st (l + 1) + c (l + 1) := Nat.dvd_of_mul_dvd_mul_left (Nat.pow_pos (by omega)) hdvd
      obtain ⟨z, hz⟩ := heven
      rw [h4, h5, hz, hp, show 2 * z / 2 = z by omega, Nat.mul_comm 2 z, Nat.mul_assoc]
      congr 1
      exact Nat.mul_comm _ _
  have hsmall : ∀ d l, l + d = m → 0 < l → st l + ls.count l ≤ (ls.filter fun x => l ≤ x).length := by
    have hcnt : ∀ l, (ls.filter fun x => l ≤ x).length = ls.count l + (ls.filter fun x => l + 1 ≤ x).length := by
      intro l
      clear h1 h2 hm1 hle hkm habm hscaled hk hlt h256
      induction ls with
      | nil => rfl
      | cons a ls ih =>
        rw [List.filter_cons, List.filter_cons, List.count_cons]
        by_cases h1 : a = l
        · subst h1
          have : ¬ a + 1 ≤ a := by omega
          simp only [this, Nat.le_refl, decide_true, decide_false, if_true, Bool.false_eq_true, if_false,
            List.length_cons, beq_self_eq_true]
          omega
        · have hb : (a == l) = false := by simp [h1]
          by_cases h3 : l ≤ a
          · have h4 : l + 1 ≤ a := by omega
            simp only [h3, h4, hb, decide_true, if_true, Bool.false_eq_true, if_false, List.length_cons]
            omega
          · have h4 : ¬ l + 1 ≤ a := by omega
            simp only [h3, h4, hb, decide_false, Bool.false_eq_true, if_false]
            omega
    intro d
    induction d with
    | zero =>
      intro l hl h0
      have : l = m := by omega
      subst this
      rw [hr2, hcnt]
      omega
    | succ d ih =>
      intro l hl h0
      have h3 := ih (l + 1) (by omega) (by omega)
      rw [hcnt l, hr1 l (by omega), h2]
      omega
  refine ⟨assign ls st, m, st, ?_, ⟨assign_length _ _, hle, ?_, assign_get ls st, assign_zero ls st, ?_⟩⟩
  · rw [computeHuffmanCodes, h1]
    simp only [hmm, hst]
  · intro l hl
    exact hscaled (m - l) l (by omega)
  · intro l h0 hl
    have h3 := hsmall (m - l) l (by omega) h0
    have h4 : (ls.filter fun x => l ≤ x).length ≤ ls.length := List.length_filter_le _ _
    omega

theorem Canon.lt_256 {ls codes : List Nat} {m : Nat} {st : Nat → Nat} (h : Canon ls codes m st) {i l c : Nat}
    (hl : ls[i]? = some l) (hc : codes[i]? = some c) : c < 256 := by
  by_cases h0 : 0 < l
  · have h1 := h.code i l hl h0
    rw [hc] at h1
    simp at h1
    have h2 := take_count_lt hl
    have h3 := h.small l h0 (h.le l (List.mem_of_getElem? hl))
    omega
  · have : l = 0 := by omega
    subst this
    rw [h.zero i hl] at hc
    simp at hc
    omega

/-- Scaled codes lie below the Kraft sum of the lengths at least `l`. -/
theorem Canon.below {ls codes : List Nat} {m : Nat} {st : Nat → Nat} (h : Canon ls codes m st) {i l c : Nat}
    (hl : ls[i]? = some l) (h0 : 0 < l) (hc : codes[i]? = some c) :
    (c + 1) * 2 ^ (m - l) ≤ above m ls (l - 1) ∧ above m ls l ≤ c * 2 ^ (m - l) := by
  have hlm := h.le l (List.mem_of_getElem? hl)
  have h1 := h.code i l hl h0
  rw [hc] at h1
  simp at h1
  have h2 := take_count_lt hl
  have h3 := h.scaled l hlm
  have h4 := above_step m ls (l - 1)
  rw [show l - 1 + 1 = l by omega, ← h3, ← Nat.add_mul] at h4
  constructor
  · rw [h4]
    exact Nat.mul_le_mul_right _ (by omega)
  · rw [← h3]
    exact Nat.mul_le_mul_right _ (by omega)

/-- Codes of different symbols of the same length differ. -/
theorem Canon.ne {ls codes : List Nat} {m : Nat} {st : Nat → Nat} (h : Canon ls codes m st) {i j l c : Nat}
    (hi : ls[i]? = some l) (hj : ls[j]? = some l) (h0 : 0 < l) (hci : codes[i]? = some c)
    (hcj : codes[j]? = some c) : i = j := by
  have h1 := h.code i l hi h0
  have h2 := h.code j l hj h0
  rw [hci] at h1
  rw [hcj] at h2
  simp at h1 h2
  have key : ∀ i j : Nat, i < j → ls[i]? = some l → ls[j]? = some l →
      (ls.take i).count l < (ls.take j).count l := by
    intro i j hij hi hj
    have : (ls.take j)[i]? = some l := by rw [List.getElem?_take_of_lt hij, hi]
    have h3 := take_count_lt this
    rw [List.take_take, show min i j = i by omega] at h3
    exact h3
  rcases Nat.lt_trichotomy i j with hlt | he | hlt
  · have := key i j hlt hi hj
    omega
  · exact he
  · have := key j i hlt hj hi
    omega

end Bwtc.HuffCodes
