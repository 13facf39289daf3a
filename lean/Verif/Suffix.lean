import Verif.Induce

/-!
# Suffixes and their types

The order of suffixes, the types L and S and the leftmost S positions ("LMS"), as used by `sais.hxx` and (as types A
and B) by `divsufsort.c`.  Texts are lists of numbers: bytes in the outermost call, names of substrings in the recursive calls.  Only specification; the code recognises the types by comparing neighbouring
characters.
-/

set_option autoImplicit false

namespace Bwtc.Suffix
open Induce

/-- The character at `p`. -/
def ch (T : List Nat) (p : Nat) : Nat := (T[p]?).getD 0

/-- The suffix at `a` is smaller than the suffix at `b`. -/
def sless (T : List Nat) (a b : Nat) : Prop := T.drop a < T.drop b

/-- The suffix at `p` is larger than the next one. -/
def isL (T : List Nat) (p : Nat) : Prop := p < T.length ∧ sless T (p + 1) p

/-- The suffix at `p` is smaller than the next one. -/
def isS (T : List Nat) (p : Nat) : Prop := p < T.length ∧ sless T p (p + 1)

/-- A leftmost S position: type S, behind a position of type L. -/
def isLMS (T : List Nat) (p : Nat) : Prop := isS T p ∧ ∃ q, p = q + 1 ∧ isL T q

variable {T : List Nat}

theorem ch_eq {p c : Nat} (h : T[p]? = some c) : ch T p = c := by unfold ch; rw [h]; rfl

theorem get_ch {p : Nat} (h : p < T.length) : T[p]? = some (ch T p) := by
  unfold ch
  rw [List.getElem?_eq_getElem h]; rfl

theorem drop_ch {p : Nat} (h : p < T.length) : T.drop p = ch T p :: T.drop (p + 1) := by
  rw [List.drop_eq_getElem_cons h]
  congr 1
  unfold ch
  rw [List.getElem?_eq_getElem h]; rfl

theorem sless_irrefl (p : Nat) : ¬ sless T p p := List.lt_irrefl _

theorem sless_trans {p q r : Nat} (h1 : sless T p q) (h2 : sless T q r) : sless T p r := List.lt_trans h1 h2

theorem list_total (u v : List Nat) : u < v ∨ u = v ∨ v < u := by
  by_cases h : u < v
  · exact Or.inl h
  · rcases List.le_iff_lt_or_eq.mp (List.not_lt.mp h) with h1 | h1
    · exact Or.inr (Or.inr h1)
    · exact Or.inr (Or.inl h1.symm)

theorem drop_eq {p q : Nat} (hp : p ≤ T.length) (hq : q ≤ T.length) (h : T.drop p = T.drop q) : p = q := by
  have := congrArg List.length h
  rw [List.length_drop, List.length_drop] at this
  omega

theorem sless_total {p q : Nat} (hp : p ≤ T.length) (hq : q ≤ T.length) : sless T p q ∨ p = q ∨ sless T q p := by
  rcases list_total (T.drop p) (T.drop q) with h | h | h
  · exact Or.inl h
  · exact Or.inr (Or.inl (drop_eq hp hq h))
  · exact Or.inr (Or.inr h)

theorem sless_step {p q : Nat} (hp : p < T.length) (hq : q < T.length) :
    sless T p q ↔ ch T p < ch T q ∨ (ch T p = ch T q ∧ sless T (p + 1) (q + 1)) := by
  unfold sless
  rw [drop_ch hp, drop_ch hq, List.cons_lt_cons_iff]

theorem sless_end {p : Nat} (hp : p < T.length) : sless T T.length p := by
  unfold sless
  rw [List.drop_length, drop_ch hp]
  exact List.nil_lt_cons _ _

theorem not_sless_end (p : Nat) : ¬ sless T p T.length := by
  unfold sless
  rw [List.drop_length]
  exact List.not_lt_nil _

theorem isL_last {p : Nat} (h : p + 1 = T.length) : isL T p := by
  refine ⟨by omega, ?_⟩
  rw [h]
  exact sless_end (by omega)

theorem not_isL_isS {p : Nat} (h1 : isL T p) (h2 : isS T p) : False :=
  sless_irrefl p (sless_trans h2.2 h1.2)

theorem type_total {p : Nat} (h : p < T.length) : isL T p ∨ isS T p := by
  rcases sless_total (T := T) (p := p) (q := p + 1) (by omega) (by omega) with h1 | h1 | h1
  · exact Or.inr ⟨h, h1⟩
  · omega
  · exact Or.inl ⟨h, h1⟩

theorem not_isL {p : Nat} (h : p < T.length) : ¬ isL T p ↔ isS T p := by
  constructor
  · intro h1
    rcases type_total h with h2 | h2
    · exact absurd h2 h1
    · exact h2
  · intro h1 h2; exact not_isL_isS h2 h1

theorem not_isS {p : Nat} (h : p < T.length) : ¬ isS T p ↔ isL T p := by
  constructor
  · intro h1
    rcases type_total h with h2 | h2
    · exact h2
    · exact absurd h2 h1
  · intro h1 h2; exact not_isL_isS h1 h2

theorem isS_next {p : Nat} (h : isS T p) : p + 1 < T.length := by
  by_cases e : p + 1 = T.length
  · exact (not_isL_isS (isL_last e) h).elim
  · have := h.1; omega

theorem isL_iff {p : Nat} (h : p + 1 < T.length) :
    isL T p ↔ ch T (p + 1) < ch T p ∨ (ch T (p + 1) = ch T p ∧ isL T (p + 1)) := by
  have hp : p < T.length := by omega
  unfold isL
  rw [sless_step h hp]
  simp only [hp, h, true_and]

theorem isS_iff {p : Nat} (h : p + 1 < T.length) :
    isS T p ↔ ch T p < ch T (p + 1) ∨ (ch T p = ch T (p + 1) ∧ isS T (p + 1)) := by
  have hp : p < T.length := by omega
  unfold isS
  rw [sless_step hp h]
  simp only [hp, h, true_and]

/-- Below the same first character L comes before S. -/
theorem L_lt_S {p q : Nat} (hp : isL T p) (hq : isS T q) (h : ch T p = ch T q) : sless T p q := by
  suffices H : ∀ d p q : Nat, T.length - p ≤ d → isL T p → isS T q → ch T p = ch T q → sless T p q from
    H _ p q (Nat.le_refl _) hp hq h
  intro d
  induction d with
  | zero => intro p q hd hp; have := hp.1; omega
  | succ d ih =>
    intro p q hd hp hq h
    have hqn := isS_next hq
    rw [sless_step hp.1 hq.1]
    refine Or.inr ⟨h, ?_⟩
    by_cases e : p + 1 = T.length
    · rw [e]; exact sless_end hqn
    · have hpn : p + 1 < T.length := by have := hp.1; omega
      rw [isS_iff hqn] at hq
      rcases (isL_iff hpn).mp hp with a | a
      · rw [sless_step hpn hqn]
        left
        omega
      · rcases hq with b | b
        · rw [sless_step hpn hqn]; left; omega
        · exact ih (p + 1) (q + 1) (by omega) a.2 b.2 (by omega)

theorem isLMS_pos {p : Nat} (h : isLMS T p) : 0 < p := by
  obtain ⟨q, hq, _⟩ := h.2; omega

theorem isLMS_pred {p : Nat} (h : isLMS T (p + 1)) : isL T p := by
  obtain ⟨q, hq, hl⟩ := h.2
  have : p = q := by omega
  rw [this]; exact hl

theorem isLMS_ch {p : Nat} (h : isLMS T (p + 1)) : ch T (p + 1) < ch T p := by
  have hs := h.1
  have hl := isLMS_pred h
  rcases (isL_iff hs.1).mp hl with a | a
  · exact a
  · exact (not_isL_isS a.2 hs).elim

/-- Behind an L position is the end, an L position that is not larger, or an LMS position with a smaller character. -/
theorem L_next {p : Nat} (h : isL T p) : p + 1 = T.length ∨ (isL T (p + 1) ∧ ch T (p + 1) ≤ ch T p) ∨
    (isLMS T (p + 1) ∧ ch T (p + 1) < ch T p) := by
  by_cases e : p + 1 = T.length
  · exact Or.inl e
  · right
    have hpn : p + 1 < T.length := by have := h.1; omega
    rcases type_total hpn with a | a
    · left
      refine ⟨a, ?_⟩
      rcases (isL_iff hpn).mp h with b | b <;> omega
    · right
      have : isLMS T (p + 1) := ⟨a, p, rfl, h⟩
      exact ⟨this, isLMS_ch this⟩

/-- In front of an L position is an L position exactly if its character is not smaller. -/
theorem L_pred {p : Nat} (h : isL T (p + 1)) : isL T p ↔ ch T (p + 1) ≤ ch T p := by
  rw [isL_iff h.1]
  constructor
  · rintro (a | a) <;> omega
  · intro a
    by_cases e : ch T (p + 1) = ch T p
    · exact Or.inr ⟨e, h⟩
    · exact Or.inl (by omega)

/-- In front of an S position is an S position exactly if its character is not larger. -/
theorem S_pred {p : Nat} (h : isS T (p + 1)) : isS T p ↔ ch T p ≤ ch T (p + 1) := by
  rw [isS_iff h.1]
  constructor
  · rintro (a | a) <;> omega
  · intro a
    by_cases e : ch T p = ch T (p + 1)
    · exact Or.inr ⟨e, h⟩
    · exact Or.inl (by omega)

/-! ## The row of a suffix -/

/-- The row of the suffix at `p`: the number of smaller suffixes. -/
noncomputable def row (T : List Nat) (p : Nat) : Nat := cnt T.length (fun q => sless T q p)

theorem row_lt {p : Nat} (h : p < T.length) : row T p < T.length := by
  have := cnt_lt (n := T.length) (P := fun q => sless T q p) (Q := fun _ => True) h (sless_irrefl p) trivial
    (fun _ _ _ => trivial)
  rw [cnt_true (fun _ _ => trivial)] at this
  exact this

theorem row_mono {p q : Nat} (hp : p < T.length) (h : sless T p q) : row T p < row T q :=
  cnt_lt hp (sless_irrefl p) h (fun _ _ a => sless_trans a h)

theorem row_inj {p q : Nat} (hp : p < T.length) (hq : q < T.length) (h : row T p = row T q) : p = q := by
  rcases sless_total (T := T) (p := p) (q := q) (by omega) (by omega) with a | a | a
  · have := row_mono hp a; omega
  · exact a
  · have := row_mono hq a; omega

/-- The rows as places in the buckets of the first characters. -/
theorem row_eq {p : Nat} (h : p < T.length) : row T p =
    cnt T.length (fun q => ch T q < ch T p) + cnt T.length (fun q => ch T q = ch T p ∧ sless T q p) := by
  unfold row
  apply cnt_or
  · intro q hq
    constructor
    · intro a
      rcases (sless_step hq h).mp a with b | b
      · exact Or.inl b
      · exact Or.inr ⟨b.1, a⟩
    · rintro (a | a)
      · exact (sless_step hq h).mpr (Or.inl a)
      · exact a.2
  · intro q _ a b; omega

/-- Larger suffixes. -/
theorem row_above {p : Nat} (h : p < T.length) :
    row T p + 1 + cnt T.length (fun q => sless T p q) = T.length := by
  have h1 := cnt_or (n := T.length) (P := fun q => sless T q p) (Q := fun q => q = p)
    (R := fun q => sless T q p ∨ q = p) (fun _ _ => Iff.rfl)
    (fun q _ a b => sless_irrefl p (by rw [b] at a; exact a))
  have h2 := cnt_or (n := T.length) (P := fun q => sless T q p ∨ q = p) (Q := fun q => sless T p q)
    (R := fun _ => True) (fun q hq => by
      rcases sless_total (T := T) (p := q) (q := p) (by omega) (by omega) with a | a | a
      · simp [a]
      · simp [a]
      · simp [a]) (fun q _ a b => by
      rcases a with a | a
      · exact sless_irrefl p (sless_trans b a)
      · rw [a] at b; exact sless_irrefl p b)
  rw [cnt_one h (fun _ _ => Iff.rfl)] at h1
  rw [cnt_true (fun _ _ => trivial)] at h2
  unfold row
  omega

end Bwtc.Suffix

namespace Bwtc.Suffix
open Induce
variable {T : List Nat}

/-! ## The two passes of the last stage -/

/-- From left to right: the sorted LMS suffixes are given, the L suffixes are induced. -/
def ordL (T : List Nat) : Order T.length where
  src := isLMS T
  tgt := isL T
  ch := ch T
  lt := sless T
  disj p h1 h2 := not_isL_isS h2 h1.1
  bound p h := by exact h.elim (fun h => h.1.1) (fun h => h.1)
  irrefl := sless_irrefl
  trans p q r := sless_trans
  total p q hp hq := by
    have b1 : p < T.length := by exact hp.elim (fun h => h.1.1) (fun h => h.1)
    have b2 : q < T.length := by exact hq.elim (fun h => h.1.1) (fun h => h.1)
    exact sless_total (by omega) (by omega)
  char p q hp hq h := by
    have b1 : p < T.length := by exact hp.elim (fun h => h.1.1) (fun h => h.1)
    have b2 : q < T.length := by exact hq.elim (fun h => h.1.1) (fun h => h.1)
    exact (sless_step b1 b2).mpr (Or.inl h)
  front p q hp hq h := L_lt_S hp hq.1 h
  ind p q hp hq h _ _ := by
    rw [sless_step hp.1 hq.1]
    constructor
    · rintro (a | a)
      · omega
      · exact a.2
    · intro a; exact Or.inr ⟨h, a⟩
  last p q hp hq h e hne := by
    rw [sless_step hp.1 hq.1, e]
    refine Or.inr ⟨h, sless_end ?_⟩
    have := hq.1; omega
  next p hp := by
    rcases L_next hp with h | h | h
    · exact Or.inl h
    · exact Or.inr ⟨Or.inr h.1, hp.2⟩
    · exact Or.inr ⟨Or.inl h.1, hp.2⟩

theorem same_below_L {p q : Nat} (hp : isL T p) (hq : q < T.length) (h : ch T q = ch T p) (hs : sless T q p) :
    isL T q := by
  rcases type_total hq with a | a
  · exact a
  · exact absurd (sless_trans hs (L_lt_S hp a h.symm)) (sless_irrefl q)

theorem same_above_S {p q : Nat} (hp : isS T p) (hq : q < T.length) (h : ch T q = ch T p) (hs : sless T p q) :
    isS T q := by
  rcases type_total hq with a | a
  · exact absurd (sless_trans hs (L_lt_S a hp h)) (sless_irrefl p)
  · exact a

/-- L suffixes are written to their rows. -/
theorem timeL_eq {p : Nat} (hp : isL T p) : (ordL T).time p = row T p + 1 := by
  rw [(ordL T).time_tgt hp, row_eq hp.1]
  have : cnt T.length (fun q => (ordL T).tgt q ∧ (ordL T).ch q = (ordL T).ch p ∧ (ordL T).lt q p) =
      cnt T.length (fun q => ch T q = ch T p ∧ sless T q p) :=
    cnt_congr (fun q hq => ⟨fun h => h.2, fun h => ⟨same_below_L hp hq h.1 h.2, h⟩⟩)
  rw [this]
  show cnt T.length (fun q => ch T q < ch T p) + 1 + _ = _
  omega

/-- From right to left: the L suffixes are given, the S suffixes are induced.  All comparisons are reversed. -/
def ordS (T : List Nat) (k : Nat) (hk : ∀ p, p < T.length → ch T p < k) : Order T.length where
  src := isL T
  tgt := isS T
  ch p := k - 1 - ch T p
  lt a b := sless T b a
  disj p h1 h2 := not_isL_isS h1 h2
  bound p h := by exact h.elim (fun h => h.1) (fun h => h.1)
  irrefl := sless_irrefl
  trans p q r h1 h2 := sless_trans h2 h1
  total p q hp hq := by
    have b1 : p < T.length := by exact hp.elim (fun h => h.1) (fun h => h.1)
    have b2 : q < T.length := by exact hq.elim (fun h => h.1) (fun h => h.1)
    rcases sless_total (T := T) (p := p) (q := q) (by omega) (by omega) with a | a | a
    · exact Or.inr (Or.inr a)
    · exact Or.inr (Or.inl a)
    · exact Or.inl a
  char p q hp hq h := by
    have b1 : p < T.length := by exact hp.elim (fun h => h.1) (fun h => h.1)
    have b2 : q < T.length := by exact hq.elim (fun h => h.1) (fun h => h.1)
    have := hk p b1
    have := hk q b2
    exact (sless_step b2 b1).mpr (Or.inl (by omega))
  front p q hp hq h := by
    have := hk p hp.1
    have := hk q hq.1
    exact L_lt_S hq hp (by omega)
  ind p q hp hq h _ _ := by
    have := hk p hp.1
    have := hk q hq.1
    rw [sless_step hq.1 hp.1]
    constructor
    · rintro (a | a)
      · omega
      · exact a.2
    · intro a; exact Or.inr ⟨by omega, a⟩
  last p q hp hq h e hne := by have := isS_next hp; omega
  next p hp := Or.inr ⟨type_total (isS_next hp), hp.2⟩

/-- All suffixes are met at their rows, from the last to the first. -/
theorem timeS_eq (k : Nat) (hk : ∀ p, p < T.length → ch T p < k) {p : Nat} (hp : p < T.length) :
    (ordS T k hk).time p + row T p = T.length := by
  have hkp := hk p hp
  rcases type_total hp with h | h
  · rw [(ordS T k hk).time_src h, row_eq hp]
    have h1 : cnt T.length (fun q => (ordS T k hk).src q ∧ (ordS T k hk).ch q = (ordS T k hk).ch p ∧
        (ordS T k hk).lt p q) = cnt T.length (fun q => ch T q = ch T p ∧ sless T q p) := by
      apply cnt_congr
      intro q hq
      have hkq := hk q hq
      constructor
      · rintro ⟨_, b, c⟩
        have b' : k - 1 - ch T q = k - 1 - ch T p := b
        exact ⟨by omega, c⟩
      · rintro ⟨b, c⟩
        refine ⟨same_below_L h hq b c, ?_, c⟩
        show k - 1 - ch T q = k - 1 - ch T p
        omega
    have h2 : (ordS T k hk).stop ((ordS T k hk).ch p) = cnt T.length (fun q => ch T p ≤ ch T q) := by
      apply cnt_congr
      intro q hq
      have hkq := hk q hq
      show k - 1 - ch T q ≤ k - 1 - ch T p ↔ _
      omega
    have h3 := cnt_or (n := T.length) (P := fun q => ch T q < ch T p) (Q := fun q => ch T p ≤ ch T q)
      (R := fun _ => True) (fun q _ => by simp only [true_iff]; omega) (fun q _ a b => by omega)
    rw [cnt_true (fun _ _ => trivial)] at h3
    have h4 : cnt T.length (fun q => ch T q = ch T p ∧ sless T q p) ≤ cnt T.length (fun q => ch T p ≤ ch T q) :=
      cnt_le (fun q _ a => by have := a.1; omega)
    rw [h1, h2]
    omega
  · rw [(ordS T k hk).time_tgt h]
    have h0 := row_above hp
    have h5 := cnt_or (n := T.length) (P := fun q => ch T p < ch T q) (Q := fun q => ch T q = ch T p ∧ sless T p q)
      (R := fun q => sless T p q) (fun q hq => by
        rw [sless_step hp hq]
        constructor
        · rintro (a | a)
          · exact Or.inl a
          · exact Or.inr ⟨a.1.symm, Or.inr a⟩
        · rintro (a | a)
          · exact Or.inl a
          · exact a.2) (fun q _ a b => by omega)
    have h1 : cnt T.length (fun q => (ordS T k hk).tgt q ∧ (ordS T k hk).ch q = (ordS T k hk).ch p ∧
        (ordS T k hk).lt q p) = cnt T.length (fun q => ch T q = ch T p ∧ sless T p q) := by
      apply cnt_congr
      intro q hq
      have hkq := hk q hq
      constructor
      · rintro ⟨_, b, c⟩
        have b' : k - 1 - ch T q = k - 1 - ch T p := b
        exact ⟨by omega, c⟩
      · rintro ⟨b, c⟩
        refine ⟨same_above_S h hq b c, ?_, c⟩
        show k - 1 - ch T q = k - 1 - ch T p
        omega
    have h2 : (ordS T k hk).start ((ordS T k hk).ch p) = cnt T.length (fun q => ch T p < ch T q) := by
      apply cnt_congr
      intro q hq
      have hkq := hk q hq
      show k - 1 - ch T q < k - 1 - ch T p ↔ _
      omega
    rw [h1, h2]
    omega

end Bwtc.Suffix
