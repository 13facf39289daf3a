import Verif.Sssort
import Verif.DivsufStars
import Verif.SaisLast

/-!
# Cells, keys and comparisons of `sssort.c`
-/

set_option autoImplicit false

namespace Bwtc.Ss
open Sais (put inv put_spec inv_inv bind_some')
open Divsuf (getI dec sub)
open Suffix

/-! ## Cells -/

/-- The number in a cell. -/
def cel (sa : List Int) (r : Nat) : Int := sa[r]?.getD 0

theorem get_cel {sa : List Int} {r : Nat} (h : r < sa.length) : sa[r]? = some (cel sa r) := by
  unfold cel; rw [List.getElem?_eq_getElem h]; rfl

theorem cel_of {sa : List Int} {r : Nat} {v : Int} (h : sa[r]? = some v) : cel sa r = v := by
  unfold cel; rw [h]; rfl

theorem cel_set {sa : List Int} {i : Nat} (h : i < sa.length) (x : Int) (r : Nat) :
    cel (sa.set i x) r = if r = i then x else cel sa r := by
  unfold cel
  rw [List.getElem?_set]
  by_cases hr : r = i
  · rw [if_pos hr.symm, if_pos hr, if_pos h]; rfl
  · rw [if_neg (Ne.symm hr), if_neg hr]

theorem cel_set_self {sa : List Int} {i : Nat} (h : i < sa.length) (x : Int) : cel (sa.set i x) i = x := by
  rw [cel_set h, if_pos rfl]

theorem cel_set_ne {sa : List Int} {i : Nat} (x : Int) {r : Nat} (hr : r ≠ i) : cel (sa.set i x) r = cel sa r := by
  unfold cel
  rw [List.getElem?_set, if_neg (Ne.symm hr)]

theorem ext_cel {sa sa' : List Int} (hl : sa'.length = sa.length) (h : ∀ r, r < sa.length → cel sa' r = cel sa r) : sa' = sa := by
  apply List.ext_getElem?
  intro r
  by_cases hr : r < sa.length
  · rw [get_cel hr, get_cel (by omega), h r hr]
  · rw [List.getElem?_eq_none (by omega), List.getElem?_eq_none (by omega)]

theorem dec_inv (v : Int) : dec (inv v) = dec v := by unfold dec inv; split <;> split <;> omega

theorem dec_nat' (i : Nat) : dec (i : Int) = i := by unfold dec; split <;> omega

theorem nat_of {v : Int} (h : 0 ≤ v) : v = (dec v : Int) := by unfold dec; split <;> omega

theorem idx_eq (v : Int) : idx v = (dec v : Int) := by unfold idx dec inv; split <;> split <;> omega

theorem inv_neg_iff (v : Int) : inv v < 0 ↔ 0 ≤ v := by unfold inv; omega

theorem inv_nonneg_iff (v : Int) : 0 ≤ inv v ↔ v < 0 := by unfold inv; omega

/-! ## The numbers in a range of cells -/

/-- `1` if the cell holds `v`, marked or not. -/
def bit (x : Int) (v : Nat) : Nat := if dec x = v then 1 else 0

theorem bit_inv (x : Int) (v : Nat) : bit (inv x) v = bit x v := by unfold bit; rw [dec_inv]

/-- How many of the cells from `a` to `b` hold `v`, marked or not. -/
def occ (f : Nat → Int) (a : Nat) : Nat → Nat → Nat
  | 0, _ => 0
  | b + 1, v => occ f a b v + if a ≤ b then bit (f b) v else 0

theorem occ_le (f : Nat → Int) {a b : Nat} (h : b ≤ a) (v : Nat) : occ f a b v = 0 := by
  induction b with
  | zero => rfl
  | succ b ih => rw [occ, ih (by omega), if_neg (by omega)]

theorem occ_self (f : Nat → Int) (a v : Nat) : occ f a a v = 0 := occ_le f (Nat.le_refl a) v

theorem occ_succ (f : Nat → Int) {a b : Nat} (h : a ≤ b) (v : Nat) : occ f a (b + 1) v = occ f a b v + bit (f b) v := by
  rw [occ, if_pos h]

theorem occ_split (f : Nat → Int) {a c : Nat} (h1 : a ≤ c) : ∀ {b : Nat}, c ≤ b → ∀ v, occ f a b v = occ f a c v + occ f c b v := by
  intro b
  induction b with
  | zero => intro h v; have : c = 0 := by omega
            subst this; simp [occ_self]
  | succ b ih =>
    intro h v
    rcases Nat.lt_or_ge b c with hb | hb
    · have : c = b + 1 := by omega
      subst this; rw [occ_self]; omega
    · rw [occ_succ f (by omega), occ_succ f hb, ih hb v]; omega

theorem occ_one (f : Nat → Int) (a v : Nat) : occ f a (a + 1) v = bit (f a) v := by
  rw [occ_succ f (Nat.le_refl a), occ_self]; omega

theorem occ_first (f : Nat → Int) {a b : Nat} (h : a < b) (v : Nat) : occ f a b v = bit (f a) v + occ f (a + 1) b v := by
  rw [occ_split f (c := a + 1) (by omega) (by omega), occ_one]

theorem occ_congr {f g : Nat → Int} {a : Nat} : ∀ {b : Nat}, (∀ r, a ≤ r → r < b → dec (f r) = dec (g r)) → ∀ v, occ f a b v = occ g a b v := by
  intro b
  induction b with
  | zero => intro _ v; rfl
  | succ b ih =>
    intro h v
    rw [occ, occ, ih (fun r h1 h2 => h r h1 (by omega))]
    by_cases hb : a ≤ b
    · unfold bit; rw [h b hb (by omega)]
    · rw [if_neg hb, if_neg hb]

/-- One cell has been changed. -/
theorem occ_upd {f g : Nat → Int} {a b i : Nat} (h1 : a ≤ i) (h2 : i < b) (h : ∀ r, r ≠ i → a ≤ r → r < b → g r = f r) (v : Nat) :
    occ g a b v + bit (f i) v = occ f a b v + bit (g i) v := by
  rw [occ_split g (c := i) h1 (by omega), occ_split f (c := i) h1 (by omega), occ_first g h2, occ_first f h2,
    occ_congr (f := g) (g := f) (a := a) (b := i) (fun r h3 h4 => by rw [h r (by omega) h3 (by omega)]),
    occ_congr (f := g) (g := f) (a := i + 1) (b := b) (fun r h3 h4 => by rw [h r (by omega) (by omega) h4])]
  omega

theorem occ_pos (f : Nat → Int) (a : Nat) : ∀ (b v : Nat), 0 < occ f a b v ↔ ∃ r, a ≤ r ∧ r < b ∧ dec (f r) = v := by
  intro b v
  induction b with
  | zero => constructor
            · intro h; exact absurd h (by simp [occ])
            · intro ⟨r, _, h, _⟩; omega
  | succ b ih =>
    constructor
    · intro h
      rw [occ] at h
      by_cases h0 : 0 < occ f a b v
      · obtain ⟨r, h1, h2, h3⟩ := ih.1 h0
        exact ⟨r, h1, by omega, h3⟩
      · by_cases hb : a ≤ b
        · rw [if_pos hb] at h
          unfold bit at h
          by_cases hd : dec (f b) = v
          · exact ⟨b, hb, by omega, hd⟩
          · rw [if_neg hd] at h; omega
        · rw [if_neg hb] at h; omega
    · intro ⟨r, h1, h2, h3⟩
      rw [occ]
      rcases Nat.lt_or_ge r b with h4 | h4
      · have := ih.2 ⟨r, h1, h4, h3⟩; omega
      · have : r = b := by omega
        subst this
        rw [if_pos h1]; unfold bit; rw [if_pos h3]; omega

/-- The two ranges hold the same numbers. -/
def Perm (a b : Nat) (f g : Nat → Int) : Prop := ∀ v, occ f a b v = occ g a b v

theorem Perm.refl (a b : Nat) (f : Nat → Int) : Perm a b f f := fun _ => rfl

theorem Perm.symm {a b : Nat} {f g : Nat → Int} (h : Perm a b f g) : Perm a b g f := fun v => (h v).symm

theorem Perm.trans {a b : Nat} {f g e : Nat → Int} (h : Perm a b f g) (h' : Perm a b g e) : Perm a b f e := fun v => (h v).trans (h' v)

theorem Perm.congr {a b : Nat} {f g : Nat → Int} (h : ∀ r, a ≤ r → r < b → dec (f r) = dec (g r)) : Perm a b f g := fun v => occ_congr h v

theorem Perm.all {a b : Nat} {f g : Nat → Int} (h : Perm a b f g) {Q : Nat → Prop} (hQ : ∀ r, a ≤ r → r < b → Q (dec (f r))) :
    ∀ r, a ≤ r → r < b → Q (dec (g r)) := by
  intro r h1 h2
  have : 0 < occ g a b (dec (g r)) := (occ_pos g a b _).2 ⟨r, h1, h2, rfl⟩
  rw [← h] at this
  obtain ⟨r', h3, h4, h5⟩ := (occ_pos f a b _).1 this
  rw [← h5]; exact hQ r' h3 h4

/-- A permutation of a part is one of the whole. -/
theorem Perm.extend {a b a' b' : Nat} {f g : Nat → Int} (h : Perm a b f g) (h1 : a' ≤ a) (h2 : b ≤ b') (hab : a ≤ b)
    (hf : ∀ r, a' ≤ r → r < b' → r < a ∨ b ≤ r → dec (f r) = dec (g r)) : Perm a' b' f g := by
  intro v
  rw [occ_split f (c := a) h1 (by omega), occ_split f (c := b) hab h2, occ_split g (c := a) h1 (by omega), occ_split g (c := b) hab h2,
    h v, occ_congr (f := f) (g := g) (a := a') (b := a) (fun r h3 h4 => hf r h3 (by omega) (by omega)),
    occ_congr (f := f) (g := g) (a := b) (b := b') (fun r h3 h4 => hf r (by omega) (by omega) (by omega))]

theorem Perm.join {a c b : Nat} {f g : Nat → Int} (h : Perm a c f g) (h' : Perm c b f g) (h1 : a ≤ c) (h2 : c ≤ b) : Perm a b f g := by
  intro v
  rw [occ_split f h1 h2, occ_split g h1 h2, h v, h' v]

theorem occ_shift {f g : Nat → Int} {a : Nat} (d : Nat) : ∀ {b : Nat}, (∀ r, a ≤ r → r < b → dec (g r) = dec (f (r + d))) →
    ∀ v, occ g a b v = occ f (a + d) (b + d) v := by
  intro b
  induction b with
  | zero => intro _ v; rw [occ_le f (by omega)]; rfl
  | succ b ih =>
    intro h v
    rcases Nat.lt_or_ge b a with hb | hb
    · rw [occ_le _ (by omega), occ_le _ (by omega)]
    · rw [occ_succ g hb, show b + 1 + d = b + d + 1 by omega, occ_succ f (by omega), ih (fun r h1 h2 => h r h1 (by omega))]
      unfold bit; rw [h b hb (by omega)]

/-- Two cells have been exchanged. -/
theorem perm_swap {a b i j : Nat} {f g : Nat → Int} (hi : a ≤ i) (hi' : i < b) (hj : a ≤ j) (hj' : j < b)
    (h1 : g i = f j) (h2 : g j = f i) (h : ∀ r, r ≠ i → r ≠ j → a ≤ r → r < b → g r = f r) : Perm a b f g := by
  intro v
  by_cases hij : i = j
  · subst hij
    exact (occ_congr (fun r h3 h4 => by
      by_cases hr : r = i
      · subst hr; rw [h1]
      · rw [h r hr hr h3 h4]) v)
  · have e1 := occ_upd (f := f) (g := fun r => if r = i then f j else f r) (a := a) (b := b) (i := i) hi hi'
      (fun r h3 _ _ => if_neg h3) v
    have e2 := occ_upd (f := fun r => if r = i then f j else f r) (g := g) (a := a) (b := b) (i := j) hj hj'
      (fun r h3 h4 h5 => by
        by_cases hr : r = i
        · rw [if_pos hr, hr, h1]
        · rw [if_neg hr, h r hr h3 h4 h5]) v
    simp only [if_true, if_neg (fun h => hij (Eq.symm h) : ¬ j = i)] at e1 e2
    rw [h2] at e2
    omega

/-- What a procedure that works on the cells from `a` to `b` may do. -/
structure Res (a b : Nat) (sa sa' : List Int) : Prop where
  len : sa'.length = sa.length
  frame : ∀ r, r < a ∨ b ≤ r → cel sa' r = cel sa r
  perm : Perm a b (cel sa) (cel sa')

theorem Res.refl (a b : Nat) (sa : List Int) : Res a b sa sa := ⟨rfl, fun _ _ => rfl, Perm.refl _ _ _⟩

theorem Res.trans {a b : Nat} {sa sa' sa'' : List Int} (h : Res a b sa sa') (h' : Res a b sa' sa'') : Res a b sa sa'' :=
  ⟨by rw [h'.len, h.len], fun r hr => by rw [h'.frame r hr, h.frame r hr], h.perm.trans h'.perm⟩

theorem Res.extend {a b a' b' : Nat} {sa sa' : List Int} (h : Res a b sa sa') (h1 : a' ≤ a) (h2 : b ≤ b') (hab : a ≤ b) : Res a' b' sa sa' :=
  ⟨h.len, fun r hr => h.frame r (by omega), h.perm.extend h1 h2 hab (fun r _ _ hr => by rw [h.frame r hr])⟩

theorem Res.all {a b : Nat} {sa sa' : List Int} (h : Res a b sa sa') {Q : Nat → Prop} (hQ : ∀ r, a ≤ r → r < b → Q (dec (cel sa r))) :
    ∀ r, a ≤ r → r < b → Q (dec (cel sa' r)) := h.perm.all hQ

/-! ## Reading and writing -/

theorem swap_spec {sa : List Int} {i j : Nat} (hi : i < sa.length) (hj : j < sa.length) :
    ∃ sa', swap sa i j = some sa' ∧ sa'.length = sa.length ∧ cel sa' i = cel sa j ∧ cel sa' j = cel sa i ∧
      ∀ r, r ≠ i → r ≠ j → cel sa' r = cel sa r := by
  refine ⟨(sa.set i (cel sa j)).set j (cel sa i), ?_, by simp, ?_, ?_, ?_⟩
  · unfold swap
    rw [bind_some' (get_cel hi), bind_some' (get_cel hj), bind_some' (put_spec hi _), put_spec (by simpa using hj)]
  · by_cases h : i = j
    · subst h; rw [cel_set_self (by simpa using hi)]
    · rw [cel_set_ne _ h, cel_set_self hi]
  · rw [cel_set_self (by simpa using hj)]
  · intro r h1 h2
    rw [cel_set_ne _ h2, cel_set_ne _ h1]

theorem flip_spec {sa : List Int} {i : Nat} (hi : i < sa.length) : flip sa i = some (sa.set i (inv (cel sa i))) := by
  unfold flip
  rw [bind_some' (get_cel hi), put_spec hi]

/-! ## The substrings -/

section
variable {T : List Nat} {P : Nat → Nat} {m pa : Nat}

/-- The array holds the starts of the substrings at `pa`; every substring starts with two characters that go up. -/
structure Env (T : List Nat) (P : Nat → Nat) (m pa : Nat) (sa : List Int) : Prop where
  up : ∀ i, i + 1 < m → P i < P (i + 1)
  room : ∀ i, i < m → P i + 2 ≤ T.length
  star : ∀ i, i < m → ch T (P i) < ch T (P i + 1)
  has : ∀ i, i < m → pa + i < sa.length ∧ cel sa (pa + i) = (P i : Int)

theorem Env.frame {sa sa' : List Int} (h : Env T P m pa sa) (hl : sa'.length = sa.length) (hf : ∀ r, pa ≤ r → cel sa' r = cel sa r) :
    Env T P m pa sa' :=
  ⟨h.up, h.room, h.star, fun i hi => ⟨by have := (h.has i hi).1; omega, by rw [hf _ (by omega)]; exact (h.has i hi).2⟩⟩

theorem Env.res {sa sa' : List Int} {a b : Nat} (h : Env T P m pa sa) (hr : Res a b sa sa') (hb : b ≤ pa) : Env T P m pa sa' :=
  h.frame hr.len (fun r h1 => hr.frame r (by omega))

/-- The substring is not the last one and goes on after `W`. -/
def Good (T : List Nat) (P : Nat → Nat) (m : Nat) (W : List Nat) (i : Nat) : Prop :=
  i + 1 < m ∧ ∃ x rest, sub T P m i = W ++ x :: rest

theorem sub_eq {i : Nat} (h : i + 1 < m) : sub T P m i = (T.drop (P i)).take (P (i + 1) + 2 - P i) := if_pos h

theorem Env.len {sa : List Int} (h : Env T P m pa sa) {i : Nat} (hi : i + 1 < m) : (sub T P m i).length = P (i + 1) + 2 - P i := by
  rw [sub_eq hi, List.length_take, List.length_drop]
  have := h.room (i + 1) hi; have := h.up i hi; omega

theorem Env.paAt {sa : List Int} (h : Env T P m pa sa) {i : Nat} (hi : i < m) : paAt sa pa (i : Int) = some (P i) := by
  obtain ⟨h1, h2⟩ := h.has i hi
  unfold Ss.paAt getI
  rw [if_pos (by omega), show ((pa : Int) + (i : Int)).toNat = pa + i by omega, bind_some' (get_cel h1), h2, if_neg (by omega)]
  simp

theorem sub_ch {i : Nat} (hi : i + 1 < m) {W rest : List Nat} {x : Nat} (he : sub T P m i = W ++ x :: rest) :
    ch T (P i + W.length) = x ∧ P i + W.length < T.length := by
  have h0 : W.length < (sub T P m i).length := by rw [he]; simp
  obtain ⟨h1, h2⟩ := Divsuf.sub_get h0
  refine ⟨?_, h2⟩
  rw [he, List.getElem?_append_right (Nat.le_refl _)] at h1
  simp at h1
  exact h1.symm

theorem Env.td {sa : List Int} (h : Env T P m pa sa) {i : Nat} (hi : i + 1 < m) {W rest : List Nat} {x : Nat}
    (he : sub T P m i = W ++ x :: rest) : tdAt T sa pa W.length (i : Int) = some x := by
  unfold tdAt
  rw [bind_some' (h.paAt (by omega))]
  obtain ⟨h1, h2⟩ := sub_ch hi he
  rw [get_ch h2, h1]

theorem Env.prev {sa : List Int} (h : Env T P m pa sa) {i : Nat} (hi : i + 1 < m) {U rest : List Nat} {y : Nat}
    (he : sub T P m i = (U ++ [y]) ++ rest) : tdPrev T sa pa (U ++ [y]).length (i : Int) = some y := by
  unfold tdPrev
  rw [bind_some' (h.paAt (by omega)), if_neg (by simp)]
  have he' : sub T P m i = U ++ y :: rest := by rw [he]; simp
  obtain ⟨h1, h2⟩ := sub_ch hi he'
  rw [List.length_append, List.length_singleton, show P i + (U.length + 1) - 1 = P i + U.length by omega, get_ch h2, h1]

theorem Env.atEnd {sa : List Int} (h : Env T P m pa sa) {i : Nat} (hi : i + 1 < m) {W rest : List Nat} {x : Nat}
    (he : sub T P m i = W ++ x :: rest) : atEnd sa pa W.length (i : Int) = some (decide (rest = [])) := by
  unfold Ss.atEnd
  rw [bind_some' (h.paAt (by omega)), show ((i : Int) + 1) = ((i + 1 : Nat) : Int) by omega, bind_some' (h.paAt hi)]
  have hl := h.len hi
  rw [he] at hl
  simp at hl
  have := h.up i hi
  simp only [pure, Option.some.injEq, decide_eq_decide]
  rw [← List.length_eq_zero_iff]
  omega

/-- A substring ends with a character that is above the one in front of it. -/
theorem Env.end_up {sa : List Int} (h : Env T P m pa sa) {i : Nat} (hi : i + 1 < m) {U : List Nat} {x y : Nat}
    (he : sub T P m i = (U ++ [y]) ++ [x]) : y < x := by
  have hl := h.len hi
  have hu := h.up i hi
  have he1 : sub T P m i = U ++ y :: [x] := by rw [he]; simp
  have he2 : sub T P m i = (U ++ [y]) ++ x :: [] := he
  obtain ⟨h1, _⟩ := sub_ch hi he1
  obtain ⟨h2, _⟩ := sub_ch hi he2
  have h3 := h.star (i + 1) hi
  rw [he] at hl
  simp at hl h2
  rw [show P i + U.length = P (i + 1) by omega] at h1
  rw [show P i + (U.length + 1) = P (i + 1) + 1 by omega] at h2
  omega

/-! ## Comparing -/

/-- `r` tells how `A` and `B` are ordered. -/
structure Tells (r : Int) (A B : List Nat) : Prop where
  lt : r < 0 → A < B
  eq : r = 0 → A = B
  gt : 0 < r → B < A

theorem compareAt_spec (T : List Nat) : ∀ (n u1 e1 u2 e2 : Nat), e1 - u1 ≤ n → e1 ≤ T.length → e2 ≤ T.length →
    ∃ r, compareAt T u1 e1 u2 e2 = some r ∧ Tells r ((T.drop u1).take (e1 - u1)) ((T.drop u2).take (e2 - u2)) := by
  intro n
  induction n with
  | zero =>
    intro u1 e1 u2 e2 hn h1 h2
    rw [compareAt, if_neg (by omega)]
    rw [show e1 - u1 = 0 by omega, List.take_zero]
    by_cases h : u2 < e2
    · rw [if_pos h]
      refine ⟨_, rfl, ⟨fun _ => ?_, fun h => by omega, fun h => by omega⟩⟩
      rw [drop_ch (by omega), show e2 - u2 = (e2 - u2 - 1) + 1 by omega, List.take_succ_cons]
      exact List.nil_lt_cons _ _
    · rw [if_neg h]
      refine ⟨_, rfl, ⟨fun h => by omega, fun _ => ?_, fun h => by omega⟩⟩
      rw [show e2 - u2 = 0 by omega, List.take_zero]
  | succ n ih =>
    intro u1 e1 u2 e2 hn h1 h2
    rw [compareAt]
    by_cases h : u1 < e1
    · rw [if_pos h]
      rw [drop_ch (p := u1) (by omega), show e1 - u1 = (e1 - (u1 + 1)) + 1 by omega, List.take_succ_cons]
      by_cases h' : u2 < e2
      · rw [if_pos h', bind_some' (get_ch (by omega)), bind_some' (get_ch (by omega))]
        rw [drop_ch (p := u2) (by omega), show e2 - u2 = (e2 - (u2 + 1)) + 1 by omega, List.take_succ_cons]
        by_cases hc : ch T u1 = ch T u2
        · rw [if_pos hc]
          obtain ⟨r, h3, h4⟩ := ih (u1 + 1) e1 (u2 + 1) e2 (by omega) h1 h2
          refine ⟨r, h3, ⟨fun h => ?_, fun h => ?_, fun h => ?_⟩⟩
          · rw [hc]; exact List.cons_lt_cons_iff.2 (Or.inr ⟨rfl, h4.lt h⟩)
          · rw [hc, h4.eq h]
          · rw [hc]; exact List.cons_lt_cons_iff.2 (Or.inr ⟨rfl, h4.gt h⟩)
        · rw [if_neg hc]
          refine ⟨_, rfl, ⟨fun h => ?_, fun h => ?_, fun h => ?_⟩⟩
          · exact List.cons_lt_cons_iff.2 (Or.inl (by omega))
          · omega
          · exact List.cons_lt_cons_iff.2 (Or.inl (by omega))
      · rw [if_neg h']
        refine ⟨_, rfl, ⟨fun h => by omega, fun h => by omega, fun _ => ?_⟩⟩
        rw [show e2 - u2 = 0 by omega, List.take_zero]
        exact List.nil_lt_cons _ _
    · rw [if_neg h]
      rw [show e1 - u1 = 0 by omega, List.take_zero]
      by_cases h : u2 < e2
      · rw [if_pos h]
        refine ⟨_, rfl, ⟨fun _ => ?_, fun h => by omega, fun h => by omega⟩⟩
        rw [drop_ch (by omega), show e2 - u2 = (e2 - u2 - 1) + 1 by omega, List.take_succ_cons]
        exact List.nil_lt_cons _ _
      · rw [if_neg h]
        refine ⟨_, rfl, ⟨fun h => by omega, fun _ => ?_, fun h => by omega⟩⟩
        rw [show e2 - u2 = 0 by omega, List.take_zero]

theorem append_lt {W A B : List Nat} (h : A < B) : W ++ A < W ++ B := by
  induction W with
  | nil => exact h
  | cons c W ih => exact List.cons_lt_cons_iff.2 (Or.inr ⟨rfl, ih⟩)

theorem Tells.append {r : Int} {A B : List Nat} (h : Tells r A B) (W : List Nat) : Tells r (W ++ A) (W ++ B) :=
  ⟨fun h1 => append_lt (h.lt h1), fun h1 => by rw [h.eq h1], fun h1 => append_lt (h.gt h1)⟩

/-- The part of the substring after `W`. -/
theorem sub_rest {i : Nat} (hi : i + 1 < m) {W rest : List Nat} (he : sub T P m i = W ++ rest) :
    (T.drop (W.length + P i)).take (P (i + 1) + 2 - (W.length + P i)) = rest := by
  rw [sub_eq hi] at he
  have : rest = ((T.drop (P i)).take (P (i + 1) + 2 - P i)).drop W.length := by rw [he]; simp
  rw [this, List.drop_take, List.drop_drop]
  congr 1
  · omega
  · rw [Nat.add_comm]

theorem Env.compare {sa : List Int} (h : Env T P m pa sa) {i j : Nat} {W : List Nat} (hi : Good T P m W i) (hj : Good T P m W j) :
    ∃ r, compare T sa pa (i : Int) (j : Int) W.length = some r ∧ Tells r (sub T P m i) (sub T P m j) := by
  obtain ⟨hi, x, A, hA⟩ := hi
  obtain ⟨hj, y, B, hB⟩ := hj
  unfold Ss.compare
  rw [bind_some' (h.paAt (by omega)), bind_some' (h.paAt (by omega)), show ((i : Int) + 1) = ((i + 1 : Nat) : Int) by omega,
    bind_some' (h.paAt hi), show ((j : Int) + 1) = ((j + 1 : Nat) : Int) by omega, bind_some' (h.paAt hj)]
  obtain ⟨r, h1, h2⟩ := compareAt_spec T _ (W.length + P i) (P (i + 1) + 2) (W.length + P j) (P (j + 1) + 2) (Nat.le_refl _)
    (h.room _ hi) (h.room _ hj)
  refine ⟨r, h1, ?_⟩
  rw [sub_rest hi hA, sub_rest hj hB] at h2
  rw [hA, hB]
  exact h2.append W

/-! ## Sorted ranges -/

/-- The cells from `a` to `b` hold substrings in sorted order; marked are those that are equal to the one in front. -/
structure Srt (K : Nat → List Nat) (a b : Nat) (f : Nat → Int) : Prop where
  first : a < b → 0 ≤ f a
  step : ∀ r, a ≤ r → r + 1 < b → (0 ≤ f (r + 1) ∧ K (dec (f r)) < K (dec (f (r + 1)))) ∨ (f (r + 1) < 0 ∧ K (dec (f r)) = K (dec (f (r + 1))))

theorem Srt.congr {K : Nat → List Nat} {a b : Nat} {f g : Nat → Int} (h : Srt K a b f) (hg : ∀ r, a ≤ r → r < b → g r = f r) : Srt K a b g := by
  refine ⟨fun hab => by rw [hg a (Nat.le_refl _) hab]; exact h.first hab, fun r h1 h2 => ?_⟩
  rw [hg r h1 (by omega), hg (r + 1) (by omega) h2]
  exact h.step r h1 h2

theorem Srt.nil {K : Nat → List Nat} {a b : Nat} {f : Nat → Int} (h : b ≤ a) : Srt K a b f :=
  ⟨fun _ => by omega, fun _ _ _ => by omega⟩

theorem Srt.one {K : Nat → List Nat} {a : Nat} {f : Nat → Int} (h : 0 ≤ f a) : Srt K a (a + 1) f :=
  ⟨fun _ => h, fun _ _ _ => by omega⟩

/-- A part of a sorted range that starts with a cell that is not marked. -/
theorem Srt.part {K : Nat → List Nat} {a b a' b' : Nat} {f : Nat → Int} (h : Srt K a b f) (h1 : a ≤ a') (h2 : b' ≤ b)
    (h0 : a' < b' → 0 ≤ f a') : Srt K a' b' f := ⟨h0, fun r h3 h4 => h.step r (by omega) (by omega)⟩

theorem Srt.init {K : Nat → List Nat} {a b b' : Nat} {f : Nat → Int} (h : Srt K a b f) (h2 : b' ≤ b) : Srt K a b' f :=
  ⟨fun h3 => h.first (by omega), fun r h3 h4 => h.step r (by omega) (by omega)⟩

/-- Two ranges next to each other; `w` is the way the first cell of the second one is marked. -/
theorem Srt.join {K : Nat → List Nat} {a c b : Nat} {f : Nat → Int} (h1 : Srt K a c f) (h2 : ∀ r, c ≤ r → r + 1 < b →
      (0 ≤ f (r + 1) ∧ K (dec (f r)) < K (dec (f (r + 1)))) ∨ (f (r + 1) < 0 ∧ K (dec (f r)) = K (dec (f (r + 1)))))
    (h : a < c → c < b → (0 ≤ f c ∧ K (dec (f (c - 1))) < K (dec (f c))) ∨ (f c < 0 ∧ K (dec (f (c - 1))) = K (dec (f c))))
    (h0 : c ≤ a → c < b → c = a ∧ 0 ≤ f c) : Srt K a b f := by
  refine ⟨fun hab => ?_, fun r h3 h4 => ?_⟩
  · rcases Nat.lt_or_ge a c with hc | hc
    · exact h1.first hc
    · obtain ⟨e, h5⟩ := h0 hc (by omega)
      rw [← e]; exact h5
  · rcases Nat.lt_or_ge (r + 1) c with hr | hr
    · exact h1.step r h3 hr
    · rcases Nat.lt_or_ge r c with hr' | hr'
      · have := h (by omega) (by omega)
        have e : c = r + 1 := by omega
        subst e
        rw [show r + 1 - 1 = r by omega] at this
        exact this
      · exact h2 r hr' h4

theorem Srt.le {K : Nat → List Nat} {a b : Nat} {f : Nat → Int} (h : Srt K a b f) {r s : Nat} (hr : a ≤ r) (hrs : r ≤ s) (hs : s < b) :
    K (dec (f r)) < K (dec (f s)) ∨ K (dec (f r)) = K (dec (f s)) := by
  induction s with
  | zero => have : r = 0 := by omega
            subst this; exact Or.inr rfl
  | succ s ih =>
    rcases Nat.lt_or_ge s r with h1 | h1
    · have : r = s + 1 := by omega
      subst this; exact Or.inr rfl
    · rcases h.step s (by omega) hs with ⟨_, h2⟩ | ⟨_, h2⟩
      · rcases ih h1 (by omega) with h3 | h3
        · exact Or.inl (List.lt_trans h3 h2)
        · rw [h3]; exact Or.inl h2
      · rw [← h2]; exact ih h1 (by omega)

/-- The key of an unmarked cell is above those in front of it. -/
theorem Srt.lt {K : Nat → List Nat} {a b : Nat} {f : Nat → Int} (h : Srt K a b f) {r s : Nat} (hr : a ≤ r) (hrs : r < s) (hs : s < b) (h0 : 0 ≤ f s) :
    K (dec (f r)) < K (dec (f s)) := by
  have e : s = s - 1 + 1 := by omega
  rcases h.step (s - 1) (by omega) (by omega) with ⟨_, h2⟩ | ⟨h2, _⟩
  · rw [← e] at h2
    rcases h.le hr (show r ≤ s - 1 by omega) (by omega) with h3 | h3
    · exact List.lt_trans h3 h2
    · rw [h3]; exact h2
  · rw [← e] at h2; omega

end

end Bwtc.Ss
