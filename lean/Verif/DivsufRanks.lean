import Verif.DivsufSort

/-!
# The ranks of the B* substrings

From the sorted and marked numbers of the B* substrings, `sort_typeBstar` computes the ranks (divsufsort.c:148-158) and calls `trsort`.
-/

set_option autoImplicit false

namespace Bwtc.Divsuf
open Sais (put inv loopDown)
open Sais (put_spec bind_some')
open Induce Suffix

/-- An array after an assignment. -/
theorem set_ite {α : Type} {A : List α} {i : Nat} {x : α} (h : i < A.length) (r : Nat) : (A.set i x)[r]? = if r = i then some x else A[r]? := by
  by_cases e : r = i
  · rw [if_pos e, e, List.getElem?_set_self h]
  · rw [if_neg e, List.getElem?_set_ne (Ne.symm e)]

/-! ## The loop -/

section Loop
variable {v : Nat → Int} {m L : Nat}

/-- Cell `e` is the last one of the group of cell `r`. -/
structure IsEnd (v : Nat → Int) (m r e : Nat) : Prop where
  le : r ≤ e
  lt : e < m
  mark : ∀ x, r < x → x ≤ e → v x < 0
  stop : e + 1 = m ∨ 0 ≤ v (e + 1)

/-- The group of cell `r` has a single member. -/
def sg (v : Nat → Int) (m r : Nat) : Prop := 0 ≤ v r ∧ (r + 1 = m ∨ 0 ≤ v (r + 1))

/-- A maximal run of such cells. -/
structure MaxRun (v : Nat → Int) (m a d : Nat) : Prop where
  pos : 0 < d
  le : a + d ≤ m
  all : ∀ r, a ≤ r → r < a + d → sg v m r
  left : a = 0 ∨ ¬ sg v m (a - 1)
  right : a + d = m ∨ ¬ sg v m (a + d)

/-- Before cell `i - 1` is looked at; `op`: the last cell of a run whose length is not yet written. -/
structure RInv (v : Nat → Int) (m L i : Nat) (op : Option Nat) (sa : List Int) : Prop where
  size : sa.length = L
  low : ∀ r, r < i → sa[r]? = some (v r)
  isa : ∀ r e, i ≤ r → IsEnd v m r e → sa[m + dec (v r)]? = some (e : Int)
  grp : ∀ r, i ≤ r → r < m → ¬ sg v m r → sa[r]? = some (dec (v r) : Int)
  run : ∀ a d, MaxRun v m a d → i ≤ a → (∀ j, op = some j → j < a) → sa[a]? = some (-(d : Int))

/-- What holds in the different places of the loops. -/
def InMode (v : Nat → Int) (m i : Nat) : Mode → Prop
  | .start => i = m ∨ (0 ≤ v i ∧ ¬ sg v m i)
  | .single j => i ≤ j ∧ j < m ∧ (∀ r, i ≤ r → r ≤ j → sg v m r) ∧ (j + 1 = m ∨ ¬ sg v m (j + 1))
  | .group j => i ≤ j ∧ j < m ∧ (∀ r, i ≤ r → r ≤ j → v r < 0) ∧ (j + 1 = m ∨ 0 ≤ v (j + 1))

def opens : Mode → Option Nat
  | .single j => some j
  | _ => none

variable (h2 : 2 * m ≤ L) (hdec : ∀ r, r < m → dec (v r) < m) (hinj : ∀ r r', r < m → r' < m → dec (v r) = dec (v r') → r = r')

theorem IsEnd.unique {r e e' : Nat} (h : IsEnd v m r e) (h' : IsEnd v m r e') : e = e' := by
  have key : ∀ {e e'}, IsEnd v m r e → IsEnd v m r e' → ¬ e < e' := by
    intro e e' h h' hlt
    have := h'.mark (e + 1) (by have := h.le; omega) (by omega)
    have := h'.lt
    rcases h.stop with a | a <;> omega
  have := key h h'
  have := key h' h
  omega

include h2 hdec hinj

/-- The rank of cell `i` is written; `op`: the last cell of the run that the cell belongs to. -/
theorem RInv.rank {i e : Nat} (hi : i < m) (he : IsEnd v m i e) {op op' : Option Nat} {sa : List Int} (h : RInv v m L (i + 1) op sa)
    (hop : ∀ a, i ≤ a → (∀ j, op' = some j → j < a) → a = i → ¬ sg v m i)
    (hop2 : ∀ a, i + 1 ≤ a → (∀ j, op' = some j → j < a) → ∀ j, op = some j → j < a)
    {x : Int} (hx : sa[i]? = some x) (hg : ¬ sg v m i → x = dec (v i)) :
    put sa (m + dec (v i)) e = some (sa.set (m + dec (v i)) e) ∧ RInv v m L i op' (sa.set (m + dec (v i)) e) := by
  have hd := hdec i hi
  have hlt : m + dec (v i) < sa.length := by rw [h.size]; omega
  have hs := set_ite (A := sa) (x := (e : Int)) hlt
  refine ⟨put_spec hlt _, ?_, ?_, ?_, ?_, ?_⟩
  · rw [List.length_set]; exact h.size
  · intro r hr
    rw [hs, if_neg (by omega)]
    exact h.low r (by omega)
  · intro r e' hr he'
    rw [hs]
    by_cases er : r = i
    · subst er
      rw [if_pos rfl, he.unique he']
    · have hrm : r < m := by have := he'.le; have := he'.lt; omega
      rw [if_neg (fun a => er (hinj r i hrm hi (by omega)))]
      exact h.isa r e' (by omega) he'
  · intro r hr hrm hsg
    rw [hs, if_neg (by omega)]
    by_cases er : r = i
    · subst er; rw [hx, hg hsg]
    · exact h.grp r (by omega) hrm hsg
  · intro a d hr ha hj
    have := hr.pos
    have := hr.le
    rw [hs, if_neg (by omega)]
    by_cases er : a = i
    · exact absurd (hr.all i (by omega) (by omega)) (hop a ha hj er)
    · exact h.run a d hr (by omega) (hop2 a (by omega) hj)

omit h2 hdec hinj in
/-- The length of a run is written. -/
theorem RInv.close {i j : Nat} (hm : InMode v m i (.single j)) {sa : List Int} (h : RInv v m L i (some j) sa) (hL : m ≤ L) :
    put sa i ((i : Int) - j - 1) = some (sa.set i ((i : Int) - j - 1)) ∧ RInv v m L i none (sa.set i ((i : Int) - j - 1)) := by
  obtain ⟨m1, m2, m3, m4⟩ := hm
  have hlt : i < sa.length := by rw [h.size]; omega
  have hs := set_ite (A := sa) (x := ((i : Int) - j - 1)) hlt
  refine ⟨put_spec hlt _, ?_, ?_, ?_, ?_, ?_⟩
  · rw [List.length_set]; exact h.size
  · intro r hr
    rw [hs, if_neg (by omega)]
    exact h.low r hr
  · intro r e' hr he'
    rw [hs, if_neg (by omega)]
    exact h.isa r e' hr he'
  · intro r hr hrm hsg
    rw [hs]
    by_cases er : r = i
    · subst er; exact absurd (m3 r (by omega) m1) hsg
    · rw [if_neg er]
      exact h.grp r hr hrm hsg
  · intro a d hr ha _
    rw [hs]
    have p1 := hr.pos
    by_cases er : a = i
    · subst er
      rw [if_pos rfl]
      have hd : a + d = j + 1 := by
        by_cases c1 : a + d < j + 1
        · rcases hr.right with g | g
          · omega
          · exact absurd (m3 (a + d) (by omega) (by omega)) g
        · by_cases c2 : j + 1 < a + d
          · rcases m4 with g | g
            · have := hr.le; omega
            · exact absurd (hr.all (j + 1) (by omega) c2) g
          · omega
      congr 1
      omega
    · rw [if_neg er]
      apply h.run a d hr ha
      intro j' ej
      cases ej
      by_cases c : a ≤ j
      · rcases hr.left with g | g
        · omega
        · exact absurd (m3 (a - 1) (by omega) (by omega)) g
      · omega

omit h2 hdec hinj in
theorem dec_neg {x : Int} (h : x < 0) : inv x = (dec x : Int) := by
  unfold inv dec; rw [if_pos h]; omega

omit h2 hdec hinj in
theorem dec_nonneg {x : Int} (h : 0 ≤ x) : x = (dec x : Int) := by
  unfold dec; rw [if_neg (by omega)]; omega

/-- `ISAb[SA[i] = ~SA[i]] = e`. -/
theorem RInv.flip {i e : Nat} (hi : i < m) (he : IsEnd v m i e) {sa : List Int} (h : RInv v m L (i + 1) none sa) (hn : v i < 0) :
    ∃ sa', flipRank m sa i (v i) e = some sa' ∧ RInv v m L i none sa' := by
  have hd := hdec i hi
  have hlt : i < sa.length := by rw [h.size]; omega
  have hs := set_ite (A := sa) (x := inv (v i)) hlt
  have hng : ¬ sg v m i := fun a => by have := a.1; omega
  have hput : put sa i (inv (v i)) = some (sa.set i (inv (v i))) := put_spec hlt _
  have hlt2 : m + dec (v i) < (sa.set i (inv (v i))).length := by rw [List.length_set, h.size]; omega
  refine ⟨(sa.set i (inv (v i))).set (m + dec (v i)) e, ?_, ?_⟩
  · unfold flipRank
    rw [bind_some' hput]
    unfold putRank
    rw [dec_neg hn, if_pos (by omega), Int.toNat_natCast, ← dec_neg hn]
    exact put_spec hlt2 _
  · have hs2 := set_ite (A := sa.set i (inv (v i))) (x := (e : Int)) hlt2
    refine ⟨?_, ?_, ?_, ?_, ?_⟩
    · rw [List.length_set, List.length_set]; exact h.size
    · intro r hr
      rw [hs2, if_neg (by omega), hs, if_neg (by omega)]
      exact h.low r (by omega)
    · intro r e' hr he'
      rw [hs2]
      by_cases er : r = i
      · subst er
        rw [if_pos rfl, he.unique he']
      · have hrm : r < m := by have := he'.le; have := he'.lt; omega
        rw [if_neg (fun a => er (hinj r i hrm hi (by omega))), hs, if_neg (by omega)]
        exact h.isa r e' (by omega) he'
    · intro r hr hrm hsg
      rw [hs2, if_neg (by omega), hs]
      by_cases er : r = i
      · subst er; rw [if_pos rfl, dec_neg hn]
      · rw [if_neg er]; exact h.grp r (by omega) hrm hsg
    · intro a d hr ha hj
      have p1 := hr.pos
      have p2 := hr.le
      have er : a ≠ i := fun er => hng (by rw [← er]; exact hr.all a (by omega) (by omega))
      rw [hs2, if_neg (by omega), hs, if_neg er]
      exact h.run a d hr (by omega) (fun j e => by cases e)

theorem ranks_spec (h0 : 0 ≤ v 0) (i : Nat) (him : i ≤ m) (mode : Mode) (hm : InMode v m i mode) {sa : List Int}
    (h : RInv v m L i (opens mode) sa) : ∃ sa', ranks m i mode sa = some sa' ∧ RInv v m L 0 none sa' := by
  induction i generalizing mode sa with
  | zero =>
    match mode, hm with
    | .start, _ => exact ⟨sa, rfl, h⟩
    | .single j, hm =>
      obtain ⟨a, b⟩ := h.close hm (by omega)
      refine ⟨_, ?_, b⟩
      rw [← a]
      unfold ranks
      congr 1
      omega
    | .group j, hm =>
      have := hm.2.2.1 0 (by omega) hm.1
      omega
  | succ i ih =>
    have hx := h.low i (by omega)
    -- a cell of a group is marked
    have flip : ∀ {sa e}, RInv v m L (i + 1) none sa → v i < 0 → IsEnd v m i e → ∃ sa', (do let sa ← flipRank m sa i (v i) e; ranks m i (.group e) sa) = some sa' ∧
        RInv v m L 0 none sa' := by
      intro sa e h hn he
      obtain ⟨sa1, a, b⟩ := RInv.flip h2 hdec hinj (by omega) he h hn
      obtain ⟨sa2, c, d⟩ := ih (by omega) (.group e) ⟨he.le, he.lt, fun r g1 g2 => by
        by_cases er : r = i
        · rw [er]; exact hn
        · exact he.mark r (by omega) g2, he.stop⟩ b
      exact ⟨sa2, by rw [bind_some' a]; exact c, d⟩
    have rank : ∀ {sa e op op'} (mode : Mode), RInv v m L (i + 1) op sa → 0 ≤ v i → IsEnd v m i e → InMode v m i mode → opens mode = op' →
        (∀ a, i ≤ a → (∀ j, op' = some j → j < a) → a = i → ¬ sg v m i) →
        (∀ a, i + 1 ≤ a → (∀ j, op' = some j → j < a) → ∀ j, op = some j → j < a) →
        ∃ sa', (do let sa ← putRank m sa (v i) e; ranks m i mode sa) = some sa' ∧ RInv v m L 0 none sa' := by
      intro sa e op op' mode h hn he hmode eop hop hop2
      obtain ⟨a, b⟩ := RInv.rank h2 hdec hinj (by omega) he h hop hop2 (h.low i (by omega)) (fun _ => dec_nonneg hn)
      obtain ⟨sa2, c, d⟩ := ih (by omega) mode hmode (by rw [eop]; exact b)
      refine ⟨sa2, ?_, d⟩
      have : putRank m sa (v i) e = some (sa.set (m + dec (v i)) e) := by
        unfold putRank
        rw [if_pos hn, ← a, show (v i).toNat = dec (v i) by unfold dec; rw [if_neg (by omega)]]
      rw [bind_some' this]; exact c
    match mode, hm, h with
    | .start, hm, h =>
      unfold ranks
      rw [bind_some' hx]
      have hend : IsEnd v m i i := ⟨Nat.le_refl _, by omega, fun x a b => by omega, by
        rcases hm with g | g
        · exact Or.inl g
        · exact Or.inr g.1⟩
      by_cases hn : 0 ≤ v i
      · rw [if_pos hn]
        have hsg : sg v m i := ⟨hn, hend.stop⟩
        apply rank (.single i) h hn hend _ rfl
        · intro a g1 g2 g3
          have := g2 i rfl
          omega
        · intro a g1 g2 j e; cases e
        · refine ⟨Nat.le_refl _, by omega, fun r g1 g2 => ?_, ?_⟩
          · rw [show r = i by omega]; exact hsg
          · rcases hm with g | g
            · exact Or.inl g
            · exact Or.inr g.2
      · rw [if_neg hn]
        exact flip h (by omega) hend
    | .single j, hm, h =>
      obtain ⟨m1, m2, m3, m4⟩ := hm
      unfold ranks
      rw [bind_some' hx]
      have hend : IsEnd v m i i := ⟨Nat.le_refl _, by omega, fun x a b => by omega, Or.inr (m3 (i + 1) (Nat.le_refl _) m1).1⟩
      by_cases hn : 0 ≤ v i
      · rw [if_pos hn]
        have hsg : sg v m i := ⟨hn, hend.stop⟩
        apply rank (.single j) h hn hend _ rfl
        · intro a g1 g2 g3
          have := g2 j rfl
          omega
        · intro a g1 g2 j' e
          exact g2 j' e
        · refine ⟨by omega, m2, fun r g1 g2 => ?_, m4⟩
          by_cases er : r = i
          · rw [er]; exact hsg
          · exact m3 r (by omega) g2
      · rw [if_neg hn]
        obtain ⟨a, b⟩ := h.close ⟨m1, m2, m3, m4⟩ (by omega)
        have a' : put sa (i + 1) ((i : Int) - j) = some (sa.set (i + 1) (((i + 1 : Nat) : Int) - j - 1)) := by
          rw [← a]; congr 1; omega
        rw [bind_some' a', if_neg (by intro e; subst e; omega)]
        exact flip b (by omega) hend
    | .group j, hm, h =>
      obtain ⟨m1, m2, m3, m4⟩ := hm
      unfold ranks
      rw [bind_some' hx]
      have hend : IsEnd v m i j := ⟨by omega, m2, fun x g1 g2 => m3 x (by omega) g2, m4⟩
      by_cases hn : v i < 0
      · rw [if_pos hn]
        exact flip h hn hend
      · rw [if_neg hn]
        have hng : ¬ sg v m i := fun g => by
          have := m3 (i + 1) (Nat.le_refl _) m1
          rcases g.2 with g | g <;> omega
        apply rank .start h (by omega) hend _ rfl
        · intro a _ _ _; exact hng
        · intro a _ _ j e; cases e
        · exact Or.inr ⟨by omega, hng⟩

end Loop

/-! ## The call of `trsort` -/

/-- Counting the images of a permutation. -/
theorem cnt_perm {m : Nat} (f : Nat → Nat) (hf : ∀ i, i < m → f i < m) (hinj : ∀ i j, i < m → j < m → f i = f j → i = j) (Q : Nat → Prop) :
    cnt m (fun i => Q (f i)) = cnt m Q := by
  have hp : ((List.range m).map f).Perm (List.range m) := by
    have hnd : ((List.range m).map f).Nodup := by
      rw [List.nodup_iff_pairwise_ne, List.pairwise_map]
      refine List.Pairwise.imp_of_mem ?_ (List.nodup_range (n := m))
      intro i j hi hj hne e
      exact hne (hinj i j (List.mem_range.mp hi) (List.mem_range.mp hj) e)
    apply List.Subperm.perm_of_length_le
    · apply List.subperm_of_subset hnd
      intro x hx
      obtain ⟨i, hi, rfl⟩ := List.mem_map.mp hx
      exact List.mem_range.mpr (hf i (List.mem_range.mp hi))
    · rw [List.length_map]; exact Nat.le_refl _
  unfold cnt
  refine Eq.trans ?_ (hp.countP_eq _)
  rw [List.countP_map]
  rfl

theorem IsEnd.exist {v : Nat → Int} {m r : Nat} (h : r < m) : ∃ e, IsEnd v m r e := by
  obtain ⟨d, hd⟩ : ∃ d, m = r + 1 + d := ⟨m - r - 1, by omega⟩
  induction d generalizing r with
  | zero => exact ⟨r, Nat.le_refl _, h, fun x a b => by omega, Or.inl (by omega)⟩
  | succ d ih =>
    by_cases hn : 0 ≤ v (r + 1)
    · exact ⟨r, Nat.le_refl _, h, fun x a b => by omega, Or.inr hn⟩
    · obtain ⟨e, he⟩ := ih (r := r + 1) (by omega) (by omega)
      refine ⟨e, by have := he.le; omega, he.lt, fun x a b => ?_, he.stop⟩
      by_cases ex : x = r + 1
      · rw [ex]; omega
      · exact he.mark x (by omega) b

theorem IsEnd.mono {v : Nat → Int} {m r r' e e' : Nat} (h : IsEnd v m r e) (h' : IsEnd v m r' e') (hr : r ≤ r') : e ≤ e' := by
  by_cases c : e < e'
  · omega
  · by_cases c' : e' < e
    · have := h.mark (e' + 1) (by have := h'.le; omega) (by omega)
      have := h.lt
      rcases h'.stop with g | g <;> omega
    · omega

/-- A sorted sequence of cells with marks, as numbers. -/
structure Order (v : Nat → Int) (m : Nat) : Prop where
  first : 0 ≤ v 0
  dec : ∀ r, r < m → dec (v r) < m
  inj : ∀ r r', r < m → r' < m → Divsuf.dec (v r) = Divsuf.dec (v r') → r = r'

/-- The ranks in the array. -/
noncomputable def ranksOf (m : Nat) (sa : List Int) : List Nat := (List.range m).map (fun i => ((sa[m + i]?).getD 0).toNat)

section Call
variable {v : Nat → Int} {m L : Nat} {sa : List Int}

theorem ranksOf_length : (ranksOf m sa).length = m := by unfold ranksOf; rw [List.length_map, List.length_range]

theorem ranksOf_ch {i : Nat} (hi : i < m) : ch (ranksOf m sa) i = ((sa[m + i]?).getD 0).toNat := by
  apply ch_eq
  unfold ranksOf
  rw [List.getElem?_map, List.getElem?_range hi]
  rfl

variable (ho : Order v m) (h : RInv v m L 0 none sa)
include ho h

theorem rank_cell {r e : Nat} (he : IsEnd v m r e) : ch (ranksOf m sa) (dec (v r)) = e := by
  have hr : r < m := by have := he.le; have := he.lt; omega
  rw [ranksOf_ch (ho.dec r hr), h.isa r e (by omega) he]
  rfl

omit h in
theorem cell_of {i : Nat} (hi : i < m) : ∃ r, r < m ∧ dec (v r) = i := inj_surj (fun r => dec (v r)) ho.dec ho.inj hi

theorem rank_of {i : Nat} (hi : i < m) : ∃ r e, r < m ∧ dec (v r) = i ∧ IsEnd v m r e ∧ ch (ranksOf m sa) i = e := by
  obtain ⟨r, hr, er⟩ := cell_of ho hi
  obtain ⟨e, he⟩ := IsEnd.exist (v := v) hr
  exact ⟨r, e, hr, er, he, by rw [← er]; exact rank_cell ho h he⟩

omit h in
/-- Counting numbers is counting cells. -/
theorem cnt_cells (Q : Nat → Prop) : cnt m (fun i => Q (ch (ranksOf m sa) i)) = cnt m (fun r => Q (ch (ranksOf m sa) (dec (v r)))) :=
  (cnt_perm (fun r => dec (v r)) ho.dec ho.inj (fun i => Q (ch (ranksOf m sa) i))).symm

omit ho h in
theorem cnt_below {m c : Nat} (hc : c ≤ m) : cnt m (fun r => r < c) = c := by
  induction m with
  | zero => rw [cnt_zero]; omega
  | succ m ih =>
    rw [cnt_succ]
    by_cases e : c ≤ m
    · rw [ih e, if_neg (by omega)]; rfl
    · rw [if_pos (by omega), cnt_true (fun q hq => by omega)]; omega

theorem single_iff {r : Nat} (hr : r < m) : Single (ranksOf m sa) r ↔ sg v m r := by
  have hlen := ranksOf_length (m := m) (sa := sa)
  constructor
  · rintro ⟨i, hi, ei, hu⟩
    rw [hlen] at hi hu
    obtain ⟨c, e, hc, ec, he, ee⟩ := rank_of ho h hi
    have er : e = r := by omega
    subst er
    refine ⟨?_, he.stop⟩
    apply Classical.byContradiction
    intro hneg
    have h0 : e ≠ 0 := fun z => hneg (by rw [z]; exact ho.first)
    have e1 : IsEnd v m e e := ⟨Nat.le_refl _, hr, fun x a b => by omega, he.stop⟩
    have e2 : IsEnd v m (e - 1) e := ⟨by omega, hr, fun x a b => by rw [show x = e by omega]; omega, he.stop⟩
    have u1 := hu _ (ho.dec e hr) (rank_cell ho h e1)
    have u2 := hu _ (ho.dec (e - 1) (by omega)) (rank_cell ho h e2)
    have := ho.inj e (e - 1) hr (by omega) (by omega)
    omega
  · intro hs
    have he : IsEnd v m r r := ⟨Nat.le_refl _, hr, fun x a b => by omega, hs.2⟩
    refine ⟨dec (v r), by rw [hlen]; exact ho.dec r hr, rank_cell ho h he, ?_⟩
    intro j hj ej
    rw [hlen] at hj
    obtain ⟨c, e, hc, ec, he', ee⟩ := rank_of ho h hj
    have er : e = r := by omega
    subst er
    have hle := he'.le
    by_cases hce : c = e
    · rw [← ec, hce]
    · have := he'.mark e (by omega) (Nat.le_refl _)
      have := hs.1
      omega

theorem trCall (hlast : ∀ i, i + 1 < m → ch (ranksOf m sa) i ≠ ch (ranksOf m sa) (m - 1)) : TrCall (ranksOf m sa) sa m := by
  have hlen := ranksOf_length (m := m) (sa := sa)
  have hrank : ∀ i, i < m → sa[m + i]? = some (ch (ranksOf m sa) i : Int) := by
    intro i hi
    obtain ⟨r, e, hr, er, he, ee⟩ := rank_of ho h hi
    rw [ee, ← er]
    exact h.isa r e (by omega) he
  have hcell : ∀ r, r < m → ¬ Single (ranksOf m sa) r → sa[r]? = some (dec (v r) : Int) := by
    intro r hr hns
    exact h.grp r (by omega) hr (fun a => hns ((single_iff ho h hr).mpr a))
  refine ⟨⟨?_, ?_⟩, ?_, ?_, ?_, ?_, ?_⟩
  · intro i hi
    rw [hlen] at hi ⊢
    obtain ⟨r, e, hr, er, he, ee⟩ := rank_of ho h hi
    have hlt := he.lt
    rw [ee, cnt_cells ho (fun x => x ≤ e), ← cnt_below (c := e + 1) (m := m) (by omega)]
    apply cnt_congr
    intro x hx
    obtain ⟨e', he'⟩ := IsEnd.exist (v := v) hx
    rw [rank_cell ho h he']
    constructor
    · intro a
      have hee : IsEnd v m e e := ⟨Nat.le_refl _, hlt, fun x a b => by omega, he.stop⟩
      exact he'.mono hee (by omega)
    · intro a
      have := he'.le
      omega
  · intro i hi
    rw [hlen] at hi ⊢
    exact hlast i hi
  · intro i hi
    rw [hlen] at hi
    exact hrank i hi
  · rw [hlen]; exact Nat.le_refl _
  · intro r hr hns
    rw [hlen] at hr ⊢
    obtain ⟨e, he⟩ := IsEnd.exist (v := v) hr
    refine ⟨dec (v r), ho.dec r hr, hcell r hr hns, ?_, ?_⟩
    · rw [rank_cell ho h he, cnt_cells ho (fun x => x < e)]
      calc _ ≤ cnt m (fun x => x < r) := cnt_le (fun x hx a => by
              obtain ⟨e', he'⟩ := IsEnd.exist (v := v) hx
              rw [rank_cell ho h he'] at a
              apply Classical.byContradiction
              intro hxr
              have := he.mono he' (by omega)
              omega)
        _ = r := cnt_below (by omega)
    · rw [rank_cell ho h he]; exact he.le
  · intro r r' hr hr' hns hns' e
    rw [hlen] at hr hr'
    rw [hcell r hr hns, hcell r' hr' hns'] at e
    exact ho.inj r r' hr hr' (by have := Option.some.inj e; omega)
  · intro a d hd hle hall hl hr
    rw [hlen] at hle hr
    apply h.run a d ⟨hd, hle, fun r g1 g2 => (single_iff ho h (by omega)).mp (hall r g1 g2), ?_, ?_⟩ (by omega) (fun j e => by cases e)
    · rcases hl with g | g
      · exact Or.inl g
      · exact Or.inr (fun a' => g ((single_iff ho h (by omega)).mpr a'))
    · by_cases e : a + d = m
      · exact Or.inl e
      · rcases hr with g | g
        · exact Or.inl g
        · exact Or.inr (fun a' => g ((single_iff ho h (by omega)).mpr a'))

end Call

/-! ## The order of the substrings -/

section Chain
variable {T : List Nat} {P : Nat → Nat} {m : Nat}

theorem before_trans {i j l : Nat} (h1 : before T P m i j) (h2 : before T P m j l) : before T P m i l := by
  rcases h1 with a | ⟨a, b, c⟩ <;> rcases h2 with a' | ⟨a', b', c'⟩
  · exact Or.inl (List.lt_trans a a')
  · left; rw [← a']; exact a
  · left; rw [a]; exact a'
  · exact absurd b' c

theorem before_same {i j l : Nat} (h1 : before T P m i j) (h2 : same T P m j l) : before T P m i l := by
  rcases h1 with a | ⟨a, b, c⟩
  · left; rw [← h2.1]; exact a
  · exact Or.inr ⟨a.trans h2.1, b, h2.2.2⟩

theorem same_before {i j l : Nat} (h1 : same T P m i j) (h2 : before T P m j l) : before T P m i l := by
  rcases h2 with a | ⟨a, b, c⟩
  · left; rw [h1.1]; exact a
  · exact absurd b h1.2.2

theorem same_trans {i j l : Nat} (h1 : same T P m i j) (h2 : same T P m j l) : same T P m i l := ⟨h1.1.trans h2.1, h1.2.1, h2.2.2⟩

theorem same_symm {i j : Nat} (h1 : same T P m i j) : same T P m j i := ⟨h1.1.symm, h1.2.2, h1.2.1⟩

theorem chain {v : Nat → Int} {b : Nat} (hs : ∀ r, r + 1 < b → (0 ≤ v (r + 1) ∧ before T P m (dec (v r)) (dec (v (r + 1)))) ∨
    (v (r + 1) < 0 ∧ same T P m (dec (v r)) (dec (v (r + 1))))) {r : Nat} (d : Nat) (hd : r + 1 + d < b) :
    ((∀ x, r < x → x ≤ r + 1 + d → v x < 0) → same T P m (dec (v r)) (dec (v (r + 1 + d)))) ∧
    (¬ (∀ x, r < x → x ≤ r + 1 + d → v x < 0) → before T P m (dec (v r)) (dec (v (r + 1 + d)))) := by
  induction d with
  | zero =>
    rw [Nat.add_zero] at hd ⊢
    constructor
    · intro hall
      rcases hs r hd with a | a
      · have := hall (r + 1) (by omega) (by omega); omega
      · exact a.2
    · intro hall
      rcases hs r hd with a | a
      · exact a.2
      · exact absurd (fun x h1 h2 => by rw [show x = r + 1 by omega]; exact a.1) hall
  | succ d ih =>
    obtain ⟨ih1, ih2⟩ := ih (by omega)
    have st := hs (r + 1 + d) (by omega)
    rw [show r + 1 + (d + 1) = r + 1 + d + 1 by omega]
    constructor
    · intro hall
      have s1 := ih1 (fun x h1 h2 => hall x h1 (by omega))
      rcases st with a | a
      · have := hall (r + 1 + d + 1) (by omega) (by omega); omega
      · exact same_trans s1 a.2
    · intro hall
      by_cases hp : ∀ x, r < x → x ≤ r + 1 + d → v x < 0
      · have s1 := ih1 hp
        rcases st with a | a
        · exact same_before s1 a.2
        · refine absurd (fun x h1 h2 => ?_) hall
          by_cases e : x = r + 1 + d + 1
          · rw [e]; exact a.1
          · exact hp x h1 (by omega)
      · have s1 := ih2 hp
        rcases st with a | a
        · exact before_trans s1 a.2
        · exact before_same s1 a.2

end Chain

end Bwtc.Divsuf
