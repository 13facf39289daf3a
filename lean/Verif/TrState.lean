import Verif.TrInsert
import Verif.SsBoth
import Verif.TrRoom

/-!
# What holds while `tr_introsort` runs

`T` is the sequence of ranks `trsort` starts with.  `I i` is the rank of the suffix `i` at the moment, `q r` the suffix that belongs to cell `r`, and
`h` is `incr`, the depth all the groups are known to agree to.
-/

set_option autoImplicit false

namespace Bwtc.Tr
open Ss (cel get_cel pop)
open Suffix
open Divsuf (dec)
open Induce (cnt cnt_le)

variable {T : List Nat}

/-! ## Agreement of suffixes -/

/-- The first `d` numbers of the suffixes `i` and `j` are the same. -/
def Agree (T : List Nat) (d i j : Nat) : Prop := ∀ k, k < d → ch T (i + k) = ch T (j + k)

/-- The last number is different from all others. -/
def Alone (T : List Nat) : Prop := ∀ i, i + 1 < T.length → ch T i ≠ ch T (T.length - 1)

theorem Agree.refl (d i : Nat) : Agree T d i i := fun _ _ => rfl

theorem Agree.symm {d i j : Nat} (h : Agree T d i j) : Agree T d j i := fun k hk => (h k hk).symm

theorem Agree.trans {d i j l : Nat} (h : Agree T d i j) (h' : Agree T d j l) : Agree T d i l := fun k hk => (h k hk).trans (h' k hk)

theorem Agree.mono {d e i j : Nat} (h : Agree T d i j) (he : e ≤ d) : Agree T e i j := fun k hk => h k (by omega)

theorem Agree.add {d e i j : Nat} (h : Agree T d i j) (h' : Agree T e (i + d) (j + d)) : Agree T (d + e) i j := by
  intro k hk
  rcases Nat.lt_or_ge k d with h1 | h1
  · exact h k h1
  · have := h' (k - d) (by omega)
    rwa [show i + d + (k - d) = i + k by omega, show j + d + (k - d) = j + k by omega] at this

theorem Agree.room (hT : Alone T) {d i j : Nat} (hi : i < T.length) (hj : j < T.length) (hne : i ≠ j) (h : Agree T d i j) :
    i + d < T.length ∧ j + d < T.length := by
  induction d with
  | zero => exact ⟨hi, hj⟩
  | succ d ih =>
    obtain ⟨h1, h2⟩ := ih (h.mono (by omega))
    have h3 := h d (by omega)
    have h4 : i + d + 1 ≠ T.length := by
      intro h5
      have h6 : i + d = T.length - 1 := by omega
      rw [h6] at h3
      exact hT (j + d) (by omega) h3.symm
    have h7 : j + d + 1 ≠ T.length := by
      intro h5
      have h6 : j + d = T.length - 1 := by omega
      rw [h6] at h3
      exact hT (i + d) (by omega) h3
    omega

theorem Agree.less (hT : Alone T) {d i j : Nat} (hi : i < T.length) (hj : j < T.length) (h : Agree T d i j) :
    sless T i j ↔ sless T (i + d) (j + d) := by
  by_cases hne : i = j
  · subst hne
    exact ⟨fun h => absurd h (sless_irrefl _), fun h => absurd h (sless_irrefl _)⟩
  · obtain ⟨h1, h2⟩ := h.room hT hi hj hne
    exact Divsuf.sless_shift d (by omega) (by omega) h

/-! ## Ranks and cells -/

/-- The ranks and the cells go together: the rank is the number of the last cell of the group, smaller ranks are those of smaller suffixes, and the
members of a group agree up to `h`. -/
structure Rk (T : List Nat) (h : Nat) (I q : Nat → Nat) : Prop where
  cell : ∀ r, r < T.length → q r < T.length
  inj : ∀ r r', r < T.length → r' < T.length → q r = q r' → r = r'
  onto : ∀ i, i < T.length → ∃ r, r < T.length ∧ q r = i
  up : ∀ r, r < T.length → r ≤ I (q r) ∧ I (q r) < T.length
  blk : ∀ r r', r < T.length → r ≤ r' → r' ≤ I (q r) → I (q r') = I (q r)
  cons : ∀ i j, i < T.length → j < T.length → I i < I j → sless T i j
  eqh : ∀ i j, i < T.length → j < T.length → I i = I j → Agree T h i j

/-- The cells from `f` to `l` are those of a group. -/
structure IsGrp (T : List Nat) (I q : Nat → Nat) (f l : Nat) : Prop where
  lt : f < l
  le : l ≤ T.length
  val : ∀ r, f ≤ r → r < l → I (q r) + 1 = l
  low : ∀ r, r < f → I (q r) < f

/-- The group in the cells from `f` to `l` has been divided. -/
structure Local (T : List Nat) (f l : Nat) (I q I' q' : Nat → Nat) : Prop where
  qout : ∀ r, r < f ∨ l ≤ r → q' r = q r
  qin : ∀ r, f ≤ r → r < l → ∃ r', f ≤ r' ∧ r' < l ∧ q' r = q r'
  qonto : ∀ r, f ≤ r → r < l → ∃ r', f ≤ r' ∧ r' < l ∧ q' r' = q r
  qinj : ∀ r r', f ≤ r → r < l → f ≤ r' → r' < l → q' r = q' r' → r = r'
  iout : ∀ r, r < T.length → r < f ∨ l ≤ r → I' (q r) = I (q r)
  up : ∀ r, f ≤ r → r < l → r ≤ I' (q' r) ∧ I' (q' r) < l
  blk : ∀ r r', f ≤ r → r < l → r ≤ r' → r' ≤ I' (q' r) → I' (q' r') = I' (q' r)
  cons : ∀ r r', f ≤ r → r < l → f ≤ r' → r' < l → I' (q' r) < I' (q' r') → sless T (q' r) (q' r')

theorem Local.rk {h f l : Nat} {I q I' q' : Nat → Nat} (hL : Local T f l I q I' q') (hR : Rk T h I q) (hg : IsGrp T I q f l) : Rk T h I' q' := by
  have hlt := hg.lt
  have hle := hg.le
  have out : ∀ r, r < T.length → r < f ∨ l ≤ r → I' (q' r) = I (q r) ∧ (r < f → I (q r) < f) ∧ (l ≤ r → l ≤ I (q r)) := by
    intro r h1 h2
    rw [hL.qout r h2]
    refine ⟨hL.iout r h1 h2, hg.low r, fun h3 => ?_⟩
    have := (hR.up r h1).1; omega
  have cell' : ∀ r, r < T.length → q' r < T.length := by
    intro r hr
    by_cases h1 : f ≤ r ∧ r < l
    · obtain ⟨r', h2, h3, h4⟩ := hL.qin r h1.1 h1.2
      rw [h4]; exact hR.cell r' (by omega)
    · rw [hL.qout r (by omega)]; exact hR.cell r hr
  have onto' : ∀ i, i < T.length → ∃ r, r < T.length ∧ q' r = i := by
    intro i hi
    obtain ⟨r, h1, h2⟩ := hR.onto i hi
    by_cases h3 : f ≤ r ∧ r < l
    · obtain ⟨r', h4, h5, h6⟩ := hL.qonto r h3.1 h3.2
      exact ⟨r', by omega, by rw [h6, h2]⟩
    · exact ⟨r, h1, by rw [hL.qout r (by omega), h2]⟩
  refine ⟨cell', ?_, onto', ?_, ?_, ?_, ?_⟩
  · intro r r' h1 h2 h3
    by_cases h4 : f ≤ r ∧ r < l
    · by_cases h5 : f ≤ r' ∧ r' < l
      · exact hL.qinj r r' h4.1 h4.2 h5.1 h5.2 h3
      · obtain ⟨x, h6, h7, h8⟩ := hL.qin r h4.1 h4.2
        rw [hL.qout r' (by omega), h8] at h3
        have := hR.inj _ _ (by omega) h2 h3
        omega
    · by_cases h5 : f ≤ r' ∧ r' < l
      · obtain ⟨x, h6, h7, h8⟩ := hL.qin r' h5.1 h5.2
        rw [hL.qout r (by omega), h8] at h3
        have := hR.inj _ _ h1 (by omega) h3
        omega
      · rw [hL.qout r (by omega), hL.qout r' (by omega)] at h3
        exact hR.inj _ _ h1 h2 h3
  · intro r hr
    by_cases h1 : f ≤ r ∧ r < l
    · have := hL.up r h1.1 h1.2; omega
    · rw [(out r hr (by omega)).1]; exact hR.up r hr
  · intro r r' hr h1 h2
    by_cases h3 : f ≤ r ∧ r < l
    · exact hL.blk r r' h3.1 h3.2 h1 h2
    · have h4 := out r hr (by omega)
      rw [h4.1] at h2 ⊢
      have h5 := hR.up r hr
      have h6 := out r' (by omega) (by omega)
      rw [h6.1]
      exact hR.blk r r' hr h1 h2
  · intro i j hi hj hij
    obtain ⟨r, h1, h2⟩ := onto' i hi
    obtain ⟨r', h3, h4⟩ := onto' j hj
    subst h2 h4
    by_cases h5 : f ≤ r ∧ r < l
    · by_cases h6 : f ≤ r' ∧ r' < l
      · exact hL.cons r r' h5.1 h5.2 h6.1 h6.2 hij
      · have h7 := out r' h3 (by omega)
        have h8 := hL.up r h5.1 h5.2
        rw [h7.1] at hij
        obtain ⟨x, h9, h10, h11⟩ := hL.qin r h5.1 h5.2
        have h12 := hg.val x h9 h10
        rw [h11, hL.qout r' (by omega)]
        exact hR.cons _ _ (hR.cell x (by omega)) (hR.cell r' h3) (by omega)
    · by_cases h6 : f ≤ r' ∧ r' < l
      · have h7 := out r h1 (by omega)
        have h8 := hL.up r' h6.1 h6.2
        rw [h7.1] at hij
        obtain ⟨x, h9, h10, h11⟩ := hL.qin r' h6.1 h6.2
        have h12 := hg.val x h9 h10
        rw [h11, hL.qout r (by omega)]
        exact hR.cons _ _ (hR.cell r h1) (hR.cell x (by omega)) (by omega)
      · rw [(out r h1 (by omega)).1, (out r' h3 (by omega)).1] at hij
        rw [hL.qout r (by omega), hL.qout r' (by omega)]
        exact hR.cons _ _ (hR.cell r h1) (hR.cell r' h3) hij
  · intro i j hi hj hij
    obtain ⟨r, h1, h2⟩ := onto' i hi
    obtain ⟨r', h3, h4⟩ := onto' j hj
    subst h2 h4
    by_cases h5 : f ≤ r ∧ r < l
    · have h8 := hL.up r h5.1 h5.2
      by_cases h6 : f ≤ r' ∧ r' < l
      · obtain ⟨x, h9, h10, h11⟩ := hL.qin r h5.1 h5.2
        obtain ⟨y, k9, k10, k11⟩ := hL.qin r' h6.1 h6.2
        rw [h11, k11]
        refine hR.eqh _ _ (hR.cell x (by omega)) (hR.cell y (by omega)) ?_
        have := hg.val x h9 h10
        have := hg.val y k9 k10
        omega
      · have h7 := out r' h3 (by omega)
        rw [h7.1] at hij
        omega
    · have h7 := out r h1 (by omega)
      rw [h7.1] at hij
      by_cases h6 : f ≤ r' ∧ r' < l
      · have h8 := hL.up r' h6.1 h6.2
        omega
      · rw [(out r' h3 (by omega)).1] at hij
        rw [hL.qout r (by omega), hL.qout r' (by omega)]
        exact hR.eqh _ _ (hR.cell r h1) (hR.cell r' h3) hij

/-! ## States -/

/-- The array, the budget and the stack, and the ranks and the cells. -/
structure Sta where
  I : Nat → Nat
  q : Nat → Nat
  sa : List Int
  bud : Budget
  st : List Frame

/-- The ranks are in `ISA`. -/
structure Core (T : List Nat) (isa h : Nat) (s : Sta) : Prop where
  apart : T.length ≤ isa
  room : isa + T.length ≤ s.sa.length
  rk : Rk T h s.I s.q
  ranks : ∀ i, i < T.length → cel s.sa (isa + i) = (s.I i : Int)

/-- Only the cells in `S` and the ranks of their suffixes have been changed. -/
structure Chg (T : List Nat) (isa : Nat) (S : Nat → Prop) (s s' : Sta) : Prop where
  sub : ∀ r, S r → r < T.length
  len : s'.sa.length = s.sa.length
  out : ∀ r, ¬ S r → r < isa ∨ isa + T.length ≤ r → cel s'.sa r = cel s.sa r
  qout : ∀ r, ¬ S r → s'.q r = s.q r
  qin : ∀ r, S r → ∃ r', S r' ∧ s'.q r = s.q r'
  iout : ∀ r, r < T.length → ¬ S r → s'.I (s.q r) = s.I (s.q r)
  iin : ∀ r, S r → S (s'.I (s'.q r))

variable {isa h : Nat}

theorem Chg.refl (S : Nat → Prop) (s : Sta) (hS : ∀ r, ¬ S r) : Chg T isa S s s :=
  ⟨fun r h => absurd h (hS r), rfl, fun _ _ _ => rfl, fun _ _ => rfl, fun r h => absurd h (hS r), fun _ _ _ => rfl, fun r h => absurd h (hS r)⟩

theorem Chg.trans {S1 S2 : Nat → Prop} {s s1 s2 : Sta} (h1 : Chg T isa S1 s s1) (h2 : Chg T isa S2 s1 s2) :
    Chg T isa (fun r => S1 r ∨ S2 r) s s2 := by
  refine ⟨fun r hr => hr.elim (h1.sub r) (h2.sub r), by rw [h2.len, h1.len], ?_, ?_, ?_, ?_, ?_⟩
  · intro r hr1 hr2
    rw [h2.out r (fun h => hr1 (Or.inr h)) hr2, h1.out r (fun h => hr1 (Or.inl h)) hr2]
  · intro r hr
    rw [h2.qout r (fun h => hr (Or.inr h)), h1.qout r (fun h => hr (Or.inl h))]
  · intro r hr
    by_cases k2 : S2 r
    · obtain ⟨r', k3, k4⟩ := h2.qin r k2
      by_cases k1 : S1 r'
      · obtain ⟨r'', k5, k6⟩ := h1.qin r' k1
        exact ⟨r'', Or.inl k5, by rw [k4, k6]⟩
      · exact ⟨r', Or.inr k3, by rw [k4, h1.qout r' k1]⟩
    · have k1 : S1 r := hr.resolve_right k2
      obtain ⟨r'', k5, k6⟩ := h1.qin r k1
      exact ⟨r'', Or.inl k5, by rw [h2.qout r k2, k6]⟩
  · intro r hr1 hr2
    have k1 : ¬ S1 r := fun h => hr2 (Or.inl h)
    have k2 : ¬ S2 r := fun h => hr2 (Or.inr h)
    rw [← h1.iout r hr1 k1, ← h1.qout r k1]
    exact h2.iout r hr1 k2
  · intro r hr
    by_cases k2 : S2 r
    · exact Or.inr (h2.iin r k2)
    · have k1 : S1 r := hr.resolve_right k2
      rw [h2.qout r k2, h2.iout r (h1.sub r k1) k2]
      exact Or.inl (h1.iin r k1)

theorem Chg.congr {S S' : Nat → Prop} {s s' : Sta} (h : Chg T isa S s s') (hS : ∀ r, S r ↔ S' r) : Chg T isa S' s s' := by
  have : S = S' := funext fun r => propext (hS r)
  rw [← this]; exact h

/-- More cells may be allowed to change, if the groups of the others lie within. -/
theorem Chg.widen {S S' : Nat → Prop} {s s' : Sta} (h : Chg T isa S s s') (hS : ∀ r, S r → S' r) (hn : ∀ r, S' r → r < T.length)
    (hI : ∀ r, S' r → ¬ S r → S' (s.I (s.q r))) : Chg T isa S' s s' := by
  refine ⟨hn, h.len, fun r hr => h.out r (fun h1 => hr (hS r h1)), fun r hr => h.qout r (fun h1 => hr (hS r h1)), ?_,
    fun r h1 h2 => h.iout r h1 (fun h3 => h2 (hS r h3)), ?_⟩
  · intro r hr
    by_cases h1 : S r
    · obtain ⟨r', h2, h3⟩ := h.qin r h1
      exact ⟨r', hS _ h2, h3⟩
    · exact ⟨r, hr, h.qout r h1⟩
  · intro r hr
    by_cases h1 : S r
    · exact hS _ (h.iin r h1)
    · rw [h.qout r h1, h.iout r (hn r hr) h1]
      exact hI r hr h1

/-- A change of some cells leaves the groups in others as they are. -/
theorem IsGrp.chg {S : Nat → Prop} {s s' : Sta} {f l : Nat} (hg : IsGrp T s.I s.q f l) (hc : Chg T isa S s s') (hR : Rk T h s'.I s'.q)
    (hS : ∀ r, S r → r < f ∨ l ≤ r) : IsGrp T s'.I s'.q f l := by
  have hlt := hg.lt
  have hle := hg.le
  have hval : ∀ r, f ≤ r → r < l → s'.I (s'.q r) + 1 = l := by
    intro r h1 h2
    have h3 : ¬ S r := fun h => by have := hS r h; omega
    rw [hc.qout r h3, hc.iout r (by omega) h3]
    exact hg.val r h1 h2
  refine ⟨hlt, hle, hval, ?_⟩
  intro r hr
  by_cases h1 : S r
  · rcases Nat.lt_or_ge (s'.I (s'.q r)) f with h2 | h2
    · exact h2
    · have h3 := hR.blk r f (by omega) (by omega) h2
      have h4 := hval f (Nat.le_refl _) hlt
      have h5 := hS _ (hc.iin r h1)
      omega
  · rw [hc.qout r h1, hc.iout r (by omega) h1]
    exact hg.low r hr

/-! ## The stack -/

/-- `trlink` names an entry of the stack, or it is -1. -/
def TlOk (tl : Int) (st : List Frame) : Prop := tl < 0 ∨ tl.toNat < st.length

theorem mark_some {tl : Int} {st : List Frame} (ht : TlOk tl st) : ∃ st', mark st tl = some st' ∧ st'.length = st.length ∧ mark st' tl = some st' := by
  unfold mark
  by_cases h0 : 0 ≤ tl
  · have h1 : tl.toNat < st.length := by unfold TlOk at ht; omega
    rw [if_pos h0, if_pos h1, List.getElem?_eq_getElem (by omega)]
    refine ⟨_, rfl, by rw [List.length_set], ?_⟩
    rw [if_pos h0, if_pos (by rw [List.length_set]; exact h1), List.length_set, List.getElem?_set_self (by omega)]
    show some _ = some _
    rw [List.set_set]
  · rw [if_neg h0]
    exact ⟨st, rfl, rfl, by rw [if_neg h0]⟩

theorem mark_append {tl : Int} {gs st st' : List Frame} (ht : TlOk tl st) (h : mark (gs ++ st) tl = some st') : ∃ st1, st' = gs ++ st1 ∧ mark st tl = some st1 := by
  unfold mark at h ⊢
  by_cases h0 : 0 ≤ tl
  · have h1 : tl.toNat < st.length := by unfold TlOk at ht; omega
    rw [if_pos h0, if_pos (by rw [List.length_append]; omega)] at h
    rw [if_pos h0, if_pos h1]
    have hx : (gs ++ st).length - 1 - tl.toNat = gs.length + (st.length - 1 - tl.toNat) := by rw [List.length_append]; omega
    rw [hx, List.getElem?_append_right (by omega), Nat.add_sub_cancel_left, List.getElem?_eq_getElem (by omega)] at h
    rw [List.getElem?_eq_getElem (by omega)]
    have h2 := Option.some.inj h
    rw [List.set_append_right _ _ (by omega), Nat.add_sub_cancel_left] at h2
    exact ⟨_, h2.symm, rfl⟩
  · rw [if_neg h0] at h ⊢
    exact ⟨st, (Option.some.inj h).symm, rfl⟩

/-- Either everything has been done, or the entry `trlink` is marked and the budget has counted what is missing. -/
def Out (tl : Int) (D : Prop) (s s' : Sta) : Prop :=
  (s'.st = s.st ∧ s'.bud.count = s.bud.count ∧ D) ∨ (mark s.st tl = some s'.st ∧ s.bud.count < s'.bud.count)

theorem Out.trans {tl : Int} {D1 D2 : Prop} {s s1 s2 : Sta} (ht : TlOk tl s.st) (h1 : Out tl D1 s s1) (h2 : Out tl D2 s1 s2) : Out tl (D1 ∧ D2) s s2 := by
  rcases h1 with ⟨a1, a2, a3⟩ | ⟨a1, a2⟩
  · rcases h2 with ⟨b1, b2, b3⟩ | ⟨b1, b2⟩
    · exact Or.inl ⟨by rw [b1, a1], by omega, a3, b3⟩
    · exact Or.inr ⟨by rw [← a1]; exact b1, by omega⟩
  · rcases h2 with ⟨b1, b2, b3⟩ | ⟨b1, b2⟩
    · exact Or.inr ⟨by rw [b1]; exact a1, by omega⟩
    · obtain ⟨x, e1, e2, e3⟩ := mark_some ht
      rw [e1] at a1
      have := Option.some.inj a1
      rw [← this, e3] at b1
      exact Or.inr ⟨by rw [e1]; exact b1, by omega⟩

theorem Out.imp {tl : Int} {D D' : Prop} {s s' : Sta} (h : Out tl D s s') (hD : D → D') : Out tl D' s s' :=
  Or.imp (fun h => ⟨h.1, h.2.1, hD h.2.2⟩) id h

/-- What has been done for the cells in `S`: they hold the suffixes, and the groups that are left agree up to `2 * h`. -/
structure Post (T : List Nat) (isa h : Nat) (S : Nat → Prop) (tl : Int) (s s' : Sta) : Prop where
  core : Core T isa h s'
  chg : Chg T isa S s s'
  cells : ∀ r, S r → cel s'.sa r = (s'.q r : Int)
  deep : ∀ r r', S r → S r' → s'.I (s'.q r) = s'.I (s'.q r') → Agree T (2 * h) (s'.q r) (s'.q r')
  out : Out tl (∀ r, S r → s'.I (s'.q r) = r) s s'

theorem Post.trans {S1 S2 : Nat → Prop} {tl : Int} {s s1 s2 : Sta} (ht : TlOk tl s.st) (hd : ∀ r, S1 r → ¬ S2 r) (h1 : Post T isa h S1 tl s s1)
    (h2 : Post T isa h S2 tl s1 s2) : Post T isa h (fun r => S1 r ∨ S2 r) tl s s2 := by
  have hq : ∀ r, S1 r → s2.q r = s1.q r := fun r hr => h2.chg.qout r (hd r hr)
  have hI : ∀ r, S1 r → s2.I (s2.q r) = s1.I (s1.q r) := fun r hr => by
    rw [hq r hr]; exact h2.chg.iout r (h1.chg.sub r hr) (hd r hr)
  have hap := h2.core.apart
  refine ⟨h2.core, h1.chg.trans h2.chg, ?_, ?_, ?_⟩
  · intro r hr
    rcases hr with hr | hr
    · rw [hq r hr, ← h1.cells r hr]
      exact h2.chg.out r (hd r hr) (Or.inl (by have := h1.chg.sub r hr; omega))
    · exact h2.cells r hr
  · intro r r' hr hr' he
    rcases hr with hr | hr
    · rcases hr' with hr' | hr'
      · rw [hI r hr, hI r' hr'] at he
        rw [hq r hr, hq r' hr']
        exact h1.deep r r' hr hr' he
      · rw [hI r hr] at he
        have k1 := h1.chg.iin r hr
        have k2 := h2.chg.iin r' hr'
        rw [← he] at k2
        exact absurd k2 (hd _ k1)
    · rcases hr' with hr' | hr'
      · rw [hI r' hr'] at he
        have k1 := h1.chg.iin r' hr'
        have k2 := h2.chg.iin r hr
        rw [he] at k2
        exact absurd k2 (hd _ k1)
      · exact h2.deep r r' hr hr' he
  · refine (h1.out.trans ht h2.out).imp ?_
    intro ⟨d1, d2⟩ r hr
    rcases hr with hr | hr
    · rw [hI r hr]; exact d1 r hr
    · exact d2 r hr

/-! ## Frames -/

/-- A group that has to be sorted; its members agree up to `d`. -/
structure Raw (T : List Nat) (d f l : Nat) (s : Sta) : Prop where
  two : f + 2 ≤ l
  grp : IsGrp T s.I s.q f l
  cells : ∀ r, f ≤ r → r < l → cel s.sa r = (s.q r : Int)
  agree : ∀ r r', f ≤ r → r < l → f ≤ r' → r' < l → Agree T d (s.q r) (s.q r')

/-- A group whose members have been sorted by their keys, marked are those with the same key as the next one. -/
structure Srt (T : List Nat) (h d f l : Nat) (s : Sta) : Prop where
  two : f + 2 ≤ l
  grp : IsGrp T s.I s.q f l
  cells : ∀ r, f ≤ r → r < l → dec (cel s.sa r) = s.q r
  agree : ∀ r r', f ≤ r → r < l → f ≤ r' → r' < l → Agree T d (s.q r) (s.q r')
  keys : ∃ K : Nat → Int, Mrk K f l s.sa ∧ (∀ r r', f ≤ r → r < l → f ≤ r' → r' < l → K (s.q r) < K (s.q r') → sless T (s.q r) (s.q r')) ∧
    (∀ r r', f ≤ r → r < l → f ≤ r' → r' < l → K (s.q r) = K (s.q r') → Agree T (d + h) (s.q r) (s.q r'))

theorem Raw.chg {S : Nat → Prop} {s s' : Sta} {d f l : Nat} (hr : Raw T d f l s) (hc : Chg T isa S s s') (hC : Core T isa h s')
    (hS : ∀ r, S r → r < f ∨ l ≤ r) : Raw T d f l s' := by
  have hle := hr.grp.le
  have hap := hC.apart
  have hno : ∀ r, f ≤ r → r < l → ¬ S r := fun r h1 h2 h3 => by have := hS r h3; omega
  have hq : ∀ r, f ≤ r → r < l → s'.q r = s.q r := fun r h1 h2 => hc.qout r (hno r h1 h2)
  refine ⟨hr.two, hr.grp.chg hc hC.rk hS, fun r h1 h2 => ?_, fun r r' h1 h2 h3 h4 => ?_⟩
  · rw [hc.out r (hno r h1 h2) (by omega), hq r h1 h2]; exact hr.cells r h1 h2
  · rw [hq r h1 h2, hq r' h3 h4]; exact hr.agree r r' h1 h2 h3 h4

theorem Srt.chg {S : Nat → Prop} {s s' : Sta} {d f l : Nat} (hr : Srt T h d f l s) (hc : Chg T isa S s s') (hC : Core T isa h s')
    (hS : ∀ r, S r → r < f ∨ l ≤ r) : Srt T h d f l s' := by
  have hle := hr.grp.le
  have hap := hC.apart
  have hno : ∀ r, f ≤ r → r < l → ¬ S r := fun r h1 h2 h3 => by have := hS r h3; omega
  have hq : ∀ r, f ≤ r → r < l → s'.q r = s.q r := fun r h1 h2 => hc.qout r (hno r h1 h2)
  have hcel : ∀ r, f ≤ r → r < l → cel s'.sa r = cel s.sa r := fun r h1 h2 => hc.out r (hno r h1 h2) (by omega)
  obtain ⟨K, ⟨k1, k2⟩, k3, k4⟩ := hr.keys
  refine ⟨hr.two, hr.grp.chg hc hC.rk hS, fun r h1 h2 => ?_, fun r r' h1 h2 h3 h4 => ?_, K, ⟨fun r h1 h2 => ?_, fun r h1 h2 => ?_⟩,
    fun r r' h1 h2 h3 h4 h5 => ?_, fun r r' h1 h2 h3 h4 h5 => ?_⟩
  · rw [hcel r h1 h2, hq r h1 h2]; exact hr.cells r h1 h2
  · rw [hq r h1 h2, hq r' h3 h4]; exact hr.agree r r' h1 h2 h3 h4
  · rw [hcel r h1 (by omega), hcel (r + 1) (by omega) h2]; exact k1 r h1 h2
  · rw [hcel r h1 (by omega)]; exact k2 r h1 h2
  · rw [hq r h1 h2, hq r' h3 h4] at h5 ⊢; exact k3 r r' h1 h2 h3 h4 h5
  · rw [hq r h1 h2, hq r' h3 h4] at h5 ⊢; exact k4 r r' h1 h2 h3 h4 h5

/-- How far a group is from being sorted. -/
def mu (n d f l kind : Nat) : Nat := ((n - d) * (n + 1) + (l - f)) * 3 + kind

theorem mu_deep {n d d' f l f' l' k k' : Nat} (h1 : d < d') (h2 : d < n) (h3 : l' ≤ n) (h4 : k' ≤ 2) : mu n d' f' l' k' < mu n d f l k + 0 := by
  unfold mu
  have : (n - d') * (n + 1) + (n + 1) ≤ (n - d) * (n + 1) := by
    rw [← Nat.succ_mul]
    exact Nat.mul_le_mul_right _ (by omega)
  omega

theorem mu_part {n d f l f' l' k k' : Nat} (h1 : l' - f' < l - f) (h4 : k' ≤ 2) : mu n d f' l' k' < mu n d f l k := by
  unfold mu; omega

/-! ## Room on the stack -/

/-- The rank of the suffix `x` is that of a group between `lo` and `l`. -/
def InR (s : Sta) (lo l x : Nat) : Prop := lo ≤ s.I x ∧ s.I x < l

theorem InR.chg {S : Nat → Prop} {s s' : Sta} {lo l x : Nat} (hR : Rk T h s.I s.q) (hR' : Rk T h s'.I s'.q) (hc : Chg T isa S s s') (hx : x < T.length) (hl : l ≤ T.length)
    (e1 : ∀ r, r < lo → s.I (s.q r) < lo) (e2 : ∀ r, r < l → s.I (s.q r) < l) (e3 : ∀ r, r < lo → s'.I (s'.q r) < lo) (e4 : ∀ r, r < l → s'.I (s'.q r) < l)
    (hS : (∀ r, S r → lo ≤ r ∧ r < l) ∨ (∀ r, S r → l ≤ r) ∨ (∀ r, S r → r < lo)) : InR s lo l x ↔ InR s' lo l x := by
  obtain ⟨w, w1, w2⟩ := hR.onto x hx
  obtain ⟨w', w3, w4⟩ := hR'.onto x hx
  have k1 := (hR.up w w1).1
  have k2 := (hR'.up w' w3).1
  have k3 : lo ≤ w ∨ s.I (s.q w) < lo := by
    rcases Nat.lt_or_ge w lo with k | k
    · exact Or.inr (e1 w k)
    · exact Or.inl k
  have k4 : l ≤ w ∨ s.I (s.q w) < l := by
    rcases Nat.lt_or_ge w l with k | k
    · exact Or.inr (e2 w k)
    · exact Or.inl k
  have k5 : lo ≤ w' ∨ s'.I (s'.q w') < lo := by
    rcases Nat.lt_or_ge w' lo with k | k
    · exact Or.inr (e3 w' k)
    · exact Or.inl k
  have k6 : l ≤ w' ∨ s'.I (s'.q w') < l := by
    rcases Nat.lt_or_ge w' l with k | k
    · exact Or.inr (e4 w' k)
    · exact Or.inl k
  have k7 : w = w' ∨ (S w ∧ S w') := by
    by_cases hs : S w'
    · obtain ⟨z, z1, z2⟩ := hc.qin w' hs
      rw [w4, ← w2] at z2
      have := hR.inj w z w1 (hc.sub z z1) z2
      rw [this]; exact Or.inr ⟨z1, hs⟩
    · have := hc.qout w' hs
      rw [w4, ← w2] at this
      exact Or.inl (hR.inj w w' w1 w3 this)
  unfold InR
  rw [w2] at k1 k3 k4
  rw [w4] at k2 k5 k6
  rcases k7 with k7 | ⟨k7, k8⟩
  · omega
  · rcases hS with hS | hS | hS
    · have := hS w k7
      have := hS w' k8
      omega
    · have := hS w k7
      have := hS w' k8
      omega
    · have := hS w k7
      have := hS w' k8
      omega

/-- The cells from `f` to `l` are what is left of a group that began at `lo` and has been sorted by keys: marked neighbours have both their keys in the group, or none. -/
structure Band (T : List Nat) (lo d f l : Nat) (s : Sta) : Prop where
  below : lo ≤ f
  edge : ∀ r, r < lo → s.I (s.q r) < lo
  run : ∀ r, f ≤ r → r + 1 < l → cel s.sa r < 0 → s.q r + d < T.length → s.q (r + 1) + d < T.length → (InR s lo l (s.q r + d) ↔ InR s lo l (s.q (r + 1) + d))

theorem IsGrp.top {I q : Nat → Nat} {f l : Nat} (hg : IsGrp T I q f l) : ∀ r, r < l → I (q r) < l := by
  intro r hr
  have := hg.lt
  rcases Nat.lt_or_ge r f with h | h
  · have := hg.low r h; omega
  · have := hg.val r h hr; omega

theorem Band.chg {S : Nat → Prop} {s s' : Sta} {lo d f l : Nat} (hb : Band T lo d f l s) (hg : IsGrp T s.I s.q f l) (hc : Chg T isa S s s') (hC : Core T isa h s) (hC' : Core T isa h s')
    (hS : (∀ r, S r → lo ≤ r ∧ r < f) ∨ (∀ r, S r → l ≤ r)) : Band T lo d f l s' := by
  have hle := hg.le
  have hlt := hg.lt
  have hbl := hb.below
  have hap := hC'.apart
  have hno : ∀ r, r < lo ∨ (f ≤ r ∧ r < l) → ¬ S r := by
    intro r k1 k2
    rcases hS with hS | hS
    · have := hS r k2; omega
    · have := hS r k2; omega
  have hq : ∀ r, f ≤ r → r < l → s'.q r = s.q r := fun r h1 h2 => hc.qout r (hno r (by omega))
  have hedge : ∀ r, r < lo → s'.I (s'.q r) < lo := by
    intro r hr
    rw [hc.qout r (hno r (by omega)), hc.iout r (by omega) (hno r (by omega))]
    exact hb.edge r hr
  have hg' : IsGrp T s'.I s'.q f l := hg.chg hc hC'.rk (fun r hr => by
    rcases hS with hS | hS
    · have := hS r hr; omega
    · have := hS r hr; omega)
  have hin : ∀ x, x < T.length → (InR s lo l x ↔ InR s' lo l x) := fun x hx => InR.chg hC.rk hC'.rk hc hx hle hb.edge hg.top hedge hg'.top (by
    rcases hS with hS | hS
    · exact Or.inl (fun r hr => by have := hS r hr; omega)
    · exact Or.inr (Or.inl hS))
  refine ⟨hbl, hedge, ?_⟩
  intro r k1 k2 k3 k4 k5
  rw [hc.out r (hno r (by omega)) (by omega)] at k3
  rw [hq r k1 (by omega)] at k4 ⊢
  rw [hq (r + 1) (by omega) k2] at k5 ⊢
  rw [← hin _ k4, ← hin _ k5]
  exact hb.run r k1 k2 k3 k4 k5

/-- The number of members of the group that ends at `l` whose keys are smaller. -/
noncomputable def repLo (T : List Nat) (s : Sta) (D f l : Nat) : Nat := cnt T.length (fun i => s.I i + 1 = l ∧ i + D < T.length ∧ s.I (i + D) < f)

/-- The number of members of the group that ends at `l` whose keys are larger. -/
noncomputable def repHi (T : List Nat) (s : Sta) (D l : Nat) : Nat := cnt T.length (fun i => s.I i + 1 = l ∧ i + D < T.length ∧ l ≤ s.I (i + D))

/-- The members of a group are those with its rank. -/
theorem IsGrp.mem {I q : Nat → Nat} {f l i : Nat} (hR : Rk T h I q) (hg : IsGrp T I q f l) (hi : i < T.length) (h1 : I i + 1 = l) : ∃ r, f ≤ r ∧ r < l ∧ q r = i := by
  obtain ⟨r, r1, r2⟩ := hR.onto i hi
  have := hR.up r r1
  rw [r2] at this
  refine ⟨r, ?_, by omega, r2⟩
  rcases Nat.lt_or_ge r f with k | k
  · have := hg.low r k
    have := hg.lt
    rw [r2] at *; omega
  · exact k

theorem rep_chg {S : Nat → Prop} {s s' : Sta} {D f l : Nat} (hg : IsGrp T s.I s.q f l) (hc : Chg T isa S s s') (hC : Core T isa h s) (hC' : Core T isa h s')
    (hS : (∀ r, S r → r < f) ∨ (∀ r, S r → l ≤ r)) : repLo T s' D f l ≤ repLo T s D f l ∧ repHi T s' D l ≤ repHi T s D l := by
  have hle := hg.le
  have hlt := hg.lt
  have hS' : ∀ r, S r → r < f ∨ l ≤ r := by
    intro r hr
    rcases hS with hS | hS
    · exact Or.inl (hS r hr)
    · exact Or.inr (hS r hr)
  have hg' : IsGrp T s'.I s'.q f l := hg.chg hc hC'.rk hS'
  have hmem : ∀ i, i < T.length → s'.I i + 1 = l → s.I i + 1 = l := by
    intro i hi h1
    obtain ⟨r, r1, r2, r3⟩ := hg'.mem hC'.rk hi h1
    have hno : ¬ S r := fun h => by have := hS' r h; omega
    have k1 := hc.qout r hno
    have k2 := hc.iout r (by omega) hno
    rw [r3] at k1
    rw [← k1] at k2
    omega
  have hlo : ∀ x, x < T.length → (InR s 0 f x ↔ InR s' 0 f x) := fun x hx => InR.chg hC.rk hC'.rk hc hx (by omega) (fun r hr => by omega) hg.low (fun r hr => by omega) hg'.low (by
    rcases hS with hS | hS
    · exact Or.inl (fun r hr => ⟨by omega, hS r hr⟩)
    · exact Or.inr (Or.inl (fun r hr => by have := hS r hr; omega)))
  have hhi : ∀ x, x < T.length → (InR s 0 l x ↔ InR s' 0 l x) := fun x hx => InR.chg hC.rk hC'.rk hc hx hle (fun r hr => by omega) hg.top (fun r hr => by omega) hg'.top (by
    rcases hS with hS | hS
    · exact Or.inl (fun r hr => ⟨by omega, by have := hS r hr; omega⟩)
    · exact Or.inr (Or.inl hS))
  unfold InR at hlo hhi
  constructor
  · exact cnt_le (fun i hi ⟨k1, k2, k3⟩ => ⟨hmem i hi k1, k2, by have := hlo _ k2; omega⟩)
  · exact cnt_le (fun i hi ⟨k1, k2, k3⟩ => ⟨hmem i hi k1, k2, by have := hhi _ k2; omega⟩)

/-- What kind of work a frame stands for; there are `room` entries left on the stack. -/
inductive Valid (T : List Nat) (isa h : Nat) (s : Sta) (μ lo room : Nat) (g : Frame) : Prop
  | raw (d : Nat) : g.isad = isa + d → h ≤ d → 0 ≤ g.limit → Raw T d g.first g.last s → mu T.length d g.first g.last 1 ≤ μ → Fits (g.last - g.first) room →
    Valid T isa h s μ lo room g
  | rep (d : Nat) : g.isad = isa + d → h < d → g.limit = -1 → Raw T d g.first g.last s → mu T.length d g.first g.last 2 ≤ μ →
    FitRep (g.last - g.first) (repLo T s (d - h) g.first g.last) (repHi T s (d - h) g.last) room → Valid T isa h s μ lo room g
  | srt (d : Nat) : g.isad = isa + d → h ≤ d → g.limit = -3 → Srt T h d g.first g.last s → mu T.length d g.first g.last 0 ≤ μ → Band T lo d g.first g.last s →
    FitSrt lo g.first g.last room → Valid T isa h s μ lo room g

theorem Valid.chg {S : Nat → Prop} {s s' : Sta} {μ lo room : Nat} {g : Frame} (hv : Valid T isa h s μ lo room g) (hc : Chg T isa S s s') (hC : Core T isa h s) (hC' : Core T isa h s')
    (hS : (∀ r, S r → lo ≤ r ∧ r < g.first) ∨ (∀ r, S r → g.last ≤ r)) : Valid T isa h s' μ lo room g := by
  have hS' : ∀ r, S r → r < g.first ∨ g.last ≤ r := by
    intro r hr
    rcases hS with hS | hS
    · exact Or.inl (hS r hr).2
    · exact Or.inr (hS r hr)
  cases hv with
  | raw d a1 a2 a3 a4 a5 a6 => exact .raw d a1 a2 a3 (a4.chg hc hC' hS') a5 a6
  | rep d a1 a2 a3 a4 a5 a6 =>
    have := rep_chg (D := d - h) a4.grp hc hC hC' (hS.imp (fun hS r hr => (hS r hr).2) id)
    exact .rep d a1 a2 a3 (a4.chg hc hC' hS') a5 (a6.mono this.1 this.2)
  | srt d a1 a2 a3 a4 a5 a6 a7 => exact .srt d a1 a2 a3 (a4.chg hc hC' hS') a5 (a6.chg a4.grp hc hC hC' hS) a7

/-- What `tr_introsort` does with the stack. -/
def after (cap isa h : Nat) (s : Sta) : Option (List Int × Budget) :=
  match s.st with
  | [] => some (s.sa, s.bud)
  | g :: st => loop cap isa h s.sa s.bud st g

/-- Every frame below the measure `μ` is done, whatever is on the stack. -/
def Runs' (T : List Nat) (cap isa h μ : Nat) : Prop := ∀ (s : Sta) (g : Frame) (lo room : Nat), Core T isa h s → Valid T isa h s μ lo room g → TlOk g.trlink s.st →
  s.st.length + room ≤ cap →
  ∃ s', after cap isa h { s with st := g :: s.st } = after cap isa h s' ∧ Post T isa h (fun r => g.first ≤ r ∧ r < g.last) g.trlink s s'

/-- The frames do not overlap. -/
def Apart (f g : Frame) : Prop := f.last ≤ g.first ∨ g.last ≤ f.first

/-- The frames are valid; each has the later ones below it on the stack. -/
def Ready (T : List Nat) (isa h : Nat) (s : Sta) (μ lo room : Nat) (tl : Int) : List Frame → Prop
  | [] => True
  | g :: gs => gs.length ≤ room ∧ Valid T isa h s μ lo (room - gs.length) g ∧ lo ≤ g.first ∧ g.trlink = tl ∧ Ready T isa h s μ lo room tl gs

theorem Ready.chg {S : Nat → Prop} {s s' : Sta} {μ lo room : Nat} {tl : Int} (hc : Chg T isa S s s') (hC : Core T isa h s) (hC' : Core T isa h s') :
    ∀ gs : List Frame, Ready T isa h s μ lo room tl gs → (∀ g ∈ gs, (∀ r, S r → lo ≤ r ∧ r < g.first) ∨ (∀ r, S r → g.last ≤ r)) → Ready T isa h s' μ lo room tl gs := by
  intro gs
  induction gs with
  | nil => intro _ _; trivial
  | cons g gs ih =>
    intro ⟨k1, k2, k3, k4, k5⟩ hS
    exact ⟨k1, k2.chg hc hC hC' (hS g (by simp)), k3, k4, ih k5 (fun g' hg' => hS g' (List.mem_cons_of_mem _ hg'))⟩

theorem runs_list {cap μ : Nat} (hrun : Runs' T cap isa h μ) {tl : Int} {lo room : Nat} : ∀ (gs : List Frame) (s : Sta), Core T isa h s → TlOk tl s.st →
    s.st.length + room ≤ cap → Ready T isa h s μ lo room tl gs → gs.Pairwise Apart →
    ∃ s', after cap isa h { s with st := gs ++ s.st } = after cap isa h s' ∧ Post T isa h (fun r => ∃ g ∈ gs, g.first ≤ r ∧ r < g.last) tl s s' := by
  intro gs
  induction gs with
  | nil =>
    intro s hC ht hcap hv hp
    refine ⟨s, rfl, hC, Chg.refl _ s (by simp), by simp, by simp, Or.inl ⟨rfl, rfl, by simp⟩⟩
  | cons g gs ih =>
    intro s hC ht hcap hv hp
    obtain ⟨v1, v2, v3, v4, v5⟩ := hv
    have htl : TlOk tl (gs ++ s.st) := by unfold TlOk at ht ⊢; rw [List.length_append]; omega
    let s0 : Sta := { s with st := gs ++ s.st }
    have hC0 : Core T isa h s0 := ⟨hC.apart, hC.room, hC.rk, hC.ranks⟩
    have hc0 : Chg T isa (fun _ => False) s s0 := ⟨fun _ h => h.elim, rfl, fun _ _ _ => rfl, fun _ _ => rfl, fun _ h => h.elim, fun _ _ _ => rfl, fun _ h => h.elim⟩
    obtain ⟨s1, e1, p1⟩ := hrun s0 g lo _ hC0 (v2.chg hc0 hC hC0 (Or.inl (fun _ h => h.elim))) (by rw [v4]; exact htl)
      (by show (gs ++ s.st).length + _ ≤ _; rw [List.length_append]; omega)
    rw [v4] at p1
    -- what is left of the stack
    obtain ⟨st1, e2, o1⟩ : ∃ st1, s1.st = gs ++ st1 ∧ Out tl (∀ r, g.first ≤ r ∧ r < g.last → s1.I (s1.q r) = r) s { s1 with st := st1 } := by
      rcases p1.out with ⟨a1, a2, a3⟩ | ⟨a1, a2⟩
      · exact ⟨s.st, a1, Or.inl ⟨rfl, a2, a3⟩⟩
      · obtain ⟨st1, b1, b2⟩ := mark_append ht a1
        exact ⟨st1, b1, Or.inr ⟨b2, a2⟩⟩
    have hlen : st1.length = s.st.length := by
      rcases o1 with ⟨a1, _⟩ | ⟨a1, _⟩
      · have : st1 = s.st := a1
        rw [this]
      · obtain ⟨x, b1, b2, _⟩ := mark_some ht
        rw [b1] at a1
        have : x = st1 := Option.some.inj a1
        rw [← this, b2]
    have p1' : Post T isa h (fun r => g.first ≤ r ∧ r < g.last) tl s { s1 with st := st1 } :=
      ⟨⟨p1.core.apart, p1.core.room, p1.core.rk, p1.core.ranks⟩,
       ⟨p1.chg.sub, p1.chg.len, p1.chg.out, p1.chg.qout, p1.chg.qin, p1.chg.iout, p1.chg.iin⟩, p1.cells, p1.deep, o1⟩
    have ht1 : TlOk tl st1 := by unfold TlOk at ht ⊢; rw [hlen]; exact ht
    have hpair := List.pairwise_cons.1 hp
    obtain ⟨s2, e3, p2⟩ := ih { s1 with st := st1 } p1'.core ht1 (by show st1.length + _ ≤ _; omega)
      (v5.chg p1'.chg hC p1'.core gs (fun g' hg' => by
        have := hpair.1 g' hg'
        unfold Apart at this
        rcases this with k | k
        · exact Or.inl (fun r hr => by omega)
        · exact Or.inr (fun r hr => by omega))) hpair.2
    refine ⟨s2, ?_, ?_⟩
    · rw [← e3]
      refine Eq.trans e1 ?_
      show after cap isa h s1 = after cap isa h { s1 with st := gs ++ st1 }
      rw [← e2]
    · have p3 := p1'.trans ht (fun r hr ⟨g', hg', k⟩ => by
        have := hpair.1 g' hg'
        unfold Apart at this
        omega) p2
      have hS : (fun r => ∃ g' ∈ g :: gs, g'.first ≤ r ∧ r < g'.last) =
          (fun r => (g.first ≤ r ∧ r < g.last) ∨ ∃ g' ∈ gs, g'.first ≤ r ∧ r < g'.last) := by
        funext r
        simp
      rw [hS]
      exact p3

end Bwtc.Tr
