import Verif.TrRep
import Verif.DivsufSpec

/-!
# `trsort`
-/

set_option autoImplicit false

namespace Bwtc.Tr
open Sais (put inv put_spec bind_some')
open Ss (cel get_cel cel_of pop cel_set_self cel_set_ne)
open Suffix
open Induce (cnt cnt_lt cnt_le cnt_or cnt_le_n)
open Divsuf (getI putI dec Ranks Single TrCall TrOk inj_surj)

variable {T : List Nat} {cap isa h : Nat}

/-! ## `tr_introsort` -/

theorem introsort_spec (hT : Alone T) (hn : T.length < 2 ^ 32) (hh : 0 < h) {s : Sta} (bud : Budget) {f l : Nat} (hC : Core T isa h s) (hr : Raw T h f l s)
    (hcap : Fits (l - f) cap) :
    ∃ s', introsort cap isa h s.sa bud f l = some (s'.sa, s'.bud) ∧ Core T isa h s' ∧ Chg T isa (fun r => f ≤ r ∧ r < l) s s' ∧
      (∀ r, f ≤ r → r < l → cel s'.sa r = (s'.q r : Int)) ∧
      (∀ r r', f ≤ r → r < l → f ≤ r' → r' < l → s'.I (s'.q r) = s'.I (s'.q r') → Agree T (2 * h) (s'.q r) (s'.q r')) ∧
      ((s'.bud.count = bud.count ∧ ∀ r, f ≤ r → r < l → s'.I (s'.q r) = r) ∨ bud.count < s'.bud.count) := by
  have h2 := hr.two
  have hle := hr.grp.le
  obtain ⟨x, ex, -, hx⟩ := ilg_spec (l - f)
  have hc0 : Chg T isa (fun _ => False) s { s with bud := bud, st := [] } := ⟨fun _ h => h.elim, rfl, fun _ _ _ => rfl, fun _ _ => rfl, fun _ h => h.elim, fun _ _ _ => rfl, fun _ h => h.elim⟩
  have hC0 : Core T isa h { s with bud := bud, st := [] } := ⟨hC.apart, hC.room, hC.rk, hC.ranks⟩
  obtain ⟨s', e, p⟩ := runs_all (cap := cap) (isa := isa) hT hn hh (mu T.length h f l 1) { s with bud := bud, st := [] } ⟨isa + h, f, l, x, -1⟩ f cap hC0
    (.raw h rfl (Nat.le_refl _) (hx (by omega) (by omega)) (hr.chg hc0 hC0 (fun _ h => h.elim)) (Nat.le_refl _) hcap) (Or.inl (by show (-1 : Int) < 0; omega))
    (by show 0 + _ ≤ _; omega)
  have hst : s'.st = [] ∧ ((s'.bud.count = bud.count ∧ ∀ r, f ≤ r → r < l → s'.I (s'.q r) = r) ∨ bud.count < s'.bud.count) := by
    rcases p.out with ⟨a1, a2, a3⟩ | ⟨a1, a2⟩
    · exact ⟨a1, Or.inl ⟨a2, fun r k1 k2 => a3 r ⟨k1, k2⟩⟩⟩
    · refine ⟨?_, Or.inr a2⟩
      have : mark [] (-1) = some s'.st := a1
      unfold mark at this
      rw [if_neg (by omega)] at this
      exact (Option.some.inj this).symm
  refine ⟨s', ?_, p.core, ⟨p.chg.sub, p.chg.len, p.chg.out, p.chg.qout, p.chg.qin, p.chg.iout, p.chg.iin⟩, fun r k1 k2 => p.cells r ⟨k1, k2⟩,
    fun r r' k1 k2 k3 k4 => p.deep r r' ⟨k1, k2⟩ ⟨k3, k4⟩, hst.2⟩
  unfold introsort
  rw [bind_some' ex]
  refine Eq.trans e ?_
  unfold after
  rw [hst.1]

/-! ## Groups and runs of sorted cells -/

/-- The cells from `x` to `y`: runs of sorted cells, the first of which holds the negated length, and groups. -/
inductive Seg (I q : Nat → Nat) (sa : List Int) : Nat → Nat → Prop
  | nil (x : Nat) : Seg I q sa x x
  | skip {x y : Nat} (len : Nat) : 0 < len → cel sa x = -(len : Int) → (∀ r, x ≤ r → r < x + len → I (q r) = r) → Seg I q sa (x + len) y → Seg I q sa x y
  | grp {x y : Nat} : x ≤ I (q x) → (∀ r, x ≤ r → r ≤ I (q x) → cel sa r = (q r : Int)) → Seg I q sa (I (q x) + 1) y → Seg I q sa x y

theorem Seg.le {I q : Nat → Nat} {sa : List Int} {x y : Nat} (h : Seg I q sa x y) : x ≤ y := by
  induction h with
  | nil x => exact Nat.le_refl _
  | skip len h1 h2 h3 h4 ih => omega
  | grp h1 h2 h3 ih => omega

theorem Seg.trans {I q : Nat → Nat} {sa : List Int} {x y z : Nat} (h : Seg I q sa x y) (h' : Seg I q sa y z) : Seg I q sa x z := by
  induction h with
  | nil x => exact h'
  | skip len h1 h2 h3 h4 ih => exact .skip len h1 h2 h3 (ih h')
  | grp h1 h2 h3 ih => exact .grp h1 h2 (ih h')

theorem Seg.congr {I q I' q' : Nat → Nat} {sa sa' : List Int} {x y : Nat} (h : Seg I q sa x y)
    (hh : ∀ r, x ≤ r → r < y → q' r = q r ∧ I' (q' r) = I (q r) ∧ cel sa' r = cel sa r) : Seg I' q' sa' x y := by
  induction h with
  | nil x => exact .nil x
  | skip len h1 h2 h3 h4 ih =>
    have := h4.le
    refine .skip len h1 ?_ ?_ (ih (fun r k1 k2 => hh r (by omega) k2))
    · rw [(hh _ (Nat.le_refl _) (by omega)).2.2]; exact h2
    · intro r k1 k2
      rw [(hh r k1 (by omega)).2.1]; exact h3 r k1 k2
  | grp h1 h2 h3 ih =>
    have := h3.le
    have k := hh _ (Nat.le_refl _) (by omega)
    refine .grp (by rw [k.2.1]; exact h1) ?_ (by rw [k.2.1]; exact ih (fun r k1 k2 => hh r (by omega) k2))
    intro r k1 k2
    rw [k.2.1] at k2
    have k' := hh r k1 (by omega)
    rw [k'.2.2, k'.1]; exact h2 r k1 k2

theorem seg_cells {I q : Nat → Nat} {sa : List Int} {y : Nat} : ∀ (k x : Nat), y - x ≤ k → x ≤ y → (∀ r, x ≤ r → r < y → cel sa r = (q r : Int) ∧ r ≤ I (q r) ∧ I (q r) < y) → Seg I q sa x y := by
  intro k
  induction k with
  | zero =>
    intro x h1 h2 h3
    have : x = y := by omega
    rw [this]; exact .nil y
  | succ k ih =>
    intro x h1 h2 h3
    by_cases hx : x = y
    · rw [hx]; exact .nil y
    · have h4 := h3 x (Nat.le_refl _) (by omega)
      exact .grp h4.2.1 (fun r k1 k2 => (h3 r k1 (by omega)).1) (ih _ (by omega) (by omega) (fun r k1 k2 => h3 r (by omega) k2))

/-! ## A pass over the array -/

/-- The cells up to `first` have been done; those from `first + skip` to `first` are sorted, which has not been noted in the array yet. -/
structure PInv (T : List Nat) (isa h : Nat) (sa0 : List Int) (s : Sta) (first : Nat) (skip unsorted : Int) : Prop where
  core : Core T isa h s
  len : s.sa.length = sa0.length
  same : ∀ r, (T.length ≤ r ∧ r < isa) ∨ isa + T.length ≤ r → cel s.sa r = cel sa0 r
  lo : -(first : Int) ≤ skip
  hi : skip ≤ 0
  pre : Seg s.I s.q s.sa 0 ((first : Int) + skip).toNat
  pend : ∀ r : Nat, (first : Int) + skip ≤ (r : Int) → r < first → s.I (s.q r) = r
  rest : Seg s.I s.q s.sa first T.length
  bd : ∀ r, r < first → s.I (s.q r) < first
  deep : ∀ r r', r < first → r' < first → s.I (s.q r) = s.I (s.q r') → Agree T (2 * h) (s.q r) (s.q r')
  uns : 0 ≤ unsorted
  done : unsorted = 0 → ∀ r, r < first → s.I (s.q r) = r
  more : unsorted ≠ 0 → h < T.length

variable {sa0 : List Int}

theorem PInv.flush {s : Sta} {first : Nat} {skip u : Int} (hP : PInv T isa h sa0 s first skip u) :
    ∃ sa', flush s.sa first skip = some sa' ∧ PInv T isa h sa0 { s with sa := sa' } first 0 u ∧ (∀ r, first ≤ r → cel sa' r = cel s.sa r) := by
  have h1 := hP.lo
  have h2 := hP.hi
  have h3 := hP.rest.le
  have hap := hP.core.apart
  have hroom := hP.core.room
  unfold Tr.flush
  by_cases hs : skip ≠ 0
  · rw [if_pos hs]
    unfold putI
    rw [if_pos (by omega), put_spec (by omega)]
    have hcel : ∀ r, r ≠ ((first : Int) + skip).toNat → cel (s.sa.set ((first : Int) + skip).toNat skip) r = cel s.sa r := fun r hr => cel_set_ne _ hr
    refine ⟨_, rfl, ⟨⟨hap, ?_, hP.core.rk, ?_⟩, ?_, ?_, by omega, by omega, ?_, ?_, ?_, hP.bd, hP.deep, hP.uns, hP.done, hP.more⟩, ?_⟩
    · show _ ≤ (s.sa.set _ _).length
      rw [List.length_set]; exact hroom
    · intro i hi
      show cel (s.sa.set _ _) _ = _
      rw [hcel _ (by omega)]; exact hP.core.ranks i hi
    · show (s.sa.set _ _).length = _
      rw [List.length_set]; exact hP.len
    · intro r hr
      show cel (s.sa.set _ _) _ = _
      rw [hcel _ (by omega)]; exact hP.same r hr
    · show Seg s.I s.q (s.sa.set _ _) 0 _
      rw [show ((first : Int) + 0).toNat = first by omega]
      refine (hP.pre.congr (fun r k1 k2 => ⟨rfl, rfl, hcel r (by omega)⟩)).trans ?_
      refine .skip (-skip).toNat (by omega) ?_ ?_ ?_
      · rw [cel_set_self (by omega)]; omega
      · intro r k1 k2
        exact hP.pend r (by omega) (by omega)
      · rw [show ((first : Int) + skip).toNat + (-skip).toNat = first by omega]; exact .nil _
    · intro r k1 k2
      omega
    · exact hP.rest.congr (fun r k1 k2 => ⟨rfl, rfl, hcel r (by omega)⟩)
    · intro r hr
      exact hcel r (by omega)
  · rw [if_neg hs]
    have : skip = 0 := by omega
    subst this
    exact ⟨s.sa, rfl, hP, fun _ _ => rfl⟩

theorem PInv.group (hT : Alone T) (hn : T.length < 2 ^ 32) (hh : 0 < h) (hcap : Fits T.length cap) {s : Sta} {first last : Nat} {u : Int} (hP : PInv T isa h sa0 s first 0 u)
    (hl : last = s.I (s.q first) + 1) (hfl : first < last) (hln : last ≤ T.length) (hcel : ∀ r, first ≤ r → r < last → cel s.sa r = (s.q r : Int))
    (hrest : Seg s.I s.q s.sa last T.length) :
    ∃ s' skip' u', group cap isa h ⟨s.sa, s.bud, 0, u⟩ first last = some ⟨s'.sa, s'.bud, skip', u'⟩ ∧ PInv T isa h sa0 s' last skip' u' := by
  have hap := hP.core.apart
  have hR := hP.core.rk
  have hval : ∀ r, first ≤ r → r < last → s.I (s.q r) + 1 = last := by
    intro r k1 k2
    have := hR.blk first r (by omega) k1 (by omega)
    omega
  have hpre : Seg s.I s.q s.sa 0 first := by
    have := hP.pre
    rwa [show ((first : Int) + 0).toNat = first by omega] at this
  unfold Tr.group
  by_cases hbig : 1 < last - first
  · rw [if_pos hbig]
    have hraw : Raw T h first last s := by
      refine ⟨by omega, ⟨hfl, hln, hval, hP.bd⟩, hcel, ?_⟩
      intro r r' k1 k2 k3 k4
      refine hR.eqh _ _ (hR.cell r (by omega)) (hR.cell r' (by omega)) ?_
      have := hval r k1 k2
      have := hval r' k3 k4
      omega
    have hdn := hraw.deep hT hP.core
    obtain ⟨s', e, c1, c2, c3, c4, c5⟩ := introsort_spec hT hn hh { s.bud with count := 0 } hP.core hraw (cap := cap) (hcap.mono (by omega) (Nat.le_refl _))
    have hout : ∀ r, r < T.length → ¬ (first ≤ r ∧ r < last) → s'.q r = s.q r ∧ s'.I (s'.q r) = s.I (s.q r) ∧ cel s'.sa r = cel s.sa r := by
      intro r k1 k2
      refine ⟨c2.qout r k2, ?_, c2.out r k2 (by omega)⟩
      rw [c2.qout r k2]; exact c2.iout r k1 k2
    have hlen : s'.sa.length = sa0.length := by rw [c2.len]; exact hP.len
    have hsame : ∀ r, (T.length ≤ r ∧ r < isa) ∨ isa + T.length ≤ r → cel s'.sa r = cel sa0 r := by
      intro r hr
      rw [c2.out r (by omega) (by omega)]; exact hP.same r hr
    have hpre' : Seg s'.I s'.q s'.sa 0 first := hpre.congr (fun r k1 k2 => hout r (by omega) (by omega))
    have hrest' : Seg s'.I s'.q s'.sa last T.length := hrest.congr (fun r k1 k2 => hout r k2 (by omega))
    have hbd' : ∀ r, r < last → s'.I (s'.q r) < last ∧ (r < first → s'.I (s'.q r) < first) ∧ (first ≤ r → first ≤ s'.I (s'.q r)) := by
      intro r k1
      by_cases k2 : first ≤ r
      · have := c2.iin r ⟨k2, k1⟩
        omega
      · rw [(hout r (by omega) (by omega)).2.1]
        have := hP.bd r (by omega)
        omega
    have hdeep' : ∀ r r', r < last → r' < last → s'.I (s'.q r) = s'.I (s'.q r') → Agree T (2 * h) (s'.q r) (s'.q r') := by
      intro r r' k1 k2 k3
      have b1 := hbd' r k1
      have b2 := hbd' r' k2
      rcases Nat.lt_or_ge r first with k4 | k4
      · have k5 : r' < first := by omega
        rw [(hout r (by omega) (by omega)).2.1, (hout r' (by omega) (by omega)).2.1] at k3
        rw [(hout r (by omega) (by omega)).1, (hout r' (by omega) (by omega)).1]
        exact hP.deep r r' k4 k5 k3
      · exact c4 r r' k4 k1 (by omega) k2 k3
    have hu := hP.uns
    rw [bind_some' e]
    simp only
    rcases c5 with ⟨d1, d2⟩ | d1
    · have d1' : s'.bud.count = 0 := d1
      rw [if_neg (by omega)]
      refine ⟨s', (first : Int) - last, u, rfl, c1, hlen, hsame, by omega, by omega, ?_, ?_, hrest', fun r k => (hbd' r k).1, hdeep', hu, ?_, fun _ => hdn⟩
      · rw [show ((last : Int) + ((first : Int) - last)).toNat = first by omega]; exact hpre'
      · intro r k1 k2
        exact d2 r (by omega) k2
      · intro k r k1
        rcases Nat.lt_or_ge r first with k2 | k2
        · rw [(hout r (by omega) (by omega)).2.1]; exact hP.done k r k2
        · exact d2 r k2 k1
    · have d1' : 0 < s'.bud.count := d1
      rw [if_pos (by omega)]
      refine ⟨s', 0, u + s'.bud.count, rfl, c1, hlen, hsame, by omega, by omega, ?_, ?_, hrest', fun r k => (hbd' r k).1, hdeep', by omega, fun k => by omega, fun _ => hdn⟩
      · rw [show ((last : Int) + 0).toNat = last by omega]
        refine hpre'.trans (seg_cells _ _ (Nat.le_refl _) (by omega) (fun r k1 k2 => ⟨c3 r k1 k2, (c1.rk.up r (by omega)).1, (hbd' r k2).1⟩))
      · intro r k1 k2; omega
  · rw [if_neg hbig, if_pos (by omega)]
    have hl1 : last = first + 1 := by omega
    have hI : s.I (s.q first) = first := by omega
    have hone : ∀ r, r < last → r < first ∨ (r = first ∧ s.I (s.q r) = r) := by
      intro r k
      by_cases k1 : r = first
      · exact Or.inr ⟨k1, by rw [k1]; exact hI⟩
      · exact Or.inl (by omega)
    refine ⟨s, -1, u, rfl, hP.core, hP.len, hP.same, by omega, by omega, ?_, ?_, hrest, ?_, ?_, hP.uns, ?_, hP.more⟩
    · rw [show ((last : Int) + -1).toNat = first by omega]; exact hpre
    · intro r k1 k2
      rcases hone r k2 with k3 | k3
      · omega
      · exact k3.2
    · intro r k
      rcases hone r k with k3 | k3
      · have := hP.bd r k3; omega
      · omega
    · intro r r' k1 k2 k3
      rcases hone r k1 with k4 | k4
      · have b1 := hP.bd r k4
        rcases hone r' k2 with k5 | k5
        · exact hP.deep r r' k4 k5 k3
        · omega
      · rcases hone r' k2 with k5 | k5
        · have b1 := hP.bd r' k5; omega
        · rw [k4.1, k5.1]; exact Agree.refl _ _
    · intro k r k1
      rcases hone r k1 with k2 | k2
      · exact hP.done k r k2
      · exact k2.2

theorem passStep_spec (hT : Alone T) (hn : T.length < 2 ^ 32) (hh : 0 < h) (hcap : Fits T.length cap) {s : Sta} {first : Nat} {skip u : Int} (hP : PInv T isa h sa0 s first skip u)
    (hf : first < T.length) :
    ∃ s' first' skip' u', passStep cap isa h ⟨s.sa, s.bud, skip, u⟩ first = some (⟨s'.sa, s'.bud, skip', u'⟩, first') ∧ first < first' ∧ first' ≤ T.length ∧
      PInv T isa h sa0 s' first' skip' u' := by
  have hap := hP.core.apart
  have hroom := hP.core.room
  have hrest := hP.rest
  unfold passStep
  rw [bind_some' (get_cel (by show first < s.sa.length; omega))]
  show ∃ s' first' skip' u', (if cel s.sa first < 0 then _ else _) = _ ∧ _
  cases hrest with
  | nil => omega
  | skip len h1 h2 h3 h4 =>
    rw [if_pos (by omega)]
    have h5 := h4.le
    have hsn : ∀ r, r < first + len → r < first ∨ (first ≤ r ∧ s.I (s.q r) = r) := by
      intro r k
      rcases Nat.lt_or_ge r first with k1 | k1
      · exact Or.inl k1
      · exact Or.inr ⟨k1, h3 r k1 k⟩
    have h6 := hP.lo
    have h7 := hP.hi
    refine ⟨s, first + len, skip - len, u, ?_, by omega, h5, hP.core, hP.len, hP.same, by omega, by omega, ?_, ?_, h4, ?_, ?_, hP.uns, ?_, hP.more⟩
    · show some (_, _) = some (_, _)
      rw [h2]
      congr 2
      omega
    · rw [show (((first + len : Nat) : Int) + (skip - len)).toNat = ((first : Int) + skip).toNat by omega]; exact hP.pre
    · intro r k1 k2
      rcases hsn r k2 with k3 | k3
      · exact hP.pend r (by omega) k3
      · exact k3.2
    · intro r k
      rcases hsn r k with k3 | k3
      · have := hP.bd r k3; omega
      · omega
    · intro r r' k1 k2 k3
      rcases hsn r k1 with k4 | k4
      · have b1 := hP.bd r k4
        rcases hsn r' k2 with k5 | k5
        · exact hP.deep r r' k4 k5 k3
        · omega
      · rcases hsn r' k2 with k5 | k5
        · have b1 := hP.bd r' k5; omega
        · have : r = r' := by omega
          rw [this]; exact Agree.refl _ _
    · intro k r k1
      rcases hsn r k1 with k2 | k2
      · exact hP.done k r k2
      · exact k2.2
  | grp h1 h2 h3 =>
    have h5 := h3.le
    have h6 := h2 first (Nat.le_refl _) h1
    rw [if_neg (by omega)]
    obtain ⟨sa', e1, hP', hsame⟩ := hP.flush
    have hlen : sa'.length = s.sa.length := by
      have := hP'.len
      have h' := hP.len
      simp only at this
      omega
    have hq := hP.core.rk.cell first hf
    have e2 : getI sa' ((isa : Int) + cel s.sa first) = some (s.I (s.q first) : Int) := by
      unfold getI
      rw [h6, if_pos (by omega), show ((isa : Int) + (s.q first : Int)).toNat = isa + s.q first by omega, get_cel (by omega)]
      exact congrArg _ (hP'.core.ranks _ hq)
    rw [bind_some' e1, bind_some' e2, if_neg (by omega), show ((s.I (s.q first) : Int) + 1).toNat = s.I (s.q first) + 1 by omega]
    obtain ⟨s', skip', u', e3, hP''⟩ := hP'.group hT hn hh hcap (last := s.I (s.q first) + 1) rfl (by omega) h5
      (fun r k1 k2 => by
        show cel sa' r = _
        rw [hsame r k1]; exact h2 r k1 (by omega))
      (h3.congr (fun r k1 k2 => ⟨rfl, rfl, hsame r (by omega)⟩))
    refine ⟨s', s.I (s.q first) + 1, skip', u', ?_, by omega, h5, hP''⟩
    rw [bind_some' e3]
    rfl

theorem pass_spec (hT : Alone T) (hn : T.length < 2 ^ 32) (hh : 0 < h) (hcap : Fits T.length cap) : ∀ (k : Nat) (s : Sta) (first : Nat) (skip u : Int), T.length - first ≤ k → first < T.length →
    PInv T isa h sa0 s first skip u →
    ∃ s' skip' u', pass cap isa h T.length ⟨s.sa, s.bud, skip, u⟩ first = some (⟨s'.sa, s'.bud, skip', u'⟩, T.length) ∧ PInv T isa h sa0 s' T.length skip' u' := by
  intro k
  induction k with
  | zero => intro s first skip u h1 h2; omega
  | succ k ih =>
    intro s first skip u h1 h2 hP
    obtain ⟨s1, first', skip1, u1, e, h3, h4, hP1⟩ := passStep_spec hT hn hh hcap hP h2
    rw [pass, bind_some' e]
    simp only
    by_cases h5 : first' < T.length
    · rw [if_pos h5]
      exact ih s1 first' skip1 u1 (by omega) h5 hP1
    · rw [if_neg h5]
      have : first' = T.length := by omega
      subst this
      exact ⟨s1, skip1, u1, rfl, hP1⟩

/-! ## All passes -/

theorem incr_id {n : Nat} {f : Nat → Nat} (h1 : ∀ r, r < n → f r < n) (h2 : ∀ r r', r < r' → r' < n → f r < f r') : ∀ r, r < n → f r = r := by
  have up : ∀ r, r < n → r ≤ f r := by
    intro r
    induction r with
    | zero => intro _; omega
    | succ r ih =>
      intro h
      have := ih (by omega)
      have := h2 r (r + 1) (by omega) h
      omega
  have dn : ∀ k r, r + k + 1 = n → f r ≤ r := by
    intro k
    induction k with
    | zero =>
      intro r h
      have := h1 r (by omega)
      omega
    | succ k ih =>
      intro r h
      have := ih (r + 1) (by omega)
      have := h2 r (r + 1) (by omega) (by omega)
      omega
  intro r hr
  have a := up r hr
  have b := dn (n - r - 1) r (by omega)
  omega

theorem sorted_rows {s : Sta} (hC : Core T isa h s) (hd : ∀ r, r < T.length → s.I (s.q r) = r) : ∀ i, i < T.length → s.I i = row T i := by
  have hR := hC.rk
  have key := incr_id (n := T.length) (f := fun r => row T (s.q r)) (fun r hr => row_lt (hR.cell r hr)) (fun r r' k1 k2 =>
    row_mono (hR.cell r (by omega)) (hR.cons _ _ (hR.cell r (by omega)) (hR.cell r' k2) (by rw [hd r (by omega), hd r' k2]; exact k1)))
  intro i hi
  obtain ⟨r, r1, r2⟩ := hR.onto i hi
  have k1 : row T (s.q r) = r := key r r1
  rw [← r2, hd r r1, k1]

/-- What is wanted: `ISA` holds the ranks of the suffixes, and the rest of the array is as before. -/
def Sorted (T : List Nat) (isa : Nat) (sa0 : List Int) (o : Option (List Int)) : Prop :=
  ∃ sa', o = some sa' ∧ sa'.length = sa0.length ∧ (∀ r, (T.length ≤ r ∧ r < isa) ∨ isa + T.length ≤ r → cel sa' r = cel sa0 r) ∧
    ∀ i, i < T.length → cel sa' (isa + i) = (row T i : Int)

theorem passes_aux (hT : Alone T) (hn : T.length < 2 ^ 32) (h0 : 0 < T.length) (hcap : Fits T.length cap) {s : Sta} (hh : 0 < h) (hC : Core T isa h s)
    (hseg : Seg s.I s.q s.sa 0 T.length) (hlen : s.sa.length = sa0.length) (hsame : ∀ r, (T.length ≤ r ∧ r < isa) ∨ isa + T.length ≤ r → cel s.sa r = cel sa0 r)
    (next : ∀ s' : Sta, h < T.length → Core T isa (2 * h) s' → Seg s'.I s'.q s'.sa 0 T.length → s'.sa.length = sa0.length →
      (∀ r, (T.length ≤ r ∧ r < isa) ∨ isa + T.length ≤ r → cel s'.sa r = cel sa0 r) → Sorted T isa sa0 (passes cap isa T.length s'.sa s'.bud (2 * h))) :
    Sorted T isa sa0 (passes cap isa T.length s.sa s.bud h) := by
  have hap := hC.apart
  have hroom := hC.room
  unfold Sorted at next ⊢
  rw [passes, bind_some' (get_cel (by omega))]
  by_cases h1 : -(T.length : Int) < cel s.sa 0
  · rw [if_pos h1]
    obtain ⟨s1, skip, u, e, hP⟩ := pass_spec (sa0 := sa0) hT hn hh hcap _ s 0 0 0 (Nat.le_refl _) h0
      ⟨hC, hlen, hsame, by omega, by omega, .nil 0, fun r _ k => by omega, hseg, fun r k => by omega, fun r r' k => by omega, by omega, fun _ r k => by omega, fun k => absurd rfl k⟩
    obtain ⟨sa', e2, hP', -⟩ := hP.flush
    rw [bind_some' e]
    simp only
    rw [bind_some' e2]
    by_cases h2 : u = 0
    · rw [if_pos h2]
      refine ⟨sa', rfl, hP'.len, hP'.same, ?_⟩
      intro i hi
      have k1 := hP'.core.ranks i hi
      rw [sorted_rows hP'.core (hP'.done h2) i hi] at k1
      exact k1
    · rw [if_neg h2]
      have hp := hP'.pre
      rw [show ((T.length : Int) + 0).toNat = T.length by omega] at hp
      refine next ⟨s1.I, s1.q, sa', s1.bud, s1.st⟩ (hP'.more h2) ⟨hap, hP'.core.room, ?_, hP'.core.ranks⟩ hp hP'.len hP'.same
      have hR := hP'.core.rk
      refine ⟨hR.cell, hR.inj, hR.onto, hR.up, hR.blk, hR.cons, ?_⟩
      intro i j hi hj hij
      obtain ⟨r, r1, r2⟩ := hR.onto i hi
      obtain ⟨r', r3, r4⟩ := hR.onto j hj
      rw [← r2, ← r4] at hij ⊢
      exact hP'.deep r r' r1 r3 hij
  · rw [if_neg h1]
    refine ⟨s.sa, rfl, hlen, hsame, ?_⟩
    have hd : ∀ r, r < T.length → s.I (s.q r) = r := by
      generalize hx : 0 = x at hseg
      generalize hy : T.length = y at hseg
      cases hseg with
      | nil => omega
      | skip len k1 k2 k3 k4 =>
        intro r hr
        subst hx
        exact k3 r (by omega) (by omega)
      | grp k1 k2 k3 =>
        subst hx
        have := k2 0 (by omega) k1
        omega
    intro i hi
    have k1 := hC.ranks i hi
    rw [sorted_rows hC hd i hi] at k1
    exact k1

theorem passes_spec (hT : Alone T) (hn : T.length < 2 ^ 32) (h0 : 0 < T.length) (hcap : Fits T.length cap) : ∀ (k h : Nat) (s : Sta), T.length - h ≤ k → 0 < h → Core T isa h s →
    Seg s.I s.q s.sa 0 T.length → s.sa.length = sa0.length → (∀ r, (T.length ≤ r ∧ r < isa) ∨ isa + T.length ≤ r → cel s.sa r = cel sa0 r) →
    Sorted T isa sa0 (passes cap isa T.length s.sa s.bud h) := by
  intro k
  induction k with
  | zero =>
    intro h s hk hh hC hseg hlen hsame
    exact passes_aux hT hn h0 hcap hh hC hseg hlen hsame (fun s' h1 => by omega)
  | succ k ih =>
    intro h s hk hh hC hseg hlen hsame
    exact passes_aux hT hn h0 hcap hh hC hseg hlen hsame (fun s' h1 => ih (2 * h) s' (by omega) (by omega))

/-! ## The ranks `trsort` is called with -/

theorem first_state (rs : List Nat) (sa : List Int) (base : Nat) (bud : Budget) (h0 : 0 < rs.length) (hc : TrCall rs sa base) :
    ∃ s : Sta, s.sa = sa ∧ s.bud = bud ∧ Core rs base 1 s ∧ Seg s.I s.q s.sa 0 rs.length := by
  obtain ⟨hrank, hlast⟩ := hc.ranks
  have hroom : base + rs.length ≤ sa.length := by
    have h1 := hc.isa (rs.length - 1) (by omega)
    have := (List.getElem?_eq_some_iff.1 h1).1
    omega
  have lo : ∀ i j, i < rs.length → j < rs.length → ch rs i < ch rs j → ch rs i + 1 ≤ cnt rs.length (fun k => ch rs k < ch rs j) := by
    intro i j hi hj h
    rw [hrank i hi]
    exact cnt_le (fun q _ k => by omega)
  have lo1 : ∀ i, i < rs.length → (∀ j, j < rs.length → ch rs j = ch rs i → j = i) → ch rs i ≤ cnt rs.length (fun k => ch rs k < ch rs i) := by
    intro i hi h
    have k1 := hrank i hi
    have k2 := Induce.cnt_insert (n := rs.length) (P := fun k => ch rs k < ch rs i) (Q := fun k => ch rs k ≤ ch rs i) hi (by omega)
      (fun q hq => ⟨fun k => by
        rcases Nat.lt_or_ge (ch rs q) (ch rs i) with k3 | k3
        · exact Or.inl k3
        · exact Or.inr (h q hq (by omega)), fun k => by
        rcases k with k | k
        · omega
        · rw [k]; exact Nat.le_refl _⟩)
    omega
  have hi0 : ∀ i, i < rs.length → cnt rs.length (fun k => ch rs k < ch rs i) ≤ ch rs i := by
    intro i hi
    have k1 := hrank i hi
    have := cnt_lt (n := rs.length) (P := fun k => ch rs k < ch rs i) (Q := fun k => ch rs k ≤ ch rs i) hi (by omega) (Nat.le_refl _) (fun q _ k => by omega)
    omega
  -- the suffix of a cell
  have hex : ∀ r, r < rs.length → ∃ i, i < rs.length ∧ (Single rs r → ch rs i = r) ∧ (¬ Single rs r → sa[r]? = some (i : Int)) ∧
      cnt rs.length (fun j => ch rs j < ch rs i) ≤ r ∧ r ≤ ch rs i := by
    intro r hr
    by_cases hs : Single rs r
    · obtain ⟨i, i1, i2, i3⟩ := hs
      have := hi0 i i1
      exact ⟨i, i1, fun _ => i2, fun h => absurd ⟨i, i1, i2, i3⟩ h, by omega, by omega⟩
    · obtain ⟨i, i1, i2, i3, i4⟩ := hc.group r hr hs
      exact ⟨i, i1, fun h => absurd h hs, fun _ => i2, i3, i4⟩
  obtain ⟨q, hq⟩ : ∃ q : Nat → Nat, ∀ r, r < rs.length → q r < rs.length ∧ (Single rs r → ch rs (q r) = r) ∧ (¬ Single rs r → sa[r]? = some (q r : Int)) ∧
      cnt rs.length (fun j => ch rs j < ch rs (q r)) ≤ r ∧ r ≤ ch rs (q r) := by
    refine ⟨fun r => open Classical in if h : r < rs.length then (hex r h).choose else 0, fun r hr => ?_⟩
    dsimp only
    rw [dif_pos hr]
    exact (hex r hr).choose_spec
  have hsing : ∀ r r', r < rs.length → r' < rs.length → Single rs r → q r = q r' → r = r' := by
    intro r r' h1 h2 hs h3
    have k1 := hq r h1
    have k2 := hq r' h2
    obtain ⟨i, i1, i2, i3⟩ := hs
    have e1 := i3 (q r) k1.1 (k1.2.1 ⟨i, i1, i2, i3⟩)
    have := lo1 i i1 (fun j j1 j2 => i3 j j1 (by omega))
    rw [← h3, e1] at k2
    omega
  have hinj : ∀ r r', r < rs.length → r' < rs.length → q r = q r' → r = r' := by
    intro r r' h1 h2 h3
    by_cases hs : Single rs r
    · exact hsing r r' h1 h2 hs h3
    · by_cases hs' : Single rs r'
      · exact (hsing r' r h2 h1 hs' h3.symm).symm
      · exact hc.distinct r r' h1 h2 hs hs' (by rw [(hq r h1).2.2.1 hs, (hq r' h2).2.2.1 hs', h3])
  have hblk : ∀ r r', r < rs.length → r ≤ r' → r' ≤ ch rs (q r) → ch rs (q r') = ch rs (q r) := by
    intro r r' h1 h2 h3
    have k1 := hq r h1
    have k0 : ch rs (q r) < rs.length := by
      have a := hrank _ k1.1
      have b := cnt_le_n rs.length (fun j => ch rs j ≤ ch rs (q r))
      omega
    have k2 := hq r' (by omega)
    rcases Nat.lt_trichotomy (ch rs (q r')) (ch rs (q r)) with k3 | k3 | k3
    · have := lo _ _ k2.1 k1.1 k3; omega
    · exact k3
    · have := lo _ _ k1.1 k2.1 k3; omega
  have hR : Rk rs 1 (ch rs) q := by
    refine ⟨fun r hr => (hq r hr).1, hinj, fun i hi => inj_surj q (fun r hr => (hq r hr).1) hinj hi, ?_, hblk, ?_, ?_⟩
    · intro r hr
      have k1 := hq r hr
      have a := hrank _ k1.1
      have b := cnt_le_n rs.length (fun j => ch rs j ≤ ch rs (q r))
      omega
    · intro i j hi hj h
      exact (sless_step hi hj).2 (Or.inl h)
    · intro i j hi hj h k hk
      have : k = 0 := by omega
      subst this
      exact h
  refine ⟨⟨ch rs, q, sa, bud, []⟩, rfl, rfl, ⟨hc.apart, hroom, hR, fun i hi => cel_of (hc.isa i hi)⟩, ?_⟩
  show Seg (ch rs) q sa 0 rs.length
  have hseg : ∀ k x, rs.length - x ≤ k → x ≤ rs.length → (x = 0 ∨ ¬ Single rs (x - 1) ∨ x = rs.length ∨ ¬ Single rs x) → Seg (ch rs) q sa x rs.length := by
    intro k
    induction k with
    | zero =>
      intro x h1 h2 _
      have : x = rs.length := by omega
      rw [this]; exact .nil _
    | succ k ih =>
      intro x h1 h2 h3
      by_cases hx : x = rs.length
      · rw [hx]; exact .nil _
      · by_cases hs : Single rs x
        · -- a maximal run
          obtain ⟨d, d1, d2, d3, d4⟩ : ∃ d, 0 < d ∧ x + d ≤ rs.length ∧ (∀ r, x ≤ r → r < x + d → Single rs r) ∧ (x + d = rs.length ∨ ¬ Single rs (x + d)) := by
            have : ∀ j, x + j + 1 ≤ rs.length → (∀ r, x ≤ r → r < x + (j + 1) → Single rs r) ∨ ∃ d, 0 < d ∧ x + d ≤ rs.length ∧ (∀ r, x ≤ r → r < x + d → Single rs r) ∧ (x + d = rs.length ∨ ¬ Single rs (x + d)) := by
              intro j
              induction j with
              | zero =>
                intro _
                refine Or.inl (fun r k1 k2 => ?_)
                have : r = x := by omega
                rw [this]; exact hs
              | succ j ihj =>
                intro hj
                rcases ihj (by omega) with k1 | k1
                · by_cases hs' : Single rs (x + (j + 1))
                  · refine Or.inl (fun r k2 k3 => ?_)
                    by_cases k4 : r < x + (j + 1)
                    · exact k1 r k2 k4
                    · have : r = x + (j + 1) := by omega
                      rw [this]; exact hs'
                  · exact Or.inr ⟨j + 1, by omega, by omega, k1, Or.inr hs'⟩
                · exact Or.inr k1
            rcases this (rs.length - x - 1) (by omega) with k1 | k1
            · exact ⟨rs.length - x, by omega, by omega, fun r k2 k3 => k1 r k2 (by omega), Or.inl (by omega)⟩
            · exact k1
          have h4 : x = 0 ∨ ¬ Single rs (x - 1) := by
            rcases h3 with h3 | h3 | h3 | h3
            · exact Or.inl h3
            · exact Or.inr h3
            · exact absurd h3 hx
            · exact absurd hs h3
          refine .skip d d1 (cel_of (hc.run x d d1 d2 d3 h4 d4)) (fun r k1 k2 => (hq r (by omega)).2.1 (d3 r k1 k2)) (ih _ (by omega) d2 ?_)
          rcases d4 with d4 | d4
          · exact Or.inr (Or.inr (Or.inl d4))
          · exact Or.inr (Or.inr (Or.inr d4))
        · -- a group
          have k1 := hq x (by omega)
          have k2 := (hR.up x (by omega)).2
          have hns : ∀ r, x ≤ r → r ≤ ch rs (q x) → ¬ Single rs r := by
            intro r r1 r2 hsr
            have e1 := hblk x r (by omega) r1 r2
            have k3 := hq r (by omega)
            have e2 := k3.2.1 hsr
            obtain ⟨i, i1, i2, i3⟩ := hsr
            have e3 := i3 _ k3.1 e2
            have e4 := i3 _ k1.1 (by omega)
            have := hinj x r (by omega) (by omega) (by rw [e3, e4])
            rw [this] at hs
            exact hs ⟨i, i1, i2, i3⟩
          refine .grp k1.2.2.2.2 (fun r r1 r2 => cel_of ((hq r (by omega)).2.2.1 (hns r r1 r2))) (ih _ (by omega) (by omega) (Or.inr (Or.inl ?_)))
          exact hns _ (by omega) (by omega)
  exact hseg _ 0 (Nat.le_refl _) (by omega) (Or.inl rfl)

/-- `trsort` sorts the suffixes, if the third power of their number is at most `2 ^ cap`. -/
theorem trsort_ok (rs : List Nat) (sa : List Int) (base : Nat) (hcap : (rs.length + 4) ^ 3 ≤ 2 ^ (cap + 6)) (h0 : 0 < rs.length) (hn : rs.length < 2 ^ 32) (hc : TrCall rs sa base) :
    ∃ sa', trsort cap sa base rs.length 1 = some sa' ∧ sa'.length = sa.length ∧ (∀ r, (rs.length ≤ r ∧ r < base) ∨ base + rs.length ≤ r → sa'[r]? = sa[r]?) ∧
      ∀ i, i < rs.length → sa'[base + i]? = some (row rs i : Int) := by
  obtain ⟨x, ex, -, -⟩ := ilg_spec rs.length
  obtain ⟨s, e1, e2, hC, hseg⟩ := first_state rs sa base ⟨x * 2 / 3, rs.length, rs.length, 0⟩ h0 hc
  have hT : Alone rs := hc.ranks.last
  have hroom := hC.room
  rw [e1] at hroom
  obtain ⟨sa', e, h1, h2, h3⟩ := passes_spec (cap := cap) (sa0 := sa) hT hn h0 (Or.inr hcap) _ 1 s (Nat.le_refl _) (by omega) hC hseg (by rw [e1]) (fun r _ => by rw [e1])
  rw [e1, e2] at e
  refine ⟨sa', ?_, h1, ?_, ?_⟩
  · unfold trsort
    rw [bind_some' ex]
    exact e
  · intro r hr
    by_cases hl : r < sa.length
    · rw [get_cel (by omega), get_cel hl, h2 r hr]
    · rw [List.getElem?_eq_none (by omega), List.getElem?_eq_none (by omega)]
  · intro i hi
    rw [get_cel (by omega), h3 i hi]

end Bwtc.Tr
