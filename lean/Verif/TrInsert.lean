import Verif.TrHeap
import Verif.SaisBuckets

/-!
# `tr_insertionsort` sorts by the keys, and the marks after sorting by heap
-/

set_option autoImplicit false

namespace Bwtc.Tr
open Sais (put inv put_spec inv_inv bind_some' loopUp loopUp_spec)
open Divsuf (getI dec)
open Ss (cel get_cel cel_set cel_set_self cel_set_ne Perm Res dec_inv inv_neg_iff inv_nonneg_iff nat_of occ occ_split occ_first occ_shift occ_congr
  occ_one occ_self bit flip_spec ext_cel Mov)

variable {Q : Nat → Prop} {K : Nat → Int} {isad : Nat}

/-- The cells from `first` to `last` are in the order of their keys; marked are those whose key is that of the next cell. -/
structure Mrk (K : Nat → Int) (first last : Nat) (sa : List Int) : Prop where
  step : ∀ r, first ≤ r → r + 1 < last → (cel sa r < 0 ∧ K (dec (cel sa r)) = K (dec (cel sa (r + 1)))) ∨
    (0 ≤ cel sa r ∧ K (dec (cel sa r)) < K (dec (cel sa (r + 1))))
  fin : ∀ r, first ≤ r → r + 1 = last → 0 ≤ cel sa r

/-- As `Grp`, but the cells may be marked. -/
structure Mix (Q : Nat → Prop) (K : Nat → Int) (isad : Nat) (first last : Nat) (sa : List Int) : Prop where
  env : Env Q K isad sa
  below : last ≤ isad
  room : last ≤ sa.length
  good : ∀ r, first ≤ r → r < last → Q (dec (cel sa r))

theorem insShift_spec (first : Nat) : ∀ (q : Nat) (sa : List Int), first < q → q < sa.length →
    ∃ sa' q', insShift first q sa = some (sa', q') ∧ first ≤ q' ∧ q' < q ∧ sa'.length = sa.length ∧
      (∀ r, q' < r → r ≤ q → cel sa' r = cel sa (r - 1)) ∧ (∀ r, r ≤ q' ∨ q < r → cel sa' r = cel sa r) ∧
      (∀ r, q' ≤ r → r + 1 < q → cel sa r < 0) ∧ (first < q' → 0 ≤ cel sa (q' - 1)) := by
  intro q
  induction q with
  | zero => intro sa h; omega
  | succ b ih =>
    intro sa h1 h2
    rw [insShift, bind_some' (get_cel (by omega)), bind_some' (put_spec h2 _)]
    have hstop : ∀ r, b < r → r ≤ b + 1 → cel (sa.set (b + 1) (cel sa b)) r = cel sa (r - 1) := by
      intro r hr1 hr2
      have : r = b + 1 := by omega
      subst this
      rw [cel_set_self h2]; rfl
    by_cases hb : first < b
    · rw [if_pos hb, bind_some' (get_cel (by rw [List.length_set]; omega)), cel_set_ne _ (by omega)]
      by_cases hy : cel sa (b - 1) < 0
      · rw [if_pos hy]
        obtain ⟨sa', q', e, k1, k2, k3, k4, k5, k6, k7⟩ := ih (sa.set (b + 1) (cel sa b)) hb (by rw [List.length_set]; omega)
        refine ⟨sa', q', e, k1, by omega, by rw [k3, List.length_set], ?_, ?_, ?_, ?_⟩
        · intro r hr1 hr2
          by_cases hr : r = b + 1
          · rw [k5 r (by omega)]; exact hstop r (by omega) hr2
          · rw [k4 r hr1 (by omega), cel_set_ne _ (by omega)]
        · intro r hr
          rw [k5 r (by omega), cel_set_ne _ (by omega)]
        · intro r hr1 hr2
          by_cases hr : r = b - 1
          · rw [hr]; exact hy
          · have := k6 r hr1 (by omega)
            rwa [cel_set_ne _ (by omega)] at this
        · intro h
          have := k7 h
          rwa [cel_set_ne _ (by omega)] at this
      · rw [if_neg hy]
        exact ⟨_, b, rfl, by omega, by omega, by rw [List.length_set], hstop, fun r hr => cel_set_ne _ (by omega), fun r _ _ => by omega, fun _ => by omega⟩
    · rw [if_neg hb]
      exact ⟨_, b, rfl, by omega, by omega, by rw [List.length_set], hstop, fun r hr => cel_set_ne _ (by omega), fun r _ _ => by omega, fun _ => by omega⟩

/-- While `t` from cell `a` looks for its place, at `q`. -/
structure Hole (K : Nat → Int) (first a q : Nat) (sa1 sa : List Int) : Prop where
  lo : first ≤ q
  hi : q ≤ a
  len : sa.length = sa1.length
  below : ∀ r, r < q → cel sa r = cel sa1 r
  moved : ∀ r, q < r → r ≤ a → cel sa r = cel sa1 (r - 1)
  above : ∀ r, a < r → cel sa r = cel sa1 r
  big : ∀ r, q ≤ r → r < a → K (dec (cel sa1 a)) < K (dec (cel sa1 r))
  edge : first < q → 0 ≤ cel sa1 (q - 1)

theorem insLoop_spec {first last a : Nat} {sa1 : List Int} (hG : Mix Q K isad first last sa1) (hpa : 0 ≤ cel sa1 a) (ha : a < last) (hM : Mrk K first a sa1) :
    ∀ (n q : Nat) (sa : List Int), q ≤ n → first < q → Hole K first a q sa1 sa →
    ∃ sa' q' r, insLoop isad first (cel sa1 a) sa q = some (sa', q', r) ∧ Hole K first a q' sa1 sa' ∧
      (first < q' → r = K (dec (cel sa1 a)) - K (dec (cel sa1 (q' - 1))) ∧ 0 ≤ r) ∧ (q' = first → r ≠ 0) := by
  intro n
  induction n with
  | zero => intro q sa h1 h2; omega
  | succ n ih =>
    intro q sa hn hq hH
    have := hH.hi
    have hroom := hG.room
    have hbel := hG.below
    have henv : Env Q K isad sa := hG.env.frame hH.len (fun r hr => hH.above r (by omega))
    rw [insLoop, if_neg (by omega), bind_some' (henv.key hpa (hG.good a (by omega) ha)),
      bind_some' (henv.keyCell (by rw [hH.len]; omega) (by rw [hH.below _ (by omega)]; exact hH.edge hq)
        (by rw [hH.below _ (by omega)]; exact hG.good _ (by omega) (by omega))), hH.below (q - 1) (by omega)]
    by_cases hlt : K (dec (cel sa1 a)) - K (dec (cel sa1 (q - 1))) < 0
    · rw [if_pos hlt]
      obtain ⟨sa2, q2, e2, k1, k2, k3, k4, k5, k6, k7⟩ := insShift_spec first q sa hq (by rw [hH.len]; omega)
      rw [bind_some' e2]
      simp only
      have hgrp : ∀ d, d + 1 ≤ q - q2 → K (dec (cel sa1 (q - 1 - d))) = K (dec (cel sa1 (q - 1))) := by
        intro d
        induction d with
        | zero => intro _; rfl
        | succ d ihd =>
          intro hd
          rw [← ihd (by omega)]
          have h1 := k6 (q - 1 - (d + 1)) (by omega) (by omega)
          rw [hH.below _ (by omega)] at h1
          rcases hM.step (q - 1 - (d + 1)) (by omega) (by omega) with h2 | h2
          · rw [h2.2, show q - 1 - (d + 1) + 1 = q - 1 - d by omega]
          · omega
      have hH2 : Hole K first a q2 sa1 sa2 := by
        refine ⟨k1, by omega, by rw [k3, hH.len], ?_, ?_, ?_, ?_, ?_⟩
        · intro r hr; rw [k5 r (by omega), hH.below r (by omega)]
        · intro r hr1 hr2
          rcases Nat.lt_or_ge q r with h | h
          · rw [k5 r (by omega), hH.moved r h hr2]
          · rw [k4 r hr1 h, hH.below _ (by omega)]
        · intro r hr; rw [k5 r (by omega), hH.above r hr]
        · intro r hr1 hr2
          rcases Nat.lt_or_ge r q with h | h
          · have := hgrp (q - 1 - r) (by omega)
            rw [show q - 1 - (q - 1 - r) = r by omega] at this
            rw [this]; omega
          · exact hH.big r h hr2
        · intro h
          have := k7 h
          rwa [hH.below _ (by omega)] at this
      by_cases hq2 : q2 ≤ first
      · rw [if_pos hq2]
        exact ⟨sa2, q2, _, rfl, hH2, fun h => by omega, fun _ => by omega⟩
      · rw [if_neg hq2]
        exact ih q2 sa2 (by omega) (by omega) hH2
    · rw [if_neg hlt]
      exact ⟨sa, q, _, rfl, hH, fun _ => ⟨rfl, by omega⟩, fun h => by omega⟩

theorem insOne_spec {first last a : Nat} {sa1 : List Int} (hG : Mix Q K isad first last sa1) (hpa : 0 ≤ cel sa1 a) (ha1 : first < a) (ha : a < last) (hM : Mrk K first a sa1) :
    ∃ sa', insOne isad first sa1 a = some sa' ∧ Res first (a + 1) sa1 sa' ∧ Mrk K first (a + 1) sa' := by
  have hroom := hG.room
  unfold insOne
  rw [bind_some' (get_cel (by omega))]
  obtain ⟨sa2, q, r, e2, hH, hr1, hr2⟩ := insLoop_spec hG hpa ha hM a a sa1 (Nat.le_refl _) ha1
    ⟨by omega, Nat.le_refl _, rfl, fun _ _ => rfl, fun r h1 h2 => by omega, fun _ _ => rfl, fun r h1 h2 => by omega, fun _ => hM.fin _ (by omega) (by omega)⟩
  rw [bind_some' e2]
  simp only
  have hlo := hH.lo
  have hhi := hH.hi
  have hlen := hH.len
  have hend : ∀ sa3 : List Int, sa3.length = sa2.length → (∀ x, x + 1 ≠ q → cel sa3 x = cel sa2 x) →
      (∀ x, x + 1 = q → first ≤ x → dec (cel sa3 x) = dec (cel sa1 x) ∧
        ((cel sa3 x < 0 ∧ K (dec (cel sa1 x)) = K (dec (cel sa1 a))) ∨ (0 ≤ cel sa3 x ∧ K (dec (cel sa1 x)) < K (dec (cel sa1 a))))) →
      (q = first → ∀ x, x + 1 = q → cel sa3 x = cel sa2 x) →
      ∃ sa', put sa3 q (cel sa1 a) = some sa' ∧ Res first (a + 1) sa1 sa' ∧ Mrk K first (a + 1) sa' := by
    intro sa3 hl3 hs3 hm3 hf3
    refine ⟨_, put_spec (by omega) _, ?_, ?_⟩
    · refine ⟨by rw [List.length_set]; omega, ?_, ?_⟩
      · intro x hx
        rw [cel_set_ne _ (by omega)]
        by_cases hxq : x + 1 = q
        · rw [hf3 (by omega) x hxq, hH.below x (by omega)]
        · rw [hs3 x hxq]
          rcases hx with hx | hx
          · exact hH.below x (by omega)
          · exact hH.above x (by omega)
      · intro v
        rw [occ_split (cel sa1) (c := q) hlo (show q ≤ a + 1 by omega), occ_split (cel sa1) (c := a) hhi (show a ≤ a + 1 by omega), occ_one,
          occ_split (cel (sa3.set q (cel sa1 a))) (c := q) hlo (show q ≤ a + 1 by omega), occ_first (cel (sa3.set q (cel sa1 a))) (show q < a + 1 by omega),
          cel_set_self (by omega)]
        have h1 := occ_congr (f := cel sa1) (g := cel (sa3.set q (cel sa1 a))) (a := first) (b := q) (fun x hx1 hx2 => by
          rw [cel_set_ne _ (by omega)]
          by_cases hxq : x + 1 = q
          · exact (hm3 x hxq hx1).1.symm
          · rw [hs3 x hxq, hH.below x hx2]) v
        have h2 := occ_shift (f := cel (sa3.set q (cel sa1 a))) (g := cel sa1) (a := q) (b := a) 1 (fun x hx1 hx2 => by
          rw [cel_set_ne _ (by omega), hs3 _ (by omega), hH.moved _ (by omega) (by omega)]; rfl) v
        rw [← h2, h1]; omega
    · have c1 : ∀ x, x + 1 < q → cel (sa3.set q (cel sa1 a)) x = cel sa1 x := fun x hx => by
        rw [cel_set_ne _ (by omega), hs3 x (by omega), hH.below x (by omega)]
      have c2 : ∀ x, x + 1 = q → cel (sa3.set q (cel sa1 a)) x = cel sa3 x := fun x hx => cel_set_ne _ (by omega)
      have c3 : cel (sa3.set q (cel sa1 a)) q = cel sa1 a := cel_set_self (by omega) _
      have c4 : ∀ x, q ≤ x → x < a → cel (sa3.set q (cel sa1 a)) (x + 1) = cel sa1 x := fun x hx1 hx2 => by
        rw [cel_set_ne _ (by omega), hs3 _ (by omega), hH.moved _ (by omega) (by omega)]; rfl
      have cd : ∀ x, first ≤ x → x < q → dec (cel (sa3.set q (cel sa1 a)) x) = dec (cel sa1 x) := fun x hx1 hx2 => by
        by_cases hxq : x + 1 = q
        · rw [c2 x hxq]; exact (hm3 x hxq hx1).1
        · rw [c1 x (by omega)]
      refine ⟨?_, ?_⟩
      · intro x hx1 hx2
        rcases Nat.lt_trichotomy (x + 1) q with h | h | h
        · rw [c1 x h, cd (x + 1) (by omega) h]
          exact hM.step x hx1 (by omega)
        · rw [h, c3, cd x hx1 (by omega), c2 x h]
          exact (hm3 x h hx1).2
        · by_cases hxq : x = q
          · rw [c4 x (by omega) (by omega), hxq, c3]
            exact Or.inr ⟨hpa, hH.big q (Nat.le_refl _) (by omega)⟩
          · rw [c4 x (by omega) (by omega)]
            have := c4 (x - 1) (by omega) (by omega)
            rw [show x - 1 + 1 = x by omega] at this
            rw [this]
            have h5 := hM.step (x - 1) (by omega) (by omega)
            rwa [show x - 1 + 1 = x by omega] at h5
      · intro x hx1 hx2
        have : x = a := by omega
        subst this
        by_cases hq : q = x
        · have := c3
          rw [hq] at this
          rw [hq, this]; exact hpa
        · have := c4 (x - 1) (by omega) (by omega)
          rw [show x - 1 + 1 = x by omega] at this
          rw [this]; exact hM.fin _ (by omega) (by omega)
  by_cases hr0 : r = 0
  · have hq : first < q := by
      rcases Nat.lt_or_ge first q with h | h
      · exact h
      · exact absurd hr0 (hr2 (by omega))
    rw [if_pos hr0, if_neg (by omega), bind_some' (flip_spec (by omega))]
    have hc : cel sa2 (q - 1) = cel sa1 (q - 1) := hH.below _ (by omega)
    refine hend _ (by rw [List.length_set]) (fun x hx => cel_set_ne _ (by omega)) ?_ (fun h => by omega)
    intro x hx hx1
    have : x = q - 1 := by omega
    subst this
    rw [cel_set_self (by omega), dec_inv, hc]
    refine ⟨rfl, Or.inl ⟨(inv_neg_iff _).2 (hH.edge hq), ?_⟩⟩
    have := (hr1 hq).1; omega
  · rw [if_neg hr0, bind_some' rfl]
    refine hend sa2 rfl (fun _ _ => rfl) ?_ (fun _ _ _ => rfl)
    intro x hx hx1
    have hc : cel sa2 x = cel sa1 x := hH.below _ (by omega)
    rw [hc]
    have h1 := hr1 (by omega)
    rw [show q - 1 = x by omega] at h1
    refine ⟨rfl, Or.inr ⟨?_, by omega⟩⟩
    have := hH.edge (by omega)
    rwa [show q - 1 = x by omega] at this

/-- `tr_insertionsort` sorts the cells by their keys and marks those whose key is that of the next cell. -/
theorem insertionsort_spec {first last : Nat} {sa : List Int} (hG : Grp Q K isad first last sa) (hfl : first < last) :
    ∃ sa', insertionsort sa isad first last = some sa' ∧ Res first last sa sa' ∧ Mrk K first last sa' := by
  obtain ⟨sa', e, h1, h2, _⟩ := loopUp_spec (f := insOne isad first)
    (fun a s => Res first last sa s ∧ Mrk K first a s ∧ ∀ r, a ≤ r → cel s r = cel sa r) (last - first - 1) (first + 1) sa
    (by
      intro j s hj1 hj2 ⟨k1, k2, k3⟩
      obtain ⟨s', e, l1, l2⟩ := insOne_spec ⟨hG.env.res k1 hG.below, hG.below, by rw [k1.len]; exact hG.room, k1.all hG.good⟩
        (by rw [k3 j (Nat.le_refl _)]; exact hG.pos j (by omega) (by omega)) (by omega) (by omega) k2
      exact ⟨s', e, k1.trans (l1.extend (Nat.le_refl _) (by omega) (by omega)), l2, fun r hr => by rw [l1.frame r (by omega), k3 r (by omega)]⟩)
    ⟨Res.refl _ _ _, ⟨fun r h1 h2 => by omega, fun r h1 h2 => by
      rw [show r = first by omega]; exact hG.pos first (Nat.le_refl _) hfl⟩, fun _ _ => rfl⟩
  refine ⟨sa', e, h1, ?_⟩
  rwa [show first + 1 + (last - first - 1) = last by omega] at h2

theorem markRun_spec {first : Nat} {x : Int} : ∀ (b : Nat) (sa : List Int), b ≤ sa.length → b ≤ isad → Env Q K isad sa →
    (∀ r, first ≤ r → r < b → 0 ≤ cel sa r) → (∀ r, first ≤ r → r < b → Q (dec (cel sa r))) → first ≤ b →
    ∃ sa' k, markRun isad first x b sa = some (sa', k) ∧ first ≤ k ∧ k ≤ b ∧ sa'.length = sa.length ∧
      (∀ r, r < k ∨ b ≤ r → cel sa' r = cel sa r) ∧ (∀ r, k ≤ r → r < b → cel sa' r = inv (cel sa r) ∧ K (dec (cel sa r)) = x) ∧
      (first < k → K (dec (cel sa (k - 1))) ≠ x) := by
  intro b
  induction b with
  | zero =>
    intro sa h1 h2 h3 h4 h5 h6
    exact ⟨sa, 0, rfl, by omega, Nat.le_refl _, rfl, fun _ _ => rfl, fun r h1 h2 => by omega, fun h => by omega⟩
  | succ b ih =>
    intro sa h1 h2 h3 h4 h5 h6
    rw [markRun]
    by_cases hf : first ≤ b
    · rw [if_pos hf, bind_some' (get_cel (by omega)), bind_some' (h3.key (h4 b hf (by omega)) (h5 b hf (by omega)))]
      by_cases hk : K (dec (cel sa b)) = x
      · rw [if_pos hk, bind_some' (put_spec (by omega) _)]
        obtain ⟨sa', k, e, k1, k2, k3, k4, k5, k6⟩ := ih (sa.set b (inv (cel sa b))) (by rw [List.length_set]; omega) (by omega)
          (h3.frame (by rw [List.length_set]) (fun r hr => cel_set_ne _ (by omega)))
          (fun r hr1 hr2 => by rw [cel_set_ne _ (by omega)]; exact h4 r hr1 (by omega))
          (fun r hr1 hr2 => by rw [cel_set_ne _ (by omega)]; exact h5 r hr1 (by omega)) hf
        refine ⟨sa', k, e, k1, by omega, by rw [k3, List.length_set], ?_, ?_, ?_⟩
        · intro r hr
          rw [k4 r (by omega), cel_set_ne _ (by omega)]
        · intro r hr1 hr2
          by_cases hrb : r = b
          · rw [hrb, k4 b (by omega), cel_set_self (by omega)]; exact ⟨rfl, hk⟩
          · have := k5 r hr1 (by omega)
            rwa [cel_set_ne _ (by omega)] at this
        · intro h
          have := k6 h
          rwa [cel_set_ne _ (by omega)] at this
      · rw [if_neg hk]
        exact ⟨sa, b + 1, rfl, by omega, Nat.le_refl _, rfl, fun _ _ => rfl, fun r h1 h2 => by omega, fun _ => hk⟩
    · rw [if_neg hf]
      exact ⟨sa, b + 1, rfl, by omega, Nat.le_refl _, rfl, fun _ _ => rfl, fun r h1 h2 => by omega, fun h => by omega⟩

/-- While the runs are marked: everything from cell `k` on is done. -/
structure Runs (K : Nat → Int) (first last k : Nat) (sa0 sa : List Int) : Prop where
  lo : first ≤ k
  hi : k ≤ last
  len : sa.length = sa0.length
  same : ∀ r, r < k ∨ last ≤ r → cel sa r = cel sa0 r
  dec : ∀ r, dec (cel sa r) = dec (cel sa0 r)
  step : ∀ r, first ≤ r → k ≤ r + 1 → r + 1 < last → (cel sa r < 0 ∧ K (Divsuf.dec (cel sa r)) = K (Divsuf.dec (cel sa (r + 1)))) ∨
    (0 ≤ cel sa r ∧ K (Divsuf.dec (cel sa r)) < K (Divsuf.dec (cel sa (r + 1))))
  fin : ∀ r, first ≤ r → r + 1 = last → 0 ≤ cel sa r

theorem markRuns_loop {first last : Nat} {sa0 : List Int} (hG : Grp Q K isad first last sa0) (hS : ByKey K first last sa0) :
    ∀ (n k : Nat) (sa : List Int), k ≤ n → Runs K first last k sa0 sa →
    ∃ sa', markRuns isad first sa k = some sa' ∧ Res first last sa0 sa' ∧ Mrk K first last sa' := by
  intro n
  induction n with
  | zero =>
    intro k sa hk h
    have hlo := h.lo
    rw [markRuns, if_neg (by omega)]
    exact ⟨sa, rfl, ⟨h.len, fun r hr => h.same r (by omega), Perm.congr (fun r _ _ => (h.dec r).symm)⟩,
      ⟨fun r h1 h2 => h.step r h1 (by omega) h2, h.fin⟩⟩
  | succ n ih =>
    intro k sa hk h
    have hlo := h.lo
    have hhi := h.hi
    have hroom := hG.room
    have hbel := hG.below
    by_cases hf : first + 1 < k
    · rw [markRuns, if_pos hf]
      have henv : Env Q K isad sa := hG.env.frame h.len (fun r hr => h.same r (by omega))
      have hsame : ∀ r, r < k → cel sa r = cel sa0 r := fun r hr => h.same r (by omega)
      have hlen := h.len
      rw [bind_some' (henv.keyCell (by omega) (by rw [hsame _ (by omega)]; exact hG.pos _ (by omega) (by omega))
        (by rw [hsame _ (by omega)]; exact hG.good _ (by omega) (by omega)))]
      obtain ⟨sa', k', e, k1, k2, k3, k4, k5, k6⟩ := markRun_spec (Q := Q) (K := K) (isad := isad) (first := first)
        (x := K (Divsuf.dec (cel sa (k - 1)))) (k - 1) sa (by omega) (by omega) henv
        (fun r h1 h2 => by rw [hsame _ (by omega)]; exact hG.pos _ (by omega) (by omega))
        (fun r h1 h2 => by rw [hsame _ (by omega)]; exact hG.good _ (by omega) (by omega)) (by omega)
      rw [bind_some' e]
      simp only
      have hd : ∀ r, Divsuf.dec (cel sa' r) = Divsuf.dec (cel sa r) := by
        intro r
        by_cases hr : k' ≤ r ∧ r < k - 1
        · rw [(k5 r hr.1 hr.2).1, dec_inv]
        · rw [k4 r (by omega)]
      refine ih k' sa' (by omega) ⟨k1, by omega, by omega, ?_, fun r => by rw [hd, h.dec], ?_, ?_⟩
      · intro r hr
        rw [k4 r (by omega), h.same r (by omega)]
      · intro r hr1 hr2 hr3
        rw [hd, hd]
        rcases Nat.lt_or_ge r k' with hc | hc
        · have hrk : r = k' - 1 := by omega
          rw [k4 r (by omega)]
          refine Or.inr ⟨by rw [hsame r (by omega)]; exact hG.pos r hr1 (by omega), ?_⟩
          have h1 := k6 (by omega)
          rw [← hrk] at h1
          have h2 : K (Divsuf.dec (cel sa (r + 1))) = K (Divsuf.dec (cel sa (k - 1))) := by
            by_cases hx : r + 1 = k - 1
            · rw [hx]
            · exact (k5 (r + 1) (by omega) (by omega)).2
          have h3 := hS r hr1 (by omega)
          rw [← hsame r (by omega), ← hsame (r + 1) (by omega)] at h3
          omega
        · rcases Nat.lt_or_ge r (k - 1) with hb | hb
          · rw [(k5 r hc hb).1]
            have hp : 0 ≤ cel sa r := by rw [hsame r (by omega)]; exact hG.pos r hr1 (by omega)
            refine Or.inl ⟨(inv_neg_iff _).2 hp, ?_⟩
            rw [(k5 r hc hb).2]
            by_cases hx : r + 1 = k - 1
            · rw [hx]
            · exact (k5 (r + 1) (by omega) (by omega)).2.symm
          · rw [k4 r (by omega)]
            exact h.step r hr1 (by omega) hr3
      · intro r hr1 hr2
        rw [k4 r (by omega)]
        exact h.fin r hr1 hr2
    · rw [markRuns, if_neg hf]
      exact ⟨sa, rfl, ⟨h.len, fun r hr => h.same r (by omega), Perm.congr (fun r _ _ => (h.dec r).symm)⟩,
        ⟨fun r h1 h2 => h.step r h1 (by omega) h2, h.fin⟩⟩

/-- The runs of equal keys are marked after `tr_heapsort`. -/
theorem markRuns_spec {first last : Nat} {sa : List Int} (hG : Grp Q K isad first last sa) (hS : ByKey K first last sa) (hfl : first < last) :
    ∃ sa', markRuns isad first sa last = some sa' ∧ Res first last sa sa' ∧ Mrk K first last sa' :=
  markRuns_loop hG hS last last sa (Nat.le_refl _) ⟨by omega, Nat.le_refl _, rfl, fun _ _ => rfl, fun _ => rfl, fun r h1 h2 h3 => by omega,
    fun r h1 h2 => hG.pos r h1 (by omega)⟩

end Bwtc.Tr
