import Verif.SsRotate

/-!
# `ss_inplacemerge` merges
-/

set_option autoImplicit false

namespace Bwtc.Ss
open Sais (put inv put_spec inv_inv bind_some')
open Divsuf (getI dec sub)
open Suffix

variable {T : List Nat} {P : Nat → Nat} {m pa : Nat} {W : List Nat}

theorem Rotd.res {a middle last : Nat} {sa sa' : List Int} (h : Rotd a middle last sa sa') (h1 : a ≤ middle) (h2 : middle ≤ last) : Res a last sa sa' := by
  refine ⟨h.len, h.off, fun v => ?_⟩
  have e1 := occ_map (f := cel sa) (g := cel sa') a middle (last - middle) (fun i hi => by rw [h.low i (by omega)]) v
  have e2 := occ_map (f := cel sa) (g := cel sa') (a + (last - middle)) a (middle - a) (fun i hi => by rw [h.high i (by omega)]) v
  rw [show middle + (last - middle) = last by omega] at e1
  rw [show a + (last - middle) + (middle - a) = last by omega, show a + (middle - a) = middle by omega] at e2
  rw [occ_split (cel sa') (a := a) (c := a + (last - middle)) (by omega) (show a + (last - middle) ≤ last by omega), e1, e2, occ_split (cel sa) h1 h2]
  omega

theorem lt_of_le_lt {x y z : List Nat} (h : x < y ∨ x = y) (h' : y < z) : x < z := by
  rcases h with h | h
  · exact List.lt_trans h h'
  · rw [h]; exact h'

/-- The search finds the first place whose key is not less than that of `p`. -/
theorem inplaceSearch_spec {sa : List Int} {first middle p : Nat} (hE : Env T P m pa sa) (hml : middle ≤ sa.length) (hS : Srt (sub T P m) first middle (cel sa))
    (hg : ∀ r, first ≤ r → r < middle → Good T P m W (dec (cel sa r))) (hp : Good T P m W p) :
    ∀ (n a len : Nat) (r : Int), len ≤ n → first ≤ a → a + len ≤ middle → (∀ j, first ≤ j → j < a → sub T P m (dec (cel sa j)) < sub T P m p) →
      (a + len < middle → 0 ≤ r ∧ Tells r (sub T P m (dec (cel sa (a + len)))) (sub T P m p)) →
      ∃ a' r', inplaceSearch T sa pa W.length (p : Int) a len (len / 2) r = some (a', r') ∧ first ≤ a' ∧ a' ≤ middle ∧
        (∀ j, first ≤ j → j < a' → sub T P m (dec (cel sa j)) < sub T P m p) ∧
        (a' < middle → 0 ≤ r' ∧ Tells r' (sub T P m (dec (cel sa a'))) (sub T P m p)) := by
  intro n
  induction n with
  | zero =>
    intro a len r h1 h2 h3 h4 h5
    have : len = 0 := by omega
    subst this
    rw [inplaceSearch, if_neg (by omega)]
    exact ⟨a, r, rfl, h2, h3, h4, h5⟩
  | succ n ih =>
    intro a len r h1 h2 h3 h4 h5
    rw [inplaceSearch]
    by_cases hl : 0 < len
    · rw [if_pos hl, bind_some' (get_cel (by omega)), idx_eq]
      obtain ⟨q, eq, hq⟩ := hE.compare (i := dec (cel sa (a + len / 2))) (j := p) (W := W) (hg _ (by omega) (by omega)) hp
      rw [bind_some' eq]
      by_cases hq0 : q < 0
      · rw [if_pos hq0, if_neg (by omega)]
        have hlen : a + len / 2 + 1 + (len / 2 - if len % 2 = 1 then 0 else 1) = a + len := by
          split <;> omega
        refine ih (a + len / 2 + 1) (len / 2 - if len % 2 = 1 then 0 else 1) r (by omega) (by omega) (by omega) ?_ (by rw [hlen]; exact h5)
        intro j hj1 hj2
        exact lt_of_le_lt (hS.le hj1 (show j ≤ a + len / 2 by omega) (by omega)) (hq.lt hq0)
      · rw [if_neg hq0]
        exact ih a (len / 2) q (by omega) h2 (by omega) h4 (fun _ => ⟨by omega, hq⟩)
    · rw [if_neg hl]
      have : len = 0 := by omega
      subst this
      exact ⟨a, r, rfl, h2, h3, h4, h5⟩

/-- `while(*--last < 0)` stops at the head of the group. -/
theorem backUp_spec {sa : List Int} {lo : Nat} (h0 : 0 ≤ cel sa lo) : ∀ (l : Nat), lo < l → l ≤ sa.length →
    ∃ h, backUp sa l = some h ∧ lo ≤ h ∧ h < l ∧ 0 ≤ cel sa h ∧ ∀ j, h < j → j < l → cel sa j < 0 := by
  intro l
  induction l with
  | zero => intro h; omega
  | succ l ih =>
    intro h1 h2
    rw [backUp, bind_some' (get_cel (by omega))]
    by_cases hx : cel sa l < 0
    · rw [if_pos hx]
      have : lo ≠ l := fun h => by subst h; omega
      obtain ⟨h, e, k1, k2, k3, k4⟩ := ih (by omega) (by omega)
      refine ⟨h, e, k1, by omega, k3, fun j hj1 hj2 => ?_⟩
      by_cases hj : j = l
      · rw [hj]; exact hx
      · exact k4 j hj1 (by omega)
    · rw [if_neg hx]
      exact ⟨l, rfl, by omega, by omega, by omega, fun j _ _ => by omega⟩

/-- The head of the group at the end of a sorted range. -/
theorem lastHead_spec {sa : List Int} {lo last : Nat} (h0 : 0 ≤ cel sa lo) (h1 : lo < last) (h2 : last ≤ sa.length) :
    ∃ h, (if cel sa (last - 1) < 0 then backUp sa (last - 1) else some (last - 1)) = some h ∧ lo ≤ h ∧ h < last ∧ 0 ≤ cel sa h ∧
      ∀ j, h < j → j < last → cel sa j < 0 := by
  by_cases hx : cel sa (last - 1) < 0
  · rw [if_pos hx]
    have : lo ≠ last - 1 := fun h => by subst h; omega
    obtain ⟨h, e, k1, k2, k3, k4⟩ := backUp_spec h0 (last - 1) (by omega) (by omega)
    refine ⟨h, e, k1, by omega, k3, fun j hj1 hj2 => ?_⟩
    by_cases hj : j = last - 1
    · rw [hj]; exact hx
    · exact k4 j hj1 (by omega)
  · rw [if_neg hx]
    exact ⟨last - 1, rfl, by omega, by omega, by omega, fun j _ _ => by omega⟩

theorem inplacemerge_run {first last0 : Nat} (h0 : last0 ≤ pa) : ∀ (n : Nat) (sa : List Int) (middle last : Nat), last - middle ≤ n → first < middle → middle < last → last ≤ last0 →
    pa ≤ sa.length → Env T P m pa sa → Srt (sub T P m) first middle (cel sa) → Srt (sub T P m) middle last (cel sa) → Steps (sub T P m) last last0 (cel sa) →
    (last < last0 → 0 ≤ cel sa last ∧ ∀ r, first ≤ r → r < last → sub T P m (dec (cel sa r)) < sub T P m (dec (cel sa last))) →
    (∀ r, first ≤ r → r < last0 → Good T P m W (dec (cel sa r))) →
    ∃ sa', inplacemerge T pa sa first middle last W.length = some sa' ∧ Res first last0 sa sa' ∧ Srt (sub T P m) first last0 (cel sa') := by
  intro n
  induction n with
  | zero => intro sa middle last h1 h2 h3; omega
  | succ n ih =>
    intro sa middle last hn h1 h2 h3 hpa hE hA hB hT ht hg
    rw [inplacemerge, if_neg (by omega), bind_some' (get_cel (by omega)), idx_eq]
    obtain ⟨a, r, e, k1, k2, k3, k4⟩ := inplaceSearch_spec (W := W) (first := first) (middle := middle) (p := dec (cel sa (last - 1))) hE (by omega) hA (fun r h4 h5 => hg r h4 (by omega))
      (hg _ (by omega) (by omega)) _ first (middle - first) (-1) (Nat.le_refl _) (Nat.le_refl _) (by omega) (fun j _ _ => by omega) (fun h => by omega)
    rw [bind_some' e]
    -- the array after the mark and the rotation
    have mid : ∀ sa1 sa2 : List Int, (∀ j, j ≠ a → cel sa1 j = cel sa j) → sa1.length = sa.length → dec (cel sa1 a) = dec (cel sa a) → (a = middle → sa1 = sa) →
        (a < middle → Stp (sub T P m) (cel sa (last - 1)) (cel sa1 a)) → Rotd a middle last sa1 sa2 →
        Res first last0 sa sa2 ∧ Steps (sub T P m) a last0 (cel sa2) ∧ 0 ≤ cel sa2 a ∧ Srt (sub T P m) a (a + (last - middle)) (cel sa2) ∧
          cel sa2 (a + (last - middle) - 1) = cel sa (last - 1) := by
      intro sa1 sa2 q1 q2 q3 q5 q4 R
      have qd : ∀ j, dec (cel sa1 j) = dec (cel sa j) := fun j => by
        by_cases hj : j = a
        · rw [hj]; exact q3
        · rw [q1 j hj]
      have hR : Res first last0 sa sa2 := by
        have hf : Res a last sa1 sa2 := R.res k2 (by omega)
        refine ⟨by rw [R.len, q2], fun r hr => by rw [R.off r (by omega), q1 r (by omega)], ?_⟩
        refine Perm.trans (Perm.congr (fun r _ _ => (qd r).symm)) ?_
        exact (hf.extend (a' := first) (b' := last0) (by omega) h3 (by omega)).perm
      have hlow : ∀ j, a ≤ j → j < a + (last - middle) → cel sa2 j = cel sa (middle + (j - a)) := by
        intro j h4 h5
        have := R.low (j - a) (by omega)
        rw [show a + (j - a) = j by omega] at this
        rw [this]
        by_cases ham : a = middle
        · rw [q5 ham]
        · rw [q1 _ (by omega)]
      have hhigh : ∀ j, a + (last - middle) ≤ j → j < last → cel sa2 j = cel sa1 (j - (last - middle)) := by
        intro j h4 h5
        have := R.high (j - (last - middle) - a) (by omega)
        rw [show a + (last - middle) + (j - (last - middle) - a) = j by omega, show a + (j - (last - middle) - a) = j - (last - middle) by omega] at this
        exact this
      have hoff : ∀ j, last ≤ j → cel sa2 j = cel sa j := fun j hj => by rw [R.off j (by omega), q1 j (by omega)]
      have hfirst : cel sa2 a = cel sa middle := by
        rw [hlow a (Nat.le_refl _) (by omega), Nat.sub_self, Nat.add_zero]
      have hend : cel sa2 (a + (last - middle) - 1) = cel sa (last - 1) := by
        rw [hlow _ (by omega) (by omega), show middle + (a + (last - middle) - 1 - a) = last - 1 by omega]
      have hlowS : Steps (sub T P m) a (a + (last - middle)) (cel sa2) := by
        intro j h4 h5
        rw [hlow j h4 (by omega), hlow (j + 1) (by omega) h5, show middle + (j + 1 - a) = middle + (j - a) + 1 by omega]
        exact hB.stp (by omega) (by omega)
      refine ⟨hR, ?_, by rw [hfirst]; exact hB.first h2, ⟨fun _ => by rw [hfirst]; exact hB.first h2, hlowS⟩, hend⟩
      intro j h4 h5
      by_cases hj1 : j + 1 < a + (last - middle)
      · exact hlowS j h4 hj1
      · by_cases hj2 : j + 1 = a + (last - middle)
        · have e1 : cel sa2 j = cel sa (last - 1) := by rw [← hend]; congr 1; omega
          by_cases ham : a < middle
          · rw [e1, hhigh (j + 1) (by omega) (by omega), show j + 1 - (last - middle) = a by omega]
            exact q4 ham
          · rw [e1, hoff (j + 1) (by omega), show j + 1 = last by omega]
            have := ht (by omega)
            exact Or.inl ⟨this.1, this.2 _ (by omega) (by omega)⟩
        · by_cases hj3 : j + 1 < last
          · rw [hhigh j (by omega) (by omega), hhigh (j + 1) (by omega) (by omega)]
            have := hA.stp (r := j - (last - middle)) (by omega) (by omega)
            rw [show j + 1 - (last - middle) = j - (last - middle) + 1 by omega, q1 (j - (last - middle) + 1) (by omega)]
            exact stp_congr this (qd _)
          · by_cases hj4 : j + 1 = last
            · rw [hj4, hoff last (Nat.le_refl _), hhigh j (by omega) (by omega)]
              have := ht (by omega)
              exact Or.inl ⟨this.1, by rw [qd]; exact this.2 _ (by omega) (by omega)⟩
            · rw [hoff j (by omega), hoff (j + 1) (by omega)]
              exact hT j (by omega) (by omega)
    -- the rest
    have rest : ∀ sa2 : List Int, Res first last0 sa sa2 → Steps (sub T P m) a last0 (cel sa2) → 0 ≤ cel sa2 a → Srt (sub T P m) a (a + (last - middle)) (cel sa2) →
        cel sa2 (a + (last - middle) - 1) = cel sa (last - 1) → (∀ j, first ≤ j → j < a → cel sa2 j = cel sa j) → first < a →
        ∃ sa', (do
          let last ← (if cel sa (last - 1) < 0 then backUp sa2 (a + (last - middle) - 1) else some (a + (last - middle) - 1) : Option _)
          if a = last then return sa2 else inplacemerge T pa sa2 first a last W.length) = some sa' ∧ Res first last0 sa sa' ∧ Srt (sub T P m) first last0 (cel sa') := by
      intro sa2 hR hS ha0 hS1 hend hsame hfa
      obtain ⟨h, e3, p1, p2, p3, p4⟩ := lastHead_spec (sa := sa2) (lo := a) (last := a + (last - middle)) ha0 (by omega) (by rw [hR.len]; omega)
      rw [hend] at e3
      rw [bind_some' e3]
      have hAs : Srt (sub T P m) first a (cel sa2) := (hA.init k2).congr hsame
      have hkh : sub T P m (dec (cel sa2 h)) = sub T P m (dec (cel sa (last - 1))) := by
        have := group_key (K := sub T P m) (f := cel sa2) (b := h) (a + (last - middle) - h) (fun i hi => hS _ (by omega) (by omega))
          (fun i hi1 hi2 => p4 _ (by omega) (by omega)) (a + (last - middle) - 1 - h) (by omega)
        rw [show h + (a + (last - middle) - 1 - h) = a + (last - middle) - 1 by omega, hend] at this
        exact this.symm
      by_cases hah : a = h
      · rw [if_pos hah]
        subst hah
        refine ⟨sa2, rfl, hR, ?_⟩
        refine Srt.join (c := a) hAs (fun r hr1 hr2 => hS r hr1 hr2) (fun _ _ => Or.inl ⟨p3, ?_⟩) (fun hc _ => by omega)
        rw [hkh, hsame (a - 1) (by omega) (by omega)]
        exact k3 _ (by omega) (by omega)
      · rw [if_neg hah]
        have hx : ∀ r, first ≤ r → r < h → sub T P m (dec (cel sa2 r)) < sub T P m (dec (cel sa2 h)) := by
          intro r hr1 hr2
          by_cases hra : r < a
          · rw [hkh, hsame r hr1 hra]; exact k3 r hr1 hra
          · exact hS1.lt (by omega) hr2 (by omega) p3
        obtain ⟨sa', e4, w1, w2⟩ := ih sa2 a h (by omega) hfa (by omega) (by omega) (by rw [hR.len]; exact hpa) (hE.res hR h0) hAs (hS1.init (by omega))
          (fun r hr1 hr2 => hS r (by omega) hr2) (fun _ => ⟨p3, hx⟩) (hR.all hg)
        exact ⟨sa', e4, hR.trans w1, w2⟩
    show ∃ sa', (if a < middle then _ else _) = some sa' ∧ _
    by_cases ham : a < middle
    · rw [if_pos ham]
      obtain ⟨hr0, hr⟩ := k4 ham
      have hhead : 0 ≤ cel sa a := by
        by_cases haf : a = first
        · rw [haf]; exact hA.first h1
        · have h5 := k3 (a - 1) (by omega) (by omega)
          have h6 := hA.stp (r := a - 1) (by omega) (by omega)
          rw [show a - 1 + 1 = a by omega] at h6
          rcases h6 with h6 | h6
          · exact h6.1
          · rw [h6.2] at h5
            have h7 : 0 < r ∨ r = 0 := by omega
            rcases h7 with h7 | h7
            · exact absurd (List.lt_trans (hr.gt h7) h5) (List.lt_irrefl _)
            · rw [hr.eq h7] at h5; exact absurd h5 (List.lt_irrefl _)
      have hflip : ∃ sa1, (if r = 0 then flip sa a else some sa : Option _) = some sa1 ∧ (∀ j, j ≠ a → cel sa1 j = cel sa j) ∧ sa1.length = sa.length ∧
          dec (cel sa1 a) = dec (cel sa a) ∧ Stp (sub T P m) (cel sa (last - 1)) (cel sa1 a) := by
        by_cases hr1 : r = 0
        · rw [if_pos hr1, flip_spec (by omega)]
          have e1 : cel (sa.set a (inv (cel sa a))) a = inv (cel sa a) := cel_set_self (by omega) _
          refine ⟨_, rfl, fun j hj => cel_set_ne _ hj, by simp, by rw [e1, dec_inv], Or.inr ⟨by rw [e1]; exact (inv_neg_iff _).2 hhead, ?_⟩⟩
          rw [e1, dec_inv, hr.eq hr1]
        · rw [if_neg hr1]
          exact ⟨sa, rfl, fun _ _ => rfl, rfl, rfl, Or.inl ⟨hhead, hr.gt (by omega)⟩⟩
      obtain ⟨sa1, e1, q1, q2, q3, q4⟩ := hflip
      rw [bind_some' e1]
      obtain ⟨sa2, e2, R⟩ := rotate_spec (sa := sa1) (first := a) (middle := middle) (last := last) k2 (by omega) (by omega)
      rw [bind_some' e2]
      obtain ⟨w1, w2, w3, w4, w5⟩ := mid sa1 sa2 q1 q2 q3 (fun h => by omega) (fun _ => q4) R
      by_cases hfa : first = a
      · rw [if_pos hfa]
        exact ⟨sa2, rfl, w1, ⟨fun _ => by rw [hfa]; exact w3, by rw [hfa]; exact w2⟩⟩
      · rw [if_neg hfa, if_neg (by omega)]
        have := rest sa2 w1 w2 w3 w4 w5 (fun j hj1 hj2 => by rw [R.off j (by omega), q1 j (by omega)]) (by omega)
        rw [show last - (middle - a) - 1 = a + (last - middle) - 1 by omega]
        exact this
    · have ham' : a = middle := by omega
      rw [if_neg ham]
      obtain ⟨w1, w2, w3, w4, w5⟩ := mid sa sa (fun _ _ => rfl) rfl rfl (fun _ => rfl) (fun h => absurd h ham)
        ⟨rfl, fun i hi => by rw [ham'], fun i hi => by omega, fun _ _ => rfl⟩
      have := rest sa w1 w2 w3 w4 w5 (fun _ _ _ => rfl) (by omega)
      rw [show a + (last - middle) - 1 = last - 1 by omega, ham'] at this
      exact this

/-- `ss_inplacemerge` merges the two sorted ranges. -/
theorem inplacemerge_spec {sa : List Int} {first middle last : Nat} (hE : Env T P m pa sa) (hpa : pa ≤ sa.length) (h1 : first < middle) (h2 : middle < last) (h3 : last ≤ pa)
    (hA : Srt (sub T P m) first middle (cel sa)) (hC : Srt (sub T P m) middle last (cel sa)) (hg : ∀ r, first ≤ r → r < last → Good T P m W (dec (cel sa r))) :
    ∃ sa', inplacemerge T pa sa first middle last W.length = some sa' ∧ Res first last sa sa' ∧ Srt (sub T P m) first last (cel sa') :=
  inplacemerge_run h3 _ sa middle last (Nat.le_refl _) h1 h2 (Nat.le_refl _) hpa hE hA hC (fun _ _ _ => by omega) (fun h => by omega) hg

end Bwtc.Ss
