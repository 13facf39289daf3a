import Verif.SsBase
import Verif.SaisBuckets

/-!
# `ss_insertionsort` sorts
-/

set_option autoImplicit false

namespace Bwtc.Ss
open Sais (put inv put_spec inv_inv bind_some' loopDown loopDown_spec)
open Divsuf (getI dec sub)
open Suffix

variable {T : List Nat} {P : Nat → Nat} {m pa : Nat}

theorem insShift_spec (last : Nat) : ∀ (n : Nat) (sa : List Int) (q : Nat), last - q ≤ n → q + 1 < last → last ≤ sa.length →
    ∃ sa' q', insShift last sa q = some (sa', q') ∧ q < q' ∧ q' < last ∧ sa'.length = sa.length ∧
      (∀ r, q ≤ r → r < q' → cel sa' r = cel sa (r + 1)) ∧ (∀ r, r < q ∨ q' ≤ r → cel sa' r = cel sa r) ∧
      (∀ r, q + 1 < r → r ≤ q' → cel sa r < 0) ∧ (q' + 1 < last → 0 ≤ cel sa (q' + 1)) := by
  intro n
  induction n with
  | zero => intro sa q h1 h2; omega
  | succ n ih =>
    intro sa q hn hq hl
    rw [insShift, bind_some' (get_cel (by omega)), bind_some' (put_spec (by omega) _)]
    by_cases h2 : q + 2 < last
    · rw [if_pos h2, bind_some' (get_cel (by rw [List.length_set]; omega)), cel_set_ne _ (by omega)]
      by_cases hy : cel sa (q + 2) < 0
      · rw [if_pos hy]
        obtain ⟨sa', q', e, h3, h4, h5, h6, h7, h8, h9⟩ := ih (sa.set q (cel sa (q + 1))) (q + 1) (by omega) (by omega) (by rw [List.length_set]; omega)
        refine ⟨sa', q', e, by omega, h4, by rw [h5, List.length_set], ?_, ?_, ?_, ?_⟩
        · intro r h10 h11
          rcases Nat.lt_or_ge r (q + 1) with h12 | h12
          · have : r = q := by omega
            subst this
            rw [h7 r (Or.inl h12), cel_set_self (by omega)]
          · rw [h6 r h12 h11, cel_set_ne _ (by omega)]
        · intro r hr
          rw [h7 r (by omega), cel_set_ne _ (by omega)]
        · intro r h10 h11
          rcases Nat.lt_or_ge (q + 2) r with h12 | h12
          · have := h8 r (by omega) h11
            rwa [cel_set_ne _ (by omega)] at this
          · have : r = q + 2 := by omega
            subst this; exact hy
        · intro h10
          have := h9 h10
          rwa [cel_set_ne _ (by omega)] at this
      · rw [if_neg hy]
        refine ⟨_, q + 1, rfl, by omega, by omega, by rw [List.length_set], ?_, ?_, ?_, ?_⟩
        · intro r h3 h4
          have : r = q := by omega
          subst this
          rw [cel_set_self (by omega)]
        · intro r hr; rw [cel_set_ne _ (by omega)]
        · intro r h3 h4; omega
        · intro _; show 0 ≤ cel sa (q + 2); omega
    · rw [if_neg h2]
      refine ⟨_, q + 1, rfl, by omega, by omega, by rw [List.length_set], ?_, ?_, ?_, ?_⟩
      · intro r h3 h4
        have : r = q := by omega
        subst this
        rw [cel_set_self (by omega)]
      · intro r hr; rw [cel_set_ne _ (by omega)]
      · intro r h3 h4; omega
      · intro _; omega

theorem insLoop_spec {W : List Nat} (last : Nat) (hpa : last ≤ pa) (t : Nat) (ht : Good T P m W t) : ∀ (n : Nat) (sa : List Int) (q : Nat),
    last - q ≤ n → q + 1 < last → last ≤ sa.length → Env T P m pa sa → Srt (sub T P m) (q + 1) last (cel sa) →
    (∀ r, q + 1 ≤ r → r < last → Good T P m W (dec (cel sa r))) →
    ∃ sa' q' r, insLoop T pa W.length last (t : Int) sa q = some (sa', q', r) ∧ q ≤ q' ∧ q' < last ∧ sa'.length = sa.length ∧
      (∀ r, q ≤ r → r < q' → cel sa' r = cel sa (r + 1)) ∧ (∀ r, r < q ∨ q' ≤ r → cel sa' r = cel sa r) ∧
      (∀ r, q + 1 ≤ r → r ≤ q' → sub T P m (dec (cel sa r)) < sub T P m t) ∧
      ((q' + 1 = last ∧ 0 < r) ∨ (q' + 1 < last ∧ 0 ≤ cel sa (q' + 1) ∧
        ((r < 0 ∧ sub T P m t < sub T P m (dec (cel sa (q' + 1)))) ∨ (r = 0 ∧ sub T P m t = sub T P m (dec (cel sa (q' + 1))))))) := by
  intro n
  induction n with
  | zero => intro sa q h1 h2; omega
  | succ n ih =>
    intro sa q hn hq hl henv hs hg
    have h0 : 0 ≤ cel sa (q + 1) := hs.first hq
    rw [insLoop, bind_some' (get_cel (by omega))]
    obtain ⟨r, hr, htell⟩ := henv.compare ht (hg (q + 1) (by omega) hq)
    rw [← nat_of h0] at hr
    rw [bind_some' hr]
    by_cases hpos : 0 < r
    · rw [if_pos hpos]
      obtain ⟨sa1, q1, e, h3, h4, h5, h6, h7, h8, h9⟩ := insShift_spec last _ sa q (Nat.le_refl _) hq hl
      rw [bind_some' e]
      have hbelow : ∀ r, q + 1 ≤ r → r ≤ q1 → sub T P m (dec (cel sa r)) < sub T P m t := by
        intro r h10 h11
        have hk : ∀ d, q + 1 + d ≤ q1 → sub T P m (dec (cel sa (q + 1 + d))) = sub T P m (dec (cel sa (q + 1))) := by
          intro d
          induction d with
          | zero => intro _; rfl
          | succ d ihd =>
            intro hd
            rw [← ihd (by omega)]
            rcases hs.step (q + 1 + d) (by omega) (by omega) with ⟨h12, _⟩ | ⟨_, h12⟩
            · have := h8 (q + 1 + d + 1) (by omega) (by omega); omega
            · exact h12.symm
        have := hk (r - (q + 1)) (by omega)
        rw [show q + 1 + (r - (q + 1)) = r by omega] at this
        rw [this]; exact htell.gt hpos
      by_cases hend : last ≤ q1 + 1
      · simp only [if_pos hend]
        exact ⟨sa1, q1, r, rfl, by omega, h4, h5, h6, h7, hbelow, Or.inl ⟨by omega, hpos⟩⟩
      · simp only [if_neg hend]
        obtain ⟨sa2, q2, r2, e2, k1, k2, k3, k4, k5, k6, k7⟩ := ih sa1 q1 (by omega) (by omega) (by omega)
          (henv.frame h5 (fun r hr => h7 r (by omega)))
          ((hs.part (a' := q1 + 1) (b' := last) (by omega) (Nat.le_refl _) (fun _ => h9 (by omega))).congr (fun r hr _ => h7 r (by omega)))
          (fun r hr1 hr2 => by rw [h7 r (by omega)]; exact hg r (by omega) hr2)
        refine ⟨sa2, q2, r2, e2, by omega, k2, by omega, ?_, ?_, ?_, ?_⟩
        · intro r h10 h11
          rcases Nat.lt_or_ge r q1 with h12 | h12
          · rw [k5 r (Or.inl h12), h6 r h10 h12]
          · rw [k4 r h12 h11, h7 _ (by omega)]
        · intro r hr
          rw [k5 r (by omega), h7 r (by omega)]
        · intro r h10 h11
          rcases Nat.lt_or_ge q1 r with h12 | h12
          · have := k6 r (by omega) h11
            rwa [h7 r (by omega)] at this
          · exact hbelow r h10 h12
        · rw [h7 (q2 + 1) (by omega)] at k7; exact k7
    · rw [if_neg hpos]
      refine ⟨sa, q, r, rfl, Nat.le_refl _, by omega, rfl, fun r h1 h2 => by omega, fun _ _ => rfl, fun r h1 h2 => by omega, Or.inr ⟨hq, h0, ?_⟩⟩
      rcases Int.lt_or_eq_of_le (by omega : r ≤ 0) with h | h
      · exact Or.inl ⟨h, htell.lt h⟩
      · exact Or.inr ⟨h, htell.eq h⟩

theorem insOne_spec {W : List Nat} (last : Nat) (hpa : last ≤ pa) (sa : List Int) (i : Nat) (hi : i + 1 < last) (hl : last ≤ sa.length)
    (henv : Env T P m pa sa) (hs : Srt (sub T P m) (i + 1) last (cel sa)) (hg : ∀ r, i ≤ r → r < last → Good T P m W (dec (cel sa r)))
    (h0 : 0 ≤ cel sa i) :
    ∃ sa', insOne T pa W.length last sa i = some sa' ∧ Res i last sa sa' ∧ Srt (sub T P m) i last (cel sa') := by
  unfold insOne
  rw [bind_some' (get_cel (by omega))]
  obtain ⟨sa1, q, r, e, h1, h2, h3, h4, h5, h6, h7⟩ := insLoop_spec (W := W) last hpa (dec (cel sa i)) (hg i (Nat.le_refl _) (by omega)) _ sa i
    (Nat.le_refl _) hi hl henv hs (fun r hr1 hr2 => hg r (by omega) hr2)
  rw [← nat_of h0] at e
  rw [bind_some' e]
  -- the cell behind the hole
  have hstep2 : ∃ sa2, (if r = 0 then flip sa1 (q + 1) else some sa1) = some sa2 ∧ sa2.length = sa.length ∧
      (∀ x, x ≠ q + 1 → cel sa2 x = cel sa1 x) ∧ dec (cel sa2 (q + 1)) = dec (cel sa1 (q + 1)) ∧
      (q + 1 < last → (0 ≤ cel sa2 (q + 1) ∧ sub T P m (dec (cel sa i)) < sub T P m (dec (cel sa (q + 1)))) ∨
        (cel sa2 (q + 1) < 0 ∧ sub T P m (dec (cel sa i)) = sub T P m (dec (cel sa (q + 1))))) := by
    by_cases hr : r = 0
    · have hq : q + 1 < last := by rcases h7 with h | h <;> omega
      refine ⟨_, by rw [if_pos hr, flip_spec (by omega)], by rw [List.length_set]; exact h3, fun x hx => cel_set_ne _ hx, ?_, fun _ => ?_⟩
      · rw [cel_set_self (by omega), dec_inv]
      · rw [cel_set_self (by omega), h5 (q + 1) (by omega)]
        rcases h7 with h | ⟨_, h8, h | h⟩
        · omega
        · omega
        · exact Or.inr ⟨by rw [inv_neg_iff]; exact h8, h.2⟩
    · refine ⟨sa1, by rw [if_neg hr], h3, fun _ _ => rfl, rfl, fun hq => ?_⟩
      rw [h5 (q + 1) (by omega)]
      rcases h7 with h | ⟨_, h8, h | h⟩
      · omega
      · exact Or.inl ⟨h8, h.2⟩
      · omega
  obtain ⟨sa2, e2, k1, k2, k3, k4⟩ := hstep2
  simp only
  rw [bind_some' e2, put_spec (by omega)]
  -- the result
  have hcel : ∀ x, cel (sa2.set q (cel sa i)) x = if x = q then cel sa i else cel sa2 x := fun x => cel_set (by omega) _ x
  have hlow : ∀ x, i ≤ x → x < q → cel (sa2.set q (cel sa i)) x = cel sa (x + 1) := by
    intro x hx1 hx2
    rw [hcel, if_neg (by omega), k2 x (by omega), h4 x hx1 hx2]
  have hhigh : ∀ x, q + 1 < x → cel (sa2.set q (cel sa i)) x = cel sa x := by
    intro x hx
    rw [hcel, if_neg (by omega), k2 x (by omega), h5 x (by omega)]
  have hnext : cel (sa2.set q (cel sa i)) (q + 1) = cel sa2 (q + 1) := by rw [hcel, if_neg (by omega)]
  have hnextd : dec (cel sa2 (q + 1)) = dec (cel sa (q + 1)) := by rw [k3, h5 (q + 1) (by omega)]
  have hq : cel (sa2.set q (cel sa i)) q = cel sa i := by rw [hcel, if_pos rfl]
  refine ⟨_, rfl, ⟨by rw [List.length_set, k1], ?_, ?_⟩, ?_⟩
  · intro x hx
    rw [hcel, if_neg (by omega)]
    by_cases hx2 : x = q + 1
    · subst hx2
      rcases h7 with h | h
      · by_cases hr : r = 0
        · omega
        · rw [if_neg hr] at e2
          have : sa1 = sa2 := by simpa using e2
          rw [← this, h5 _ (by omega)]
      · omega
    · rw [k2 x hx2, h5 x (by omega)]
  · intro v
    rw [occ_split _ (c := q + 1) (by omega : i ≤ q + 1) (by omega), occ_split (cel (sa2.set q (cel sa i))) (c := q + 1) (by omega : i ≤ q + 1) (by omega)]
    congr 1
    · rw [occ_succ (cel (sa2.set q (cel sa i))) (by omega : i ≤ q), occ_first (cel sa) (by omega : i < q + 1),
        occ_shift (f := cel sa) (g := cel (sa2.set q (cel sa i))) 1 (fun r hr1 hr2 => by rw [hlow r hr1 hr2]), hq]
      omega
    · refine (occ_congr (fun x hx1 hx2 => ?_) v)
      by_cases hx : x = q + 1
      · rw [hx, hnext, hnextd]
      · rw [hhigh x (by omega)]
  · refine ⟨fun _ => ?_, fun x hx1 hx2 => ?_⟩
    · rcases Nat.lt_or_ge i q with h | h
      · rw [hlow i (Nat.le_refl _) h]; exact hs.first hi
      · have : i = q := by omega
        subst this; rw [hq]; exact h0
    · rcases Nat.lt_trichotomy (x + 1) q with h | h | h
      · rw [hlow x hx1 (by omega), hlow (x + 1) (by omega) h]
        exact hs.step (x + 1) (by omega) (by omega)
      · rw [hlow x hx1 (by omega), h, hq]
        exact Or.inl ⟨h0, h6 q (by omega) (Nat.le_refl _)⟩
      · rcases Nat.lt_or_ge x (q + 1) with h' | h'
        · have : x = q := by omega
          subst this
          rw [hq, hnext, hnextd]
          exact k4 hx2
        · rw [hhigh (x + 1) (by omega)]
          by_cases hx : x = q + 1
          · subst hx
            rw [hnext, hnextd]; exact hs.step (q + 1) (by omega) hx2
          · rw [hhigh x (by omega)]; exact hs.step x (by omega) hx2

/-- `ss_insertionsort` sorts a group of substrings that start with `W`. -/
theorem insertionsort_spec {W : List Nat} {sa : List Int} {first last : Nat} (henv : Env T P m pa sa) (hpa : last ≤ pa) (hl : last ≤ sa.length)
    (hfl : first < last)
    (h0 : ∀ r, first ≤ r → r < last → 0 ≤ cel sa r) (hg : ∀ r, first ≤ r → r < last → Good T P m W (dec (cel sa r))) :
    ∃ sa', insertionsort T pa sa first last W.length = some sa' ∧ Res first last sa sa' ∧ Srt (sub T P m) first last (cel sa') := by
  unfold insertionsort
  obtain ⟨sa', e, h1, h2⟩ := loopDown_spec (f := fun sa i => insOne T pa W.length last sa (first + i)) (last - first - 1)
    (fun t s => Res (last - 1 - t) last sa s ∧ Srt (sub T P m) (last - 1 - t) last (cel s)) (last - first - 1) (Nat.le_refl _) sa (by
      intro t s ht ⟨hr, hs⟩
      have e : first + (last - first - 1 - 1 - t) = last - 1 - (t + 1) := by omega
      show ∃ s', insOne T pa W.length last s (first + (last - first - 1 - 1 - t)) = some s' ∧ _
      rw [e]
      have hr' : Res first last sa s := hr.extend (by omega) (Nat.le_refl _) (by omega)
      have e2 : last - 1 - t = last - 1 - (t + 1) + 1 := by omega
      obtain ⟨s', e3, h3, h4⟩ := insOne_spec (W := W) last hpa s (last - 1 - (t + 1)) (by omega) (by rw [hr.len]; exact hl) (henv.res hr hpa)
        (by rw [← e2]; exact hs) (fun r hr1 hr2 => hr'.all hg r (by omega) hr2)
        (by rw [hr.frame _ (by omega)]; exact h0 _ (by omega) (by omega))
      exact ⟨s', e3, (hr.extend (by omega) (Nat.le_refl _) (by omega)).trans h3, h4⟩)
    ⟨by rw [show last - first - 1 - (last - first - 1) = 0 by omega]; exact Res.refl _ _ _,
      by
        rw [show last - first - 1 - (last - first - 1) = 0 by omega]
        have := Srt.one (K := sub T P m) (a := last - 1) (f := cel sa) (h0 _ (by omega) (by omega))
        rw [show last - 1 + 1 = last by omega] at this
        exact this⟩
  refine ⟨sa', e, ?_, ?_⟩
  · rw [show last - 1 - (last - first - 1) = first by omega] at h1; exact h1
  · rw [show last - 1 - (last - first - 1) = first by omega] at h2; exact h2

end Bwtc.Ss
