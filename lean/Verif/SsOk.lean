import Verif.SsMain
import Verif.DivsufSort

/-!
# `sssort` does what it is called for
-/

set_option autoImplicit false

namespace Bwtc.Ss
open Sais (put inv put_spec inv_inv bind_some')
open Divsuf (getI dec sub SsCall SsOk Sorted before same)
open Suffix

variable {T : List Nat} {P : Nat → Nat} {m pa : Nat} {W : List Nat}

/-- The comparison with the last substring. -/
theorem Env.compareLast {sa : List Int} (h : Env T P m pa sa) {j : Nat} {rest : List Nat} (hm : 0 < m) (hL : sub T P m (m - 1) = W ++ rest) (hj : Good T P m W j) :
    ∃ r, compareLast T sa pa (P (m - 1)) (j : Int) W.length = some r ∧ Tells r (sub T P m (m - 1)) (sub T P m j) := by
  obtain ⟨hj, y, B, hB⟩ := hj
  have hr := h.room (m - 1) (by omega)
  unfold Ss.compareLast
  rw [bind_some' (h.paAt (by omega)), show ((j : Int) + 1) = ((j + 1 : Nat) : Int) by omega, bind_some' (h.paAt hj), if_neg (by omega)]
  obtain ⟨r, h1, h2⟩ := compareAt_spec T _ (W.length + P (m - 1)) (T.length - 2 + 2) (W.length + P j) (P (j + 1) + 2) (Nat.le_refl _) (by omega) (h.room _ hj)
  refine ⟨r, h1, ?_⟩
  rw [sub_rest hj hB] at h2
  have e1 : (T.drop (W.length + P (m - 1))).take (T.length - 2 + 2 - (W.length + P (m - 1))) = rest := by
    have e2 : T.drop (P (m - 1)) = W ++ rest := by rw [← hL]; exact (if_neg (by omega)).symm
    have e3 : rest = (T.drop (P (m - 1))).drop W.length := by rw [e2]; simp
    rw [List.drop_drop, Nat.add_comm] at e3
    rw [e3, List.take_of_length_le]
    rw [List.length_drop]; omega
  rw [e1] at h2
  rw [hL, hB]
  exact h2.append W

theorem insertLast_spec {last : Nat} {rest : List Nat} (hpa : last ≤ pa) (hm : 0 < m) (hL : sub T P m (m - 1) = W ++ rest) (i : Int) : ∀ (n : Nat) (sa : List Int) (q : Nat), last - q ≤ n → q < last → last ≤ sa.length →
    Env T P m pa sa → Steps (sub T P m) (q + 1) last (cel sa) → (∀ r, q + 1 ≤ r → r < last → Good T P m W (dec (cel sa r))) →
    (q + 1 < last → cel sa (q + 1) < 0 → sub T P m (dec (cel sa (q + 1))) < sub T P m (m - 1)) →
    ∃ sa' q', insertLast T pa W.length last (P (m - 1)) i sa q = some sa' ∧ q ≤ q' ∧ q' < last ∧ sa'.length = sa.length ∧ (∀ r, q ≤ r → r < q' → cel sa' r = cel sa (r + 1)) ∧ cel sa' q' = i ∧
      (∀ r, r < q ∨ q' < r → cel sa' r = cel sa r) ∧ (∀ r, q + 1 ≤ r → r ≤ q' → sub T P m (dec (cel sa r)) < sub T P m (m - 1)) ∧
      (q' + 1 < last → 0 ≤ cel sa (q' + 1) ∧ sub T P m (m - 1) ≤ sub T P m (dec (cel sa (q' + 1)))) := by
  intro n
  induction n with
  | zero => intro sa q h1 h2; omega
  | succ n ih =>
    intro sa q h1 h2 h3 hE hS hg hk
    rw [insertLast]
    have stop : (q + 1 < last → 0 ≤ cel sa (q + 1) ∧ sub T P m (m - 1) ≤ sub T P m (dec (cel sa (q + 1)))) →
        ∃ sa' q', put sa q i = some sa' ∧ q ≤ q' ∧ q' < last ∧ sa'.length = sa.length ∧ (∀ r, q ≤ r → r < q' → cel sa' r = cel sa (r + 1)) ∧ cel sa' q' = i ∧
          (∀ r, r < q ∨ q' < r → cel sa' r = cel sa r) ∧ (∀ r, q + 1 ≤ r → r ≤ q' → sub T P m (dec (cel sa r)) < sub T P m (m - 1)) ∧
          (q' + 1 < last → 0 ≤ cel sa (q' + 1) ∧ sub T P m (m - 1) ≤ sub T P m (dec (cel sa (q' + 1)))) := by
      intro h4
      exact ⟨_, q, put_spec (by omega) _, Nat.le_refl _, h2, by simp, fun r _ _ => by omega, cel_set_self (by omega) _, fun r hr => cel_set_ne _ (by omega), fun r _ _ => by omega, h4⟩
    by_cases h4 : q + 1 < last
    · rw [if_pos h4, bind_some' (get_cel (by omega))]
      have go : sub T P m (dec (cel sa (q + 1))) < sub T P m (m - 1) →
          ∃ sa' q', (do let sa ← put sa q (cel sa (q + 1)); insertLast T pa W.length last (P (m - 1)) i sa (q + 1)) = some sa' ∧ q ≤ q' ∧ q' < last ∧ sa'.length = sa.length ∧ (∀ r, q ≤ r → r < q' → cel sa' r = cel sa (r + 1)) ∧ cel sa' q' = i ∧
            (∀ r, r < q ∨ q' < r → cel sa' r = cel sa r) ∧ (∀ r, q + 1 ≤ r → r ≤ q' → sub T P m (dec (cel sa r)) < sub T P m (m - 1)) ∧
            (q' + 1 < last → 0 ≤ cel sa (q' + 1) ∧ sub T P m (m - 1) ≤ sub T P m (dec (cel sa (q' + 1)))) := by
        intro hlt
        rw [bind_some' (put_spec (by omega) _)]
        have e1 : ∀ r, q < r → cel (sa.set q (cel sa (q + 1))) r = cel sa r := fun r hr => cel_set_ne _ (by omega)
        obtain ⟨sa', q', e, k1, k2, k3, k4, k5, k6, k7, k8⟩ := ih (sa.set q (cel sa (q + 1))) (q + 1) (by omega) h4 (by simpa using h3) (hE.frame (by simp) (fun r hr => e1 r (by omega)))
          (fun r h5 h6 => by rw [e1 r (by omega), e1 (r + 1) (by omega)]; exact hS r (by omega) h6)
          (fun r h5 h6 => by rw [e1 r (by omega)]; exact hg r (by omega) h6)
          (fun h5 h6 => by
            rw [e1 _ (by omega)] at h6 ⊢
            rcases hS (q + 1) (Nat.le_refl _) h5 with h7 | h7
            · omega
            · rw [← h7.2]; exact hlt)
        refine ⟨sa', q', e, by omega, k2, by simpa using k3, ?_, k5, ?_, ?_, ?_⟩
        · intro r h5 h6
          by_cases h7 : r = q
          · rw [h7, k6 q (by omega), cel_set_self (by omega)]
          · rw [k4 r (by omega) h6, e1 _ (by omega)]
        · intro r hr
          rw [k6 r (by omega), cel_set_ne _ (by omega)]
        · intro r h5 h6
          by_cases h7 : r = q + 1
          · rw [h7]; exact hlt
          · have := k7 r (by omega) h6
            rwa [e1 r (by omega)] at this
        · intro h5
          have := k8 h5
          rwa [e1 _ (by omega)] at this
      by_cases hx : cel sa (q + 1) < 0
      · rw [if_pos hx]
        exact go (hk h4 hx)
      · rw [if_neg hx]
        obtain ⟨r, er, hr⟩ := hE.compareLast (j := dec (cel sa (q + 1))) hm hL (hg _ (Nat.le_refl _) h4)
        rw [← nat_of (by omega)] at er
        have er' : (Ss.compareLast T sa pa (P (m - 1)) (cel sa (q + 1)) W.length).map (fun r => decide (0 < r)) = some (decide (0 < r)) := by rw [er]; rfl
        rw [bind_some' er']
        by_cases hr0 : 0 < r
        · rw [if_pos (by simpa using hr0)]
          exact go (hr.gt hr0)
        · rw [if_neg (by simpa using hr0)]
          refine stop (fun _ => ⟨by omega, ?_⟩)
          rcases Int.lt_or_le r 0 with h5 | h5
          · exact le_of (Or.inl (hr.lt h5))
          · exact le_of (Or.inr (hr.eq (by omega)))
    · rw [if_neg h4]
      exact stop (fun h => absurd h h4)

theorem same_of {i j : Nat} (hi : i + 1 < m) (hj : j + 1 < m) (h : sub T P m i = sub T P m j) : same T P m i j := ⟨h, by omega, by omega⟩

/-- `sssort` does what it is called for. -/
theorem sssort_ok : SsOk sssort := by
  intro T P m sa pa first last buf bufsize lastsuffix h
  obtain ⟨ap1, ap2⟩ := h.apart
  have hmore := h.more
  obtain ⟨i0, hi0, c0⟩ := h.cells first (Nat.le_refl _) (by omega)
  have hlen : pa < sa.length := by
    have := h.starts 0 (by omega)
    rw [Nat.add_zero] at this
    exact (List.getElem?_eq_some_iff.mp this).1
  have hE : Env T P m pa sa := ⟨h.up, h.room, h.star, fun i hi => ⟨(List.getElem?_eq_some_iff.mp (h.starts i hi)).1, cel_of (h.starts i hi)⟩⟩
  have hlW : ((T.drop (P i0)).take 2).length = 2 := by
    rw [List.length_take, List.length_drop]; have := h.room i0 hi0; omega
  generalize hWd : (T.drop (P i0)).take 2 = W at hlW
  have hWne : W ≠ [] := by intro h0; rw [h0] at hlW; simp at hlW
  have hc : ∀ r, first ≤ r → r < last → ∃ i, i < m ∧ cel sa r = (i : Int) ∧ (T.drop (P i)).take 2 = W := by
    intro r h1 h2
    obtain ⟨i, hi, ci⟩ := h.cells r h1 h2
    exact ⟨i, hi, cel_of ci, by rw [h.depth r first i i0 h1 h2 (Nat.le_refl _) (by omega) ci c0, hWd]⟩
  have good_of : ∀ i, i + 1 < m → (T.drop (P i)).take 2 = W → Good T P m W i := by
    intro i hi hW
    refine ⟨hi, ?_⟩
    have hu := h.up i hi
    have hr := h.room (i + 1) hi
    have e : sub T P m i = W ++ (sub T P m i).drop 2 := by
      conv => lhs; rw [← List.take_append_drop 2 (sub T P m i)]
      rw [sub_eq hi, List.take_take, show min 2 (P (i + 1) + 2 - P i) = 2 by omega, hW]
    have hl := hE.len hi
    cases hd : (sub T P m i).drop 2 with
    | nil =>
      have : ((sub T P m i).drop 2).length = 0 := by rw [hd]; rfl
      rw [List.length_drop] at this
      omega
    | cons x rest => exact ⟨x, rest, by rw [← hd]; exact e⟩
  have hpos : ∀ r, first ≤ r → r < last → 0 ≤ cel sa r := fun r h1 h2 => by
    obtain ⟨i, _, e, _⟩ := hc r h1 h2
    omega
  have hgood : ∀ r, first ≤ r → r < last → (r = first → lastsuffix = false) → Good T P m W (dec (cel sa r)) := by
    intro r h1 h2 h3
    obtain ⟨i, hi, e, hW⟩ := hc r h1 h2
    rw [e, dec_nat']
    refine good_of i ?_ hW
    rcases Nat.lt_or_ge (i + 1) m with h4 | h4
    · exact h4
    · exfalso
      have e' : sa[r]? = some ((m - 1 : Nat) : Int) := by rw [get_cel (by omega), e, show m - 1 = i by omega]
      by_cases h5 : r = first
      · rw [h5] at e'
        have := h.flag.2 e'
        rw [h3 h5] at this; simp at this
      · exact h.rest r (by omega) h2 e'
  have memb : ∀ sa' : List Int, sa'.length = sa.length → Perm first last (cel sa) (cel sa') →
      (∀ i : Nat, (∃ r, first ≤ r ∧ r < last ∧ sa[r]? = some (i : Int)) ↔ ∃ r v, first ≤ r ∧ r < last ∧ sa'[r]? = some v ∧ dec v = i) := by
    intro sa' hl hp i
    constructor
    · rintro ⟨r, h1, h2, h3⟩
      obtain ⟨y, y1, y2, y3⟩ := hp.ex h1 h2
      rw [cel_of h3, dec_nat'] at y3
      exact ⟨y, _, y1, y2, get_cel (by omega), y3⟩
    · rintro ⟨r, v, h1, h2, h3, h4⟩
      obtain ⟨y, y1, y2, y3⟩ := hp.symm.ex h1 h2
      rw [cel_of h3, h4] at y3
      refine ⟨y, y1, y2, ?_⟩
      rw [get_cel (by omega), nat_of (hpos y y1 y2), y3]
  have get_of : ∀ sa' : List Int, sa'.length = sa.length → ∀ r, cel sa' r = cel sa r → sa'[r]? = sa[r]? := by
    intro sa' hl r e
    by_cases hr : r < sa.length
    · rw [get_cel hr, get_cel (by omega), e]
    · rw [List.getElem?_eq_none (by omega), List.getElem?_eq_none (by omega)]
  have hsz := h.size
  unfold sssort
  by_cases hls : lastsuffix = true
  · rw [if_pos hls]
    obtain ⟨s1, e1, o1, S1⟩ := sortRange_spec (W := W) (first := first + 1) (last := last) (buf := buf) (n := bufsize) hWne hE (by omega) (by omega) ap1 ap2 (by omega)
      (fun r h1 h2 => hpos r (by omega) h2) (fun r h1 h2 => hgood r (by omega) h2 (fun h3 => by omega))
    rw [hlW] at e1
    have hi : cel sa first = ((m - 1 : Nat) : Int) := cel_of (h.flag.1 hls)
    have E1 := o1.env hE (by omega) ap2
    have l1 := o1.len
    have g1 : ∀ r, first + 1 ≤ r → r < last → Good T P m W (dec (cel s1 r)) := o1.perm.all (fun r h1 h2 => hgood r (by omega) h2 (fun h3 => by omega))
    have hi1 : cel s1 first = ((m - 1 : Nat) : Int) := by rw [o1.off first (by omega) (by omega)]; exact hi
    have hp : paAt s1 pa ((m - 1 : Nat) : Int) = some (P (m - 1)) := E1.paAt (by omega)
    have hL : sub T P m (m - 1) = W ++ (T.drop (P (m - 1))).drop 2 := by
      obtain ⟨i, hi', e, hW⟩ := hc first (Nat.le_refl _) (by omega)
      rw [hi] at e
      have e : i = m - 1 := by omega
      rw [← hW, e, List.take_append_drop]
      exact if_neg (by omega)
    obtain ⟨s2, q, e2, q1, q2, q3, q4, q5, q6, q7, q8⟩ := insertLast_spec (W := W) (P := P) (pa := pa) (last := last) (by omega) (by omega) hL ((m - 1 : Nat) : Int) _ s1 first (Nat.le_refl _) (by omega) (by omega) E1
      S1.step g1 (fun h1 h2 => by have := S1.first h1; omega)
    rw [hlW] at e2
    have hf1 : first < s1.length := by omega
    refine ⟨s2, ?_, by omega, ?_, memb s2 (by omega) ?_, ?_, ?_⟩
    · rw [bind_some' e1, bind_some' (get_cel hf1), hi1, bind_some' hp, e2]
    · intro r h1 h2
      exact get_of s2 (by omega) r (by rw [q6 r (by omega), o1.off r (by omega) h2])
    · have p1 : Perm first last (cel sa) (cel s1) := o1.perm.extend (by omega) (Nat.le_refl _) (by omega) (fun r h1 h2 h3 => by rw [o1.off r h3 (by omega)])
      refine p1.trans ?_
      intro v
      have a1 := occ_shift (f := cel s1) (g := cel s2) (a := first) (b := q) 1 (fun r h1 h2 => by rw [q4 r h1 h2]) v
      rw [occ_first (cel s1) (show first < last by omega), occ_split (cel s1) (a := first + 1) (c := q + 1) (by omega) (show q + 1 ≤ last by omega), occ_split (cel s2) (a := first) (c := q) q1 (show q ≤ last by omega),
        occ_first (cel s2) q2, a1, q5, hi1, occ_congr (f := cel s2) (g := cel s1) (a := q + 1) (b := last) (fun r h1 h2 => by rw [q6 r (by omega)])]
      omega
    · intro v h1 h2
      rw [← cel_of h2]
      by_cases h3 : first = q
      · rw [h3, q5]; omega
      · rw [q4 first (Nat.le_refl _) (by omega)]; exact S1.first (by omega)
    · intro r v w h1 h2 hv hw
      rw [← cel_of hv, ← cel_of hw]
      by_cases h3 : r + 1 < q
      · rw [q4 r h1 (by omega), q4 (r + 1) (by omega) h3]
        rcases S1.step (r + 1) (by omega) (by omega) with h4 | h4
        · exact Or.inl ⟨h4.1, Or.inl h4.2⟩
        · exact Or.inr ⟨h4.1, same_of (g1 _ (by omega) (by omega)).1 (g1 _ (by omega) (by omega)).1 h4.2⟩
      · by_cases h4 : r + 1 = q
        · rw [q4 r h1 (by omega), h4, q5, dec_nat']
          exact Or.inl ⟨by omega, Or.inl (q7 q (by omega) (Nat.le_refl _))⟩
        · by_cases h5 : r = q
          · obtain ⟨h6, h7⟩ := q8 (by omega)
            rw [h5, q5, q6 (q + 1) (by omega), dec_nat']
            refine Or.inl ⟨h6, ?_⟩
            have hg := (g1 (q + 1) (by omega) (by omega)).1
            rcases List.le_iff_lt_or_eq.mp h7 with h8 | h8
            · exact Or.inl h8
            · exact Or.inr ⟨h8, by omega, by omega⟩
          · rw [q6 r (by omega), q6 (r + 1) (by omega)]
            rcases S1.step r (by omega) h2 with h6 | h6
            · exact Or.inl ⟨h6.1, Or.inl h6.2⟩
            · exact Or.inr ⟨h6.1, same_of (g1 _ (by omega) (by omega)).1 (g1 _ (by omega) (by omega)).1 h6.2⟩
  · rw [if_neg hls]
    have hls : lastsuffix = false := by simpa using hls
    obtain ⟨s1, e1, o1, S1⟩ := sortRange_spec (W := W) (first := first) (last := last) (buf := buf) (n := bufsize) hWne hE (by omega) (by omega) ap1 ap2 (by omega)
      hpos (fun r h1 h2 => hgood r h1 h2 (fun _ => hls))
    rw [hlW] at e1
    have g1 : ∀ r, first ≤ r → r < last → Good T P m W (dec (cel s1 r)) := o1.perm.all (fun r h1 h2 => hgood r h1 h2 (fun _ => hls))
    refine ⟨s1, e1, o1.len, fun r h1 h2 => get_of s1 o1.len r (o1.off r h1 h2), memb s1 o1.len o1.perm, ?_, ?_⟩
    · intro v h1 h2
      rw [← cel_of h2]; exact S1.first h1
    · intro r v w h1 h2 hv hw
      rw [← cel_of hv, ← cel_of hw]
      rcases S1.step r h1 h2 with h6 | h6
      · exact Or.inl ⟨h6.1, Or.inl h6.2⟩
      · exact Or.inr ⟨h6.1, same_of (g1 _ (by omega) (by omega)).1 (g1 _ (by omega) h2).1 h6.2⟩

end Bwtc.Ss
