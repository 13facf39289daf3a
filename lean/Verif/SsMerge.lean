import Verif.SsSplit

/-!
# `ss_swapmerge` merges
-/

set_option autoImplicit false

namespace Bwtc.Ss
open Sais (put inv put_spec inv_inv bind_some')
open Divsuf (getI dec sub)
open Suffix

variable {T : List Nat} {P : Nat → Nat} {m pa : Nat} {W : List Nat} {F E buf N : Nat} {J : Int → Prop}

/-- What the loop does after a frame: it takes the next frame off the stack. -/
def afterM (T : List Nat) (pa depth buf bufsize : Nat) (sa : List Int) (st : List MFrame) : Option (List Int) :=
  match pop st with
  | none => some sa
  | some (st, f) => swapLoop T pa depth buf bufsize sa st f

theorem swapLoop_of {sa sa' : List Int} {st st' : List MFrame} {f g : MFrame} {depth : Nat} (h : swapStep T pa depth buf N sa st f = some (sa', some (st', g))) :
    swapLoop T pa depth buf N sa st f = swapLoop T pa depth buf N sa' st' g := by
  rw [swapLoop, bind_some' h]

theorem swapLoop_done {sa sa' : List Int} {st : List MFrame} {f : MFrame} {depth : Nat} (h : swapStep T pa depth buf N sa st f = some (sa', pop st)) :
    swapLoop T pa depth buf N sa st f = afterM T pa depth buf N sa' st := by
  rw [swapLoop, bind_some' h]
  unfold afterM
  cases pop st with
  | none => rfl
  | some p => rfl

theorem afterM_cons (depth : Nat) (sa : List Int) (st : List MFrame) (f : MFrame) : afterM T pa depth buf N sa (f :: st) = swapLoop T pa depth buf N sa st f := rfl

theorem swapLoop_spec (hb : E ≤ buf) (hN : buf + N ≤ pa) : ∀ (n : Nat) (sa : List Int) (st : List MFrame) (f : MFrame), f.last - f.first ≤ n → Pre T P m pa W F E f sa → st.length ≤ 32 →
    f.last - f.first < 2 ^ (32 - st.length) → ∃ sa', swapLoop T pa W.length buf N sa st f = afterM T pa W.length buf N sa' st ∧ Post (sub T P m) J buf N f sa sa' := by
  intro n
  induction n with
  | zero =>
    intro sa st f h1 hP _ _
    have := hP.ne
    omega
  | succ n ih =>
    intro sa st ⟨first, middle, last, c⟩ h1 hP hst hsz
    have h1 : last - first ≤ n + 1 := h1
    have hsz : last - first < 2 ^ (32 - st.length) := hsz
    have a1 : F ≤ first := hP.lo
    have a2 : first ≤ middle := hP.le1
    have a3 : middle ≤ last := hP.le2
    have a4 : last ≤ E := hP.hi
    have a5 := hP.size
    by_cases hd : last - middle ≤ N ∨ middle - first ≤ N
    · obtain ⟨sa2, e2, H2⟩ := swapDirect_spec (J := J) hb hN hP hd
      obtain ⟨sa', e', H'⟩ := swapDone_spec st hb hN hP H2
      refine ⟨sa', swapLoop_done ?_, H'⟩
      unfold swapStep
      rw [if_pos hd, bind_some' e2]; exact e'
    · have hg : ∀ r, first ≤ r → r < last → Good T P m W (dec (cel sa r)) := fun r h2 h3 => hP.good r (by omega) (by omega)
      obtain ⟨d, ed, d1, d2, d3⟩ := swapSearch_spec (W := W) (D := min (middle - first) (last - middle)) hP.env (show last ≤ sa.length by omega) (show first + _ ≤ middle by omega) (show middle + _ ≤ last by omega) hg
        _ 0 (min (middle - first) (last - middle)) (Nat.le_refl _) (by omega) (fun h => by omega) (fun h => by omega)
      have hA : Srt (sub T P m) first middle (cel sa) := by
        refine ⟨fun _ => ?_, hP.left⟩
        by_cases h : 0 ≤ cel sa first
        · exact h
        · have h3 : middle = last := (hP.neg (show cel sa first < 0 by omega)).1
          omega
      have step : swapStep T pa W.length buf N sa st ⟨first, middle, last, c⟩ = (if 0 < d then do
          let (sa, st, g) ← swapSplit sa st ⟨first, middle, last, c⟩ d
          return (sa, some (st, g))
        else do
          let e ← eqPrev T pa W.length sa middle
          let sa ← (if e then flip sa middle else some sa : Option _)
          swapDone T pa W.length sa st ⟨first, middle, last, c⟩) := by
        unfold swapStep
        rw [if_neg hd]
        exact bind_some' ed
      by_cases hd0 : 0 < d
      · obtain ⟨sb, sc, l, r, nx, e1, e2, hR, S⟩ := swapMarks_spec hP (by omega) hd0 (by omega) (by omega) (d2 hd0) (fun h2 h3 => d3 (by omega))
        have b1 := S.fl
        have b2 := S.lr
        have b3 := S.rl
        have b4 := S.lmid
        have b5 := S.midr
        have h0 : 0 ≤ cel sa first := hA.first (by omega)
        have hst32 : st.length < 32 := by
          rcases Nat.lt_or_ge st.length 32 with h | h
          · exact h
          · rw [show 32 - st.length = 0 by omega] at hsz
            have : (2 : Nat) ^ 0 = 1 := rfl
            omega
        have hpow : 2 ^ (32 - st.length) = 2 ^ (32 - (st.length + 1)) * 2 := by
          rw [show 32 - st.length = (32 - (st.length + 1)) + 1 by omega, Nat.pow_succ]
        have split : swapSplit sa st ⟨first, middle, last, c⟩ d = (if l - first ≤ last - r then
              some (sc, ⟨r, middle + d, last, ⟨nx.one, nx.two, c.four⟩⟩ :: st, ⟨first, middle - d, l, ⟨c.one, c.two, nx.four⟩⟩)
            else
              let next : Flags := if nx.two ∧ r = middle then ⟨nx.one, !nx.two, !nx.four⟩ else nx
              some (sc, ⟨first, middle - d, l, ⟨c.one, c.two, next.four⟩⟩ :: st, ⟨r, middle + d, last, ⟨next.one, next.two, c.four⟩⟩)) := by
          unfold swapSplit
          rw [if_neg (show ¬ middle < d by omega)]
          refine (bind_some' e1).trans ?_
          refine (bind_some' e2).trans ?_
          have hp : ∀ g, mpush st g = some (g :: st) := fun g => by unfold mpush; rw [if_pos hst32]
          show (if l - first ≤ last - r then _ else _) = _
          by_cases hc : l - first ≤ last - r
          · rw [if_pos hc, if_pos hc]
            exact bind_some' (hp _)
          · rw [if_neg hc, if_neg hc]
            exact bind_some' (hp _)
        by_cases hc : l - first ≤ last - r
        · rw [if_pos hc] at split
          have step' : swapStep T pa W.length buf N sa st ⟨first, middle, last, c⟩ =
              some (sc, some (⟨r, middle + d, last, ⟨nx.one, nx.two, c.four⟩⟩ :: st, ⟨first, middle - d, l, ⟨c.one, c.two, nx.four⟩⟩)) := by
            rw [step, if_pos hd0]; exact bind_some' split
          obtain ⟨s2, u1, u2⟩ := ih sc (⟨r, middle + d, last, ⟨nx.one, nx.two, c.four⟩⟩ :: st) ⟨first, middle - d, l, ⟨c.one, c.two, nx.four⟩⟩ (show l - first ≤ n by omega) S.preL
            (show st.length + 1 ≤ 32 by omega) (show l - first < 2 ^ (32 - (st.length + 1)) by omega)
          have preR := pre_right hb hN S.preL S.preR u2 b2 S.four
          obtain ⟨s3, v1, v2⟩ := ih s2 st ⟨r, middle + d, last, ⟨nx.one, nx.two, c.four⟩⟩ (show last - r ≤ n by omega) preR hst (show last - r < 2 ^ (32 - st.length) by omega)
          refine ⟨s3, ?_, (both_left hb S.preL S.preR u2 v2 b2 S.four).post S.keys b1 b2 b3 (by omega) hR h0 S.head⟩
          rw [swapLoop_of step', u1, afterM_cons, v1]
        · rw [if_neg hc] at split
          by_cases hm : nx.two = true ∧ r = middle
          · obtain ⟨t1, t2, t3, t4⟩ := S.two hm.1
            have step' : swapStep T pa W.length buf N sa st ⟨first, middle, last, c⟩ =
                some (sc, some (⟨first, middle - d, l, ⟨c.one, c.two, true⟩⟩ :: st, ⟨r, middle + d, last, ⟨false, false, c.four⟩⟩)) := by
              rw [step, if_pos hd0]
              refine (bind_some' split).trans ?_
              simp only [if_pos hm]
              simp only [t1, hm.1, t2]
              rfl
            have hl : l = r := by omega
            have pr : Pre T P m pa W F E ⟨r, middle + d, last, ⟨false, false, c.four⟩⟩ sc :=
              ⟨S.preR.lo, S.preR.le1, S.preR.le2, S.preR.ne, S.preR.hi, S.preR.env, S.preR.size, S.preR.good, S.preR.left, S.preR.right, fun h => ⟨(S.preR.neg h).1, rfl, rfl⟩, fun h => by simp at h, S.preR.next⟩
            obtain ⟨s2, u1, u2⟩ := ih sc (⟨first, middle - d, l, ⟨c.one, c.two, true⟩⟩ :: st) ⟨r, middle + d, last, ⟨false, false, c.four⟩⟩ (show last - r ≤ n by omega) pr
              (show st.length + 1 ≤ 32 by omega) (show last - r < 2 ^ (32 - (st.length + 1)) by omega)
            have preL : Pre T P m pa W F E ⟨first, middle - d, l, ⟨c.one, c.two, true⟩⟩ s2 := pre_left hb hN S.preL pr u2 b2 (fun _ => ⟨by omega, by
              rw [hl]; exact (u2.head3 rfl rfl).1 t4⟩)
            obtain ⟨s3, v1, v2⟩ := ih s2 st ⟨first, middle - d, l, ⟨c.one, c.two, true⟩⟩ (show l - first ≤ n by omega) preL hst (show l - first < 2 ^ (32 - st.length) by omega)
            subst hl
            refine ⟨s3, ?_, (both_moved hb S.preL S.preR t1 hm.1 u2 v2).post S.keys b1 b2 b3 (by omega) hR h0 S.head⟩
            rw [swapLoop_of step', u1, afterM_cons, v1]
          · have step' : swapStep T pa W.length buf N sa st ⟨first, middle, last, c⟩ =
                some (sc, some (⟨first, middle - d, l, ⟨c.one, c.two, nx.four⟩⟩ :: st, ⟨r, middle + d, last, ⟨nx.one, nx.two, c.four⟩⟩)) := by
              rw [step, if_pos hd0]
              refine (bind_some' split).trans ?_
              simp only [if_neg hm]
              rfl
            obtain ⟨s2, u1, u2⟩ := ih sc (⟨first, middle - d, l, ⟨c.one, c.two, nx.four⟩⟩ :: st) ⟨r, middle + d, last, ⟨nx.one, nx.two, c.four⟩⟩ (show last - r ≤ n by omega) S.preR
              (show st.length + 1 ≤ 32 by omega) (show last - r < 2 ^ (32 - (st.length + 1)) by omega)
            have h2' : nx.two = true → l < r := fun h => by
              have := (S.two h).2.2.1
              have : r ≠ middle := fun h' => hm ⟨h, h'⟩
              omega
            have preL : Pre T P m pa W F E ⟨first, middle - d, l, ⟨c.one, c.two, nx.four⟩⟩ s2 := pre_left hb hN S.preL S.preR u2 b2 (fun h => by
              have h6 := S.four h
              refine ⟨by omega, ?_⟩
              rw [u2.off l (Or.inl h6) (Or.inl (by omega)) (fun _ => show l ≠ last by omega)]
              exact (S.preL.next h).2)
            obtain ⟨s3, v1, v2⟩ := ih s2 st ⟨first, middle - d, l, ⟨c.one, c.two, nx.four⟩⟩ (show l - first ≤ n by omega) preL hst (show l - first < 2 ^ (32 - st.length) by omega)
            refine ⟨s3, ?_, (both_right hb S.preL S.preR u2 v2 b2 S.four h2').post S.keys b1 b2 b3 (by omega) hR h0 S.head⟩
            rw [swapLoop_of step', u1, afterM_cons, v1]
      · have d0 : d = 0 := by omega
        subst d0
        have hle := d3 (by omega)
        rw [Nat.add_zero, Nat.sub_zero] at hle
        obtain ⟨e, s2, k1, k2, k3, k4, k5, k6⟩ := markIf_spec (W := W) (i := middle) hP.env (by omega) (by omega) (hg _ (by omega) (by omega)) (hg _ (by omega) (by omega)) (hP.right.first (show middle < last by omega))
        have hdec : ∀ j, dec (cel s2 j) = dec (cel sa j) := fun j => by
          by_cases hj : j = middle
          · rw [hj]; exact k5
          · rw [k4 j hj]
        have H2 : Half (sub T P m) J buf N ⟨first, middle, last, c⟩ sa s2 := by
          refine ⟨k3, ?_, Perm.congr (fun j _ _ => (hdec j).symm), ?_, ?_, Perm.congr (fun j _ _ => (hdec j).symm), ?_⟩
          · intro r (h2 : r < first ∨ last ≤ r) _
            exact k4 r (by omega)
          · intro r (h2 : first ≤ r) (h3 : r + 1 < last)
            by_cases hr : r + 1 = middle
            · have e1 : r = middle - 1 := by omega
              rw [hr, e1]
              refine k6.stp ?_
              rw [k5, k4 _ (by omega)]; exact hle
            · rw [k4 (r + 1) hr]
              refine stp_congr ?_ (hdec r)
              by_cases hr2 : r + 1 < middle
              · exact hP.left r h2 hr2
              · exact hP.right.step r (show middle ≤ r by omega) h3
          · rw [k4 _ (show first ≠ middle by omega)]
            exact ⟨fun h => h, fun _ => rfl⟩
          · intro hJ r h2 h3
            rw [k4 r (by omega)]; exact hJ r h2 h3
        obtain ⟨sa', e', H'⟩ := swapDone_spec st hb hN hP H2
        refine ⟨sa', swapLoop_done ?_, H'⟩
        rw [step, if_neg hd0]
        refine (bind_some' k1).trans ?_
        exact (bind_some' k2).trans e'

/-- `ss_swapmerge`. -/
theorem swapmerge_spec {sa : List Int} {first middle last : Nat} (hE : Env T P m pa sa) (hpa : pa ≤ sa.length) (h1 : first ≤ middle) (h2 : middle ≤ last) (h0 : first < last) (h3 : last ≤ buf)
    (h4 : buf + N ≤ pa) (hs : last - first < 2 ^ 32) (hA : Srt (sub T P m) first middle (cel sa)) (hC : Srt (sub T P m) middle last (cel sa))
    (hg : ∀ r, first ≤ r → r < last → Good T P m W (dec (cel sa r))) :
    ∃ sa', swapmerge T pa sa first middle last buf N W.length = some sa' ∧ Merged (sub T P m) J first last buf N sa sa' := by
  have hh : 0 ≤ cel sa first := by
    rcases Nat.lt_or_ge first middle with h | h
    · exact hA.first h
    · have : first = middle := by omega
      rw [this]; exact hC.first (by omega)
  obtain ⟨sa', e, p⟩ := swapLoop_spec (J := J) (W := W) (F := first) (E := last) h3 h4 _ sa [] ⟨first, middle, last, ⟨false, false, false⟩⟩ (Nat.le_refl _)
    ⟨Nat.le_refl _, h1, h2, h0, Nat.le_refl _, hE, hpa, hg, hA.step, hC, fun (h : cel sa first < 0) => by omega, fun h => by simp at h, fun h => by simp at h⟩ (by simp) hs
  refine ⟨sa', e, p.len, fun r h5 h6 => p.off r h5 h6 (fun h => by simp at h), p.perm, ⟨fun _ => (p.head3 rfl rfl).1 hh, p.steps⟩, p.bperm, p.bj⟩

end Bwtc.Ss
