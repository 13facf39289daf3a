import Verif.SsHeap
import Verif.SsInsert

/-!
# `ss_mintrosort` sorts
-/

set_option autoImplicit false

namespace Bwtc.Ss
open Sais (put inv put_spec inv_inv bind_some')
open Divsuf (getI dec sub)
open Suffix

variable {T : List Nat} {P : Nat → Nat} {m pa : Nat} {W : List Nat}

/-! ## Keys -/

theorem lt_of_kc {i j : Nat} (hi : Good T P m W i) (hj : Good T P m W j) (h : kc T P W i < kc T P W j) : sub T P m i < sub T P m j := by
  obtain ⟨r1, e1⟩ := hi.kc
  obtain ⟨r2, e2⟩ := hj.kc
  rw [e1, e2]
  exact append_lt (List.cons_lt_cons_iff.2 (Or.inl h))

theorem Good.ended {i : Nat} (hi : Good T P m W i) (h : Ended T P m W i) : sub T P m i = W ++ [Ss.kc T P W i] := by
  obtain ⟨r1, e1⟩ := hi.kc
  unfold Ended at h
  rw [e1] at h ⊢
  simp at h
  rw [h]

theorem Good.next {i : Nat} (hi : Good T P m W i) (h : ¬ Ended T P m W i) : ∃ y rest, sub T P m i = W ++ Ss.kc T P W i :: y :: rest := by
  obtain ⟨r1, e1⟩ := hi.kc
  unfold Ended at h
  rw [e1] at h ⊢
  cases r1 with
  | nil => simp at h
  | cons y rest => exact ⟨y, rest, rfl⟩

theorem Good.good_next {i : Nat} (hi : Good T P m W i) (h : ¬ Ended T P m W i) : Good T P m (W ++ [Ss.kc T P W i]) i := by
  obtain ⟨y, rest, e⟩ := hi.next h
  exact ⟨hi.1, y, rest, by rw [e]; simp⟩

theorem Good.long {i : Nat} (hi : Good T P m W i) : W.length < T.length := by
  obtain ⟨hi, x, rest, e⟩ := hi
  have := (sub_ch hi e).2
  omega

theorem srt_app {K : Nat → List Nat} {a c b : Nat} {f : Nat → Int} (h1 : Srt K a c f) (h2 : Srt K c b f) (hac : a ≤ c)
    (h : ∀ r s, a ≤ r → r < c → c ≤ s → s < b → K (dec (f r)) < K (dec (f s))) : Srt K a b f := by
  refine Srt.join h1 h2.step (fun h3 h4 => Or.inl ⟨h2.first h4, h (c - 1) c (by omega) (by omega) (Nat.le_refl _) h4⟩) (fun h3 h4 => ?_)
  have : c = a := by omega
  subst this
  exact ⟨rfl, h2.first h4⟩

theorem Grp.part {first last a b : Nat} {sa : List Int} (h : Grp T P m pa W first last sa) (h1 : first ≤ a) (h2 : b ≤ last) : Grp T P m pa W a b sa :=
  ⟨h.env, by have := h.below; omega, by have := h.room; omega, fun r h3 h4 => h.pos r (by omega) (by omega), fun r h3 h4 => h.good r (by omega) (by omega)⟩

theorem Grp.same {first last : Nat} {sa sa' : List Int} (h : Grp T P m pa W first last sa) (hl : sa'.length = sa.length)
    (h1 : ∀ r, first ≤ r → r < last → cel sa' r = cel sa r) (h2 : ∀ r, pa ≤ r → cel sa' r = cel sa r) : Grp T P m pa W first last sa' :=
  ⟨h.env.frame hl h2, h.below, by rw [hl]; exact h.room, fun r h3 h4 => by rw [h1 r h3 h4]; exact h.pos r h3 h4,
    fun r h3 h4 => by rw [h1 r h3 h4]; exact h.good r h3 h4⟩

/-! ## Splitting off the substrings that end -/

/-- The substrings of a group with the same next character `v`: those that end come first. -/
theorem split_spec {a c v : Nat} {sa : List Int} (hG : Grp T P m pa W a c sa) (hac : a < c) (hW : W ≠ [])
    (hv : ∀ r, a ≤ r → r < c → kc T P W (dec (cel sa r)) = v) :
    ∃ y sa' b, tdPrev T sa pa W.length (cel sa a) = some y ∧ (if y < v then partition pa sa a c W.length else some (sa, a)) = some (sa', b) ∧
      a ≤ b ∧ b ≤ c ∧ Res a c sa sa' ∧ Grp T P m pa (W ++ [v]) b c sa' ∧
      ∀ sa2, (∀ r, a ≤ r → r < b → cel sa2 r = cel sa' r) → Perm b c (cel sa') (cel sa2) → Srt (sub T P m) b c (cel sa2) → Srt (sub T P m) a c (cel sa2) := by
  obtain ⟨U, y, hU⟩ : ∃ U y, W = U ++ [y] := ⟨W.dropLast, W.getLast hW, (List.dropLast_append_getLast hW).symm⟩
  have hprev : tdPrev T sa pa W.length (cel sa a) = some y := by
    obtain ⟨hi, x, rest, e⟩ := hG.good a (Nat.le_refl _) hac
    rw [hU] at e ⊢
    rw [nat_of (hG.pos a (Nat.le_refl _) hac)]
    exact hG.env.prev hi e
  refine ⟨y, ?_⟩
  by_cases hyv : y < v
  · rw [if_pos hyv]
    obtain ⟨sa', b, e, h1, h2, h3, h4, h5⟩ := partition_spec hG.env hG.below hG.room hac hG.pos hG.good
    have hg' := h3.all hG.good
    have hv' := h3.all (Q := fun i => kc T P W i = v) hv
    refine ⟨sa', b, hprev, e, h1, h2, h3, ⟨hG.env.res h3 hG.below, hG.below, by rw [h3.len]; exact hG.room, fun r hr1 hr2 => (h5 r hr1 hr2).1, ?_⟩, ?_⟩
    · intro r hr1 hr2
      have := (hg' r (by omega) hr2).good_next (h5 r hr1 hr2).2
      rwa [hv' r (by omega) hr2] at this
    · intro sa2 h6 h7 h8
      refine srt_app (c := b) ⟨fun hab => ?_, fun r hr1 hr2 => Or.inr ?_⟩ h8 h1 ?_
      · rw [h6 a (Nat.le_refl _) hab]; exact (h4 a (Nat.le_refl _) hab).1 rfl
      · rw [h6 r hr1 (by omega), h6 (r + 1) (by omega) hr2]
        refine ⟨(h4 (r + 1) (by omega) hr2).2.1 (by omega), ?_⟩
        rw [(hg' r hr1 (by omega)).ended (h4 r hr1 (by omega)).2.2, (hg' (r + 1) (by omega) (by omega)).ended (h4 (r + 1) (by omega) hr2).2.2,
          hv' r hr1 (by omega), hv' (r + 1) (by omega) (by omega)]
      · intro r s hr1 hr2 hs1 hs2
        rw [h6 r hr1 hr2, (hg' r hr1 (by omega)).ended (h4 r hr1 hr2).2.2, hv' r hr1 (by omega)]
        refine h7.all (Q := fun i => W ++ [v] < sub T P m i) (fun x hx1 hx2 => ?_) s hs1 hs2
        obtain ⟨z, rest, e2⟩ := (hg' x (by omega) hx2).next (h5 x hx1 hx2).2
        rw [e2, hv' x (by omega) hx2]
        refine append_lt (List.cons_lt_cons_iff.2 (Or.inr ⟨rfl, List.nil_lt_cons _ _⟩))
  · rw [if_neg hyv]
    have hne : ∀ r, a ≤ r → r < c → ¬ Ended T P m W (dec (cel sa r)) := by
      intro r hr1 hr2 he
      have h1 := hG.good r hr1 hr2
      have h2 := h1.ended he
      rw [hv r hr1 hr2, hU] at h2
      exact hyv (hG.env.end_up h1.1 h2)
    refine ⟨sa, a, hprev, rfl, Nat.le_refl _, by omega, Res.refl _ _ _, ⟨hG.env, hG.below, hG.room, hG.pos, ?_⟩, fun sa2 _ _ h => h⟩
    intro r hr1 hr2
    have := (hG.good r hr1 hr2).good_next (hne r hr1 hr2)
    rwa [hv r hr1 hr2] at this

/-! ## Frames -/

/-- How much room a group of `N` cells may need on the stack. -/
def pot (N : Nat) : Nat := if h : N ≤ 8 then 0 else pot (N / 2) + 2
termination_by N
decreasing_by omega

theorem pot_small {N : Nat} (h : N ≤ 8) : pot N = 0 := by rw [pot, dif_pos h]
theorem pot_big {N : Nat} (h : 8 < N) : pot N = pot (N / 2) + 2 := by rw [pot, dif_neg (by omega)]

theorem pot_mono : ∀ (N M : Nat), M ≤ N → pot M ≤ pot N := by
  intro N
  induction N using Nat.strongRecOn with
  | _ N ih =>
    intro M h
    by_cases hM : M ≤ 8
    · rw [pot_small hM]; exact Nat.zero_le _
    · rw [pot_big (by omega), pot_big (N := N) (by omega)]
      have := ih (N / 2) (by omega) (M / 2) (by omega)
      omega

theorem pot_half {N M : Nat} (h : 8 < N) (hM : 2 * M ≤ N) : pot M + 2 ≤ pot N := by
  rw [pot_big h]
  have := pot_mono (N / 2) M (by omega)
  omega

theorem pot_block {N : Nat} (h : N ≤ 1024) : pot N ≤ 14 := by
  have h1 := pot_mono 1024 N h
  have h2 : pot 1024 = 14 := by
    rw [pot_big (by omega), pot_big (by omega), pot_big (by omega), pot_big (by omega), pot_big (by omega), pot_big (by omega), pot_big (by omega), pot_small (by omega)]
  omega

/-- What `ss_mintrosort` does after a group is sorted. -/
def after (T : List Nat) (pa : Nat) (sa : List Int) (st : List Frame) : Option (List Int) :=
  match pop st with
  | none => some sa
  | some (st, f) => mintroLoop T pa sa st f

/-- The group of a frame may be sorted. -/
structure Fit (T : List Nat) (P : Nat → Nat) (m pa : Nat) (W : List Nat) (f : Frame) (sa : List Int) : Prop where
  depth : f.depth = W.length
  some : W ≠ []
  le : f.first ≤ f.last
  small : f.last - f.first ≤ 1024
  grp : Grp T P m pa W f.first f.last sa
  limit : f.limit < 0 → f.last - f.first ≤ 8 ∨ ByChar T P W f.first f.last sa

theorem Fit.same {f : Frame} {sa sa' : List Int} (h : Fit T P m pa W f sa) (hl : sa'.length = sa.length)
    (h1 : ∀ r, f.first ≤ r → r < f.last → cel sa' r = cel sa r) (h2 : ∀ r, pa ≤ r → cel sa' r = cel sa r) : Fit T P m pa W f sa' := by
  refine ⟨h.depth, h.some, h.le, h.small, h.grp.same hl h1 h2, fun h3 => (h.limit h3).imp id (fun h4 r h5 h6 => ?_)⟩
  rw [h1 r h5 (by omega), h1 (r + 1) (by omega) h6]; exact h4 r h5 h6

/-- The group of the frame gets sorted, whatever is on the stack. -/
def RunF (T : List Nat) (P : Nat → Nat) (m pa : Nat) (W : List Nat) (f : Frame) : Prop :=
  ∀ sa st, Fit T P m pa W f sa → st.length + pot (f.last - f.first) ≤ 16 →
    ∃ sa', mintroLoop T pa sa st f = after T pa sa' st ∧ Res f.first f.last sa sa' ∧ Srt (sub T P m) f.first f.last (cel sa')

/-- The frames do not overlap. -/
def Apart (f g : Frame) : Prop := f.last ≤ g.first ∨ g.last ≤ f.first

theorem run_two {W1 W2 : List Nat} {f1 f2 : Frame} {sa : List Int} {st : List Frame} (h1 : RunF T P m pa W1 f1) (h2 : RunF T P m pa W2 f2)
    (g1 : Fit T P m pa W1 f1 sa) (g2 : Fit T P m pa W2 f2 sa) (ha : Apart f1 f2) (s1 : st.length + pot (f1.last - f1.first) ≤ 16)
    (s2 : st.length + 1 + pot (f2.last - f2.first) ≤ 16) :
    ∃ sa', mintroLoop T pa sa (f1 :: st) f2 = after T pa sa' st ∧ sa'.length = sa.length ∧
      (∀ r, r < f1.first ∨ f1.last ≤ r → r < f2.first ∨ f2.last ≤ r → cel sa' r = cel sa r) ∧
      (Perm f1.first f1.last (cel sa) (cel sa') ∧ Srt (sub T P m) f1.first f1.last (cel sa')) ∧
      (Perm f2.first f2.last (cel sa) (cel sa') ∧ Srt (sub T P m) f2.first f2.last (cel sa')) := by
  obtain ⟨sa1, e1, r1, t1⟩ := h2 sa (f1 :: st) g2 (by simp; omega)
  have hb1 := g1.grp.below
  have hb2 := g2.grp.below
  have hf1 : ∀ r, f1.first ≤ r → r < f1.last → cel sa1 r = cel sa r := fun r h3 h4 => r1.frame r (by unfold Apart at ha; omega)
  obtain ⟨sa2, e2, r2, t2⟩ := h1 sa1 st (g1.same r1.len hf1 (fun r hr => r1.frame r (by omega))) s1
  have hf2 : ∀ r, f2.first ≤ r → r < f2.last → cel sa2 r = cel sa1 r := fun r h3 h4 => r2.frame r (by unfold Apart at ha; omega)
  refine ⟨sa2, ?_, by rw [r2.len, r1.len], ?_, ⟨?_, t2⟩, ?_, ?_⟩
  · rw [e1]; exact e2
  · intro r h3 h4
    rw [r2.frame r h3, r1.frame r h4]
  · exact (Perm.congr (fun r h3 h4 => by rw [hf1 r h3 h4])).trans r2.perm
  · exact r1.perm.trans (Perm.congr (fun r h3 h4 => by rw [hf2 r h3 h4]))
  · exact t1.congr hf2

theorem run_three {W1 W2 W3 : List Nat} {f1 f2 f3 : Frame} {sa : List Int} {st : List Frame} (h1 : RunF T P m pa W1 f1) (h2 : RunF T P m pa W2 f2)
    (h3 : RunF T P m pa W3 f3) (g1 : Fit T P m pa W1 f1 sa) (g2 : Fit T P m pa W2 f2 sa) (g3 : Fit T P m pa W3 f3 sa)
    (ha : Apart f1 f2) (hb : Apart f1 f3) (hc : Apart f2 f3) (s1 : st.length + pot (f1.last - f1.first) ≤ 16)
    (s2 : st.length + 1 + pot (f2.last - f2.first) ≤ 16) (s3 : st.length + 2 + pot (f3.last - f3.first) ≤ 16) :
    ∃ sa', mintroLoop T pa sa (f2 :: f1 :: st) f3 = after T pa sa' st ∧ sa'.length = sa.length ∧
      (∀ r, r < f1.first ∨ f1.last ≤ r → r < f2.first ∨ f2.last ≤ r → r < f3.first ∨ f3.last ≤ r → cel sa' r = cel sa r) ∧
      (Perm f1.first f1.last (cel sa) (cel sa') ∧ Srt (sub T P m) f1.first f1.last (cel sa')) ∧
      (Perm f2.first f2.last (cel sa) (cel sa') ∧ Srt (sub T P m) f2.first f2.last (cel sa')) ∧
      (Perm f3.first f3.last (cel sa) (cel sa') ∧ Srt (sub T P m) f3.first f3.last (cel sa')) := by
  obtain ⟨sa1, e1, r1, t1⟩ := h3 sa (f2 :: f1 :: st) g3 (by simp; omega)
  have hb3 := g3.grp.below
  have hf1 : ∀ r, f1.first ≤ r → r < f1.last → cel sa1 r = cel sa r := fun r h3 h4 => r1.frame r (by unfold Apart at hb; omega)
  have hf2 : ∀ r, f2.first ≤ r → r < f2.last → cel sa1 r = cel sa r := fun r h3 h4 => r1.frame r (by unfold Apart at hc; omega)
  obtain ⟨sa2, e2, l2, o2, ⟨p2, t2⟩, ⟨p3, t3⟩⟩ := run_two (sa := sa1) (st := st) h1 h2 (g1.same r1.len hf1 (fun r hr => r1.frame r (by omega)))
    (g2.same r1.len hf2 (fun r hr => r1.frame r (by omega))) ha s1 s2
  have hf3 : ∀ r, f3.first ≤ r → r < f3.last → cel sa2 r = cel sa1 r := fun r h3 h4 => o2 r (by unfold Apart at hb; omega) (by unfold Apart at hc; omega)
  refine ⟨sa2, ?_, by rw [l2, r1.len], ?_, ⟨?_, t2⟩, ⟨?_, t3⟩, ?_, ?_⟩
  · rw [e1]; exact e2
  · intro r h4 h5 h6
    rw [o2 r h4 h5, r1.frame r h6]
  · exact (Perm.congr (fun r h3 h4 => by rw [hf1 r h3 h4])).trans p2
  · exact (Perm.congr (fun r h3 h4 => by rw [hf2 r h3 h4])).trans p3
  · exact r1.perm.trans (Perm.congr (fun r h3 h4 => by rw [hf3 r h3 h4]))
  · exact t1.congr hf3

theorem lg_table_pos : ∀ k : Fin 256, ∃ l, lgTable[k.1]? = some l ∧ (1 ≤ k.1 → 0 ≤ l) := by
  intro k
  have h : ∀ k : Fin 256, ((lgTable[k.1]?).isSome = true) ∧ (1 ≤ k.1 → (lgTable[k.1]?).any (fun l => decide (0 ≤ l)) = true) := by decide +kernel
  obtain ⟨h1, h2⟩ := h k
  cases e : lgTable[k.1]? with
  | none => rw [e] at h1; simp at h1
  | some l => refine ⟨l, rfl, fun h3 => ?_⟩
              have := h2 h3
              rw [e] at this
              simpa using this

theorem ilg_spec {n : Nat} (h : n ≤ 1024) : ∃ l, ilg n = some l ∧ (1 ≤ n → 0 ≤ l) := by
  unfold ilg
  by_cases h1 : n / 256 % 256 ≠ 0
  · rw [if_pos h1]
    obtain ⟨l, e, h2⟩ := lg_table_pos ⟨n / 256 % 256, by omega⟩
    simp only at e h2
    refine ⟨8 + l, by rw [e]; rfl, fun _ => ?_⟩
    have := h2 (by omega); omega
  · rw [if_neg h1]
    obtain ⟨l, e, h2⟩ := lg_table_pos ⟨n % 256, by omega⟩
    simp only at e h2
    exact ⟨l, e, fun h3 => h2 (by omega)⟩

theorem push_spec {st : List Frame} {f : Frame} (h : st.length < 16) : push st f = some (f :: st) := if_pos h

/-! ## The three parts -/

theorem choose_spec {W' : List Nat} {first a b c last depth N : Nat} {limit : Int} {sa : List Int} {st : List Frame}
    (hN : 8 < N) (hst : st.length + pot N ≤ 16) (hsz : (a - first) + (c - b) + (last - c) ≤ N)
    (hab : first ≤ a ∧ a ≤ b ∧ b ≤ c ∧ c ≤ last) (hc : c - b ≤ 1024)
    (r1 : RunF T P m pa W ⟨first, a, depth, limit⟩) (g1 : Fit T P m pa W ⟨first, a, depth, limit⟩ sa)
    (r2 : ∀ l, RunF T P m pa W' ⟨b, c, depth + 1, l⟩) (g2 : ∀ l, (1 ≤ c - b → 0 ≤ l) → Fit T P m pa W' ⟨b, c, depth + 1, l⟩ sa)
    (r3 : RunF T P m pa W ⟨c, last, depth, limit⟩) (g3 : Fit T P m pa W ⟨c, last, depth, limit⟩ sa) :
    ∃ st' f' sa', choose st first a b c last depth limit = some (st', f') ∧ mintroLoop T pa sa st' f' = after T pa sa' st ∧ sa'.length = sa.length ∧
      (∀ r, r < first ∨ a ≤ r → r < b ∨ last ≤ r → cel sa' r = cel sa r) ∧
      (Perm first a (cel sa) (cel sa') ∧ Srt (sub T P m) first a (cel sa')) ∧
      (Perm b c (cel sa) (cel sa') ∧ Srt (sub T P m) b c (cel sa')) ∧
      (Perm c last (cel sa) (cel sa') ∧ Srt (sub T P m) c last (cel sa')) := by
  unfold choose
  obtain ⟨l, el, hl⟩ := ilg_spec hc
  rw [bind_some' el]
  have hp := pot_big hN
  have hmono := fun M (h : M ≤ N) => pot_mono N M h
  have hhalf := fun M (h : 2 * M ≤ N) => pot_half hN h
  simp only
  have A1 : Apart ⟨first, a, depth, limit⟩ ⟨b, c, depth + 1, l⟩ := Or.inl hab.2.1
  have A2 : Apart ⟨first, a, depth, limit⟩ ⟨c, last, depth, limit⟩ := Or.inl (by show a ≤ c; omega)
  have A3 : Apart ⟨b, c, depth + 1, l⟩ ⟨c, last, depth, limit⟩ := Or.inl (Nat.le_refl _)
  have S : ∀ {f g}, Apart f g → Apart g f := fun h => Or.symm h
  have push2 : ∀ (f g : Frame), (push st f = some (f :: st)) ∧ push (f :: st) g = some (g :: f :: st) := fun f g =>
    ⟨push_spec (by omega), push_spec (by simp; omega)⟩
  have m1 := hmono (a - first) (by omega)
  have m2 := hmono (c - b) (by omega)
  have m3 := hmono (last - c) (by omega)
  have G2 := g2 l hl
  by_cases h1 : a - first ≤ last - c
  · rw [if_pos h1]
    have n1 := hhalf (a - first) (by omega)
    by_cases h2 : last - c ≤ c - b
    · rw [if_pos h2]
      have n2 := hhalf (last - c) (by omega)
      rw [bind_some' (push2 _ ⟨c, last, depth, limit⟩).1, bind_some' (push2 _ _).2]
      obtain ⟨sa', e, k1, k2, k3, k4, k5⟩ := run_three (st := st) (r2 l) r3 r1 G2 g3 g1 A3 (S A1) (S A2) (by show _ + pot (c - b) ≤ 16; omega) (by show _ + pot (last - c) ≤ 16; omega) (by show _ + pot (a - first) ≤ 16; omega)
      exact ⟨_, _, sa', rfl, e, k1, fun r h3 h4 => k2 r (show r < b ∨ c ≤ r by omega) (show r < c ∨ last ≤ r by omega) (show r < first ∨ a ≤ r by omega), k5, k3, k4⟩
    · rw [if_neg h2]
      have n2 := hhalf (c - b) (by omega)
      by_cases h3 : a - first ≤ c - b
      · rw [if_pos h3]
        rw [bind_some' (push2 _ ⟨b, c, depth + 1, l⟩).1, bind_some' (push2 _ _).2]
        obtain ⟨sa', e, k1, k2, k3, k4, k5⟩ := run_three (st := st) r3 (r2 l) r1 g3 G2 g1 (S A3) (S A2) (S A1) (by show _ + pot (last - c) ≤ 16; omega) (by show _ + pot (c - b) ≤ 16; omega) (by show _ + pot (a - first) ≤ 16; omega)
        exact ⟨_, _, sa', rfl, e, k1, fun r h3 h4 => k2 r (show r < c ∨ last ≤ r by omega) (show r < b ∨ c ≤ r by omega) (show r < first ∨ a ≤ r by omega), k5, k4, k3⟩
      · rw [if_neg h3]
        rw [bind_some' (push2 _ ⟨first, a, depth, limit⟩).1, bind_some' (push2 _ _).2]
        obtain ⟨sa', e, k1, k2, k3, k4, k5⟩ := run_three (st := st) r3 r1 (r2 l) g3 g1 G2 (S A2) (S A3) A1 (by show _ + pot (last - c) ≤ 16; omega) (by show _ + pot (a - first) ≤ 16; omega) (by show _ + pot (c - b) ≤ 16; omega)
        exact ⟨_, _, sa', rfl, e, k1, fun r h3 h4 => k2 r (show r < c ∨ last ≤ r by omega) (show r < first ∨ a ≤ r by omega) (show r < b ∨ c ≤ r by omega), k4, k5, k3⟩
  · rw [if_neg h1]
    have n1 := hhalf (last - c) (by omega)
    by_cases h2 : a - first ≤ c - b
    · rw [if_pos h2]
      have n2 := hhalf (a - first) (by omega)
      rw [bind_some' (push2 _ ⟨first, a, depth, limit⟩).1, bind_some' (push2 _ _).2]
      obtain ⟨sa', e, k1, k2, k3, k4, k5⟩ := run_three (st := st) (r2 l) r1 r3 G2 g1 g3 (S A1) A3 A2 (by show _ + pot (c - b) ≤ 16; omega) (by show _ + pot (a - first) ≤ 16; omega) (by show _ + pot (last - c) ≤ 16; omega)
      exact ⟨_, _, sa', rfl, e, k1, fun r h3 h4 => k2 r (show r < b ∨ c ≤ r by omega) (show r < first ∨ a ≤ r by omega) (show r < c ∨ last ≤ r by omega), k4, k3, k5⟩
    · rw [if_neg h2]
      have n2 := hhalf (c - b) (by omega)
      by_cases h3 : last - c ≤ c - b
      · rw [if_pos h3]
        rw [bind_some' (push2 _ ⟨b, c, depth + 1, l⟩).1, bind_some' (push2 _ _).2]
        obtain ⟨sa', e, k1, k2, k3, k4, k5⟩ := run_three (st := st) r1 (r2 l) r3 g1 G2 g3 A1 A2 A3 (by show _ + pot (a - first) ≤ 16; omega) (by show _ + pot (c - b) ≤ 16; omega) (by show _ + pot (last - c) ≤ 16; omega)
        exact ⟨_, _, sa', rfl, e, k1, fun r h3 h4 => k2 r (show r < first ∨ a ≤ r by omega) (show r < b ∨ c ≤ r by omega) (show r < c ∨ last ≤ r by omega), k3, k4, k5⟩
      · rw [if_neg h3]
        rw [bind_some' (push2 _ ⟨c, last, depth, limit⟩).1, bind_some' (push2 _ _).2]
        obtain ⟨sa', e, k1, k2, k3, k4, k5⟩ := run_three (st := st) r1 r3 (r2 l) g1 g3 G2 A2 A1 (S A3) (by show _ + pot (a - first) ≤ 16; omega) (by show _ + pot (last - c) ≤ 16; omega) (by show _ + pot (c - b) ≤ 16; omega)
        exact ⟨_, _, sa', rfl, e, k1, fun r h3 h4 => k2 r (show r < first ∨ a ≤ r by omega) (show r < c ∨ last ≤ r by omega) (show r < b ∨ c ≤ r by omega), k3, k5, k4⟩

/-- What a round does to a group, when the groups it leaves get sorted. -/
def StepOk (T : List Nat) (P : Nat → Nat) (m pa first last : Nat) (sa : List Int) (st : List Frame) (o : Option (List Int × List Frame × Frame)) : Prop :=
  ∃ sa1 st1 f1 sa', o = some (sa1, st1, f1) ∧ mintroLoop T pa sa1 st1 f1 = after T pa sa' st ∧ Res first last sa sa' ∧ Srt (sub T P m) first last (cel sa')

theorem partStep_spec {first last : Nat} {limit : Int} {sa : List Int} {st : List Frame} (hG : Grp T P m pa W first last sa) (hW : W ≠ [])
    (hN : 8 < last - first) (hN2 : last - first ≤ 1024) (hlim : 0 ≤ limit) (hst : st.length + pot (last - first) ≤ 16)
    (hlow : ∀ f, f.last - f.first < last - first → RunF T P m pa W f) (hnext : ∀ x f, RunF T P m pa (W ++ [x]) f) :
    StepOk T P m pa first last sa st (partStep T pa sa st first last W.length limit) := by
  unfold partStep
  obtain ⟨a0, e0, h1, h2⟩ := pivot_spec hG (by omega)
  rw [bind_some' e0, bind_some' (hG.td h1 h2)]
  obtain ⟨sa1, e1, k1, k2, k3, k4⟩ := swap_mov (sa := sa) (i := first) (j := a0) (a := first) (b := last) (by omega) (by omega) h1 h2 hG.room
  rw [bind_some' e1]
  have hG1 := hG.mov k1
  have hthree := threeWay_spec hG1 (by omega)
  rw [k2] at hthree
  generalize hv : kc T P W (dec (cel sa a0)) = v at hthree ⊢
  obtain ⟨⟨sa2, a, b, c, d⟩, e2, m2, p2, hcb⟩ := hthree
  rw [bind_some' e2]
  simp only
  have hG2 := hG1.mov m2
  by_cases had : a ≤ d
  · rw [if_pos had]
    obtain ⟨sa3, e3, m3, q0, q1, q2, q3, q4, q5, q6, q7⟩ := gather_spec hG2.room p2 hcb
    rw [bind_some' e3]
    simp only
    generalize hA : first + (b - a) = A at *
    generalize hC : last - (d + 1 - b) = C at *
    have hG3 := hG2.mov m3
    have hroom := hG3.room
    obtain ⟨y, sa4, B, e4, e5, i1, i2, i3, i4, i5⟩ := split_spec (hG3.part (a := A) (b := C) (by omega) (by omega)) q0 hW q6
    have e5' : (if v ≤ y then some (sa3, A) else partition pa sa3 A C W.length) = some (sa4, B) := by
      rw [← e5]
      by_cases h : y < v
      · rw [if_pos h, if_neg (by omega)]
      · rw [if_neg h, if_pos (by omega)]
    rw [bind_some' (get_cel (by omega)), bind_some' e4, bind_some' e5']
    simp only
    have hout : ∀ r, r < A ∨ C ≤ r → cel sa4 r = cel sa3 r := i3.frame
    have hG4 : ∀ x y, first ≤ x → y ≤ last → (y ≤ A ∨ C ≤ x) → Grp T P m pa W x y sa4 := fun x y hx hy hxy =>
      (hG3.part hx hy).same i3.len (fun r hr1 hr2 => hout r (by omega)) (fun r hr => hout r (by have := hG3.below; omega))
    obtain ⟨st', f', sa5, e6, e7, j1, j2, ⟨j3, j4⟩, ⟨j5, j6⟩, ⟨j7, j8⟩⟩ := choose_spec (W' := W ++ [v]) (first := first) (a := A) (b := B) (c := C) (last := last)
      (depth := W.length) (N := last - first) (limit := limit) (sa := sa4) (st := st) hN hst (by omega) (by omega) (by omega)
      (hlow _ (by show A - first < last - first; omega))
      ⟨rfl, hW, by show first ≤ A; omega, by show A - first ≤ 1024; omega, hG4 first A (Nat.le_refl _) (by omega) (Or.inl (Nat.le_refl _)), fun h => by have : limit < 0 := h; omega⟩
      (fun l => hnext v _)
      (fun l hl => ⟨by simp, by simp, i2, by show C - B ≤ 1024; omega, i4, fun h => Or.inl (by have h' : l < 0 := h; show C - B ≤ 8; omega)⟩)
      (hlow _ (by show last - C < last - first; omega))
      ⟨rfl, hW, by show C ≤ last; omega, by show last - C ≤ 1024; omega, hG4 C last (by omega) (Nat.le_refl _) (Or.inr (Nat.le_refl _)), fun h => by have : limit < 0 := h; omega⟩
    rw [bind_some' e6]
    refine ⟨sa4, st', f', sa5, rfl, e7, ?_, ?_⟩
    · refine ((k1.trans m2).trans m3).res.trans ((i3.extend (by omega) (by omega) (by omega)).trans ⟨j1, fun r hr => j2 r (by omega) (by omega), ?_⟩)
      exact j3.join (Perm.join (Perm.join (Perm.congr (fun r hr1 hr2 => by rw [j2 r (by omega) (by omega)])) j5 i1 i2) j7 (by omega) (by omega)) (by omega) (by omega)
    · have hmid := i5 sa5 (fun r hr1 hr2 => j2 r (by omega) (by omega)) j5 j6
      -- members of the three parts in the end
      have good5 : ∀ r, first ≤ r → r < last → Good T P m W (dec (cel sa5 r)) := by
        have hr : Res first last sa3 sa5 := (i3.extend (by omega) (by omega) (by omega)).trans ⟨j1, fun r hr => j2 r (by omega) (by omega),
          j3.join (Perm.join (Perm.join (Perm.congr (fun r hr1 hr2 => by rw [j2 r (by omega) (by omega)])) j5 i1 i2) j7 (by omega) (by omega)) (by omega) (by omega)⟩
        exact hr.all hG3.good
      have low5 : ∀ r, first ≤ r → r < A → kc T P W (dec (cel sa5 r)) < v :=
        j3.all (Q := fun x => kc T P W x < v) (fun r hr1 hr2 => by rw [hout r (Or.inl hr2)]; exact q5 r hr1 hr2)
      have high5 : ∀ r, C ≤ r → r < last → v < kc T P W (dec (cel sa5 r)) :=
        j7.all (Q := fun x => v < kc T P W x) (fun r hr1 hr2 => by rw [hout r (Or.inr hr1)]; exact q7 r hr1 hr2)
      have mid5 : ∀ r, A ≤ r → r < C → kc T P W (dec (cel sa5 r)) = v := by
        have : Perm A C (cel sa3) (cel sa5) := i3.perm.trans (Perm.join (Perm.congr (fun r hr1 hr2 => by rw [j2 r (by omega) (by omega)])) j5 i1 i2)
        exact this.all (Q := fun x => kc T P W x = v) q6
      refine srt_app (c := A) j4 (srt_app (c := C) hmid j8 (by omega) ?_) (by omega) ?_
      · intro r s h3 h4 h5 h6
        exact lt_of_kc (good5 r (by omega) (by omega)) (good5 s (by omega) h6) (by rw [mid5 r h3 h4]; exact high5 s h5 h6)
      · intro r s h3 h4 h5 h6
        refine lt_of_kc (good5 r (by omega) (by omega)) (good5 s (by omega) h6) ?_
        have := low5 r h3 h4
        rcases Nat.lt_or_ge s C with h7 | h7
        · rw [mid5 s h5 h7]; exact this
        · have := high5 s h7 h6; omega
  · rw [if_neg had]
    have hall : ∀ r, first ≤ r → r < last → kc T P W (dec (cel sa2 r)) = v := by
      have hab : a ≤ b := p2.ab
      have hbc : b ≤ c + 1 := p2.bc
      have hcd : c ≤ d := p2.cd
      intro r hr1 hr2
      rcases Nat.lt_or_ge r a with h | h
      · exact p2.eqL r hr1 h
      · exact p2.eqR r (show d < r by omega) hr2
    obtain ⟨y, sa4, B, e4, e5, i1, i2, i3, i4, i5⟩ := split_spec hG2 (by omega) hW hall
    have hroom : last ≤ sa2.length := hG2.room
    rw [bind_some' (get_cel (by omega)), bind_some' e4]
    have finish : ∀ l, (1 ≤ last - B → 0 ≤ l) → ∃ sa', mintroLoop T pa sa4 st ⟨B, last, W.length + 1, l⟩ = after T pa sa' st ∧ Res first last sa sa' ∧
        Srt (sub T P m) first last (cel sa') := by
      intro l hl
      obtain ⟨sa', e, h3, h4⟩ := hnext v ⟨B, last, W.length + 1, l⟩ sa4 st
        ⟨by simp, by simp, i2, by show last - B ≤ 1024; omega, i4, fun h => Or.inl (by have h' : l < 0 := h; show last - B ≤ 8; omega)⟩
        (by have := pot_mono (last - first) (last - B) (by omega); show st.length + pot (last - B) ≤ 16; omega)
      have h3' : Res B last sa4 sa' := h3
      refine ⟨sa', e, (k1.trans m2).res.trans (i3.trans (h3'.extend (by omega) (Nat.le_refl _) (by omega))), ?_⟩
      exact i5 sa' (fun r hr1 hr2 => h3'.frame r (by omega)) h3'.perm h4
    by_cases hyv : y < v
    · rw [if_pos hyv] at e5 ⊢
      rw [bind_some' e5]
      simp only
      obtain ⟨l, el, hl⟩ := ilg_spec (n := last - B) (by omega)
      rw [bind_some' el]
      obtain ⟨sa', e, h3, h4⟩ := finish l hl
      exact ⟨sa4, st, _, sa', rfl, e, h3, h4⟩
    · rw [if_neg hyv] at e5 ⊢
      simp only [Option.some.injEq, Prod.mk.injEq] at e5
      obtain ⟨e6, e7⟩ := e5
      subst e6; subst e7
      obtain ⟨sa', e, h3, h4⟩ := finish (limit + 1) (fun _ => by omega)
      exact ⟨sa2, st, _, sa', rfl, e, h3, h4⟩

/-! ## The runs of a group that is in the order of the next character -/

theorem runOf_spec {last lo : Nat} {sa : List Int} (hG : Grp T P m pa W lo last sa) : ∀ (n first a : Nat), last - a ≤ n → lo ≤ first → first < a → a ≤ last →
    (∀ r, first ≤ r → r < a → kc T P W (dec (cel sa r)) = kc T P W (dec (cel sa first))) →
    ∃ f' a', runOf T sa pa W.length last first (kc T P W (dec (cel sa first))) a = some (f', a', kc T P W (dec (cel sa f'))) ∧ first ≤ f' ∧ f' < a' ∧ a' ≤ last ∧
      (∀ r, f' ≤ r → r < a' → kc T P W (dec (cel sa r)) = kc T P W (dec (cel sa f'))) ∧
      (a' < last → kc T P W (dec (cel sa a')) ≠ kc T P W (dec (cel sa f'))) ∧
      (∀ r, first ≤ r → r < f' → kc T P W (dec (cel sa (r + 1))) ≠ kc T P W (dec (cel sa r))) := by
  intro n
  induction n with
  | zero =>
    intro first a h1 h2 h3 h4 h5
    rw [runOf, if_neg (by omega)]
    exact ⟨first, a, rfl, Nat.le_refl _, h3, h4, h5, fun _ => by omega, fun r _ _ => by omega⟩
  | succ n ih =>
    intro first a h1 h2 h3 h4 h5
    rw [runOf]
    by_cases hal : a < last
    · rw [if_pos hal, bind_some' (hG.td (by omega) hal)]
      by_cases hx : kc T P W (dec (cel sa a)) ≠ kc T P W (dec (cel sa first))
      · rw [if_pos hx]
        by_cases h1a : 1 < a - first
        · rw [if_pos h1a]
          exact ⟨first, a, rfl, Nat.le_refl _, h3, h4, h5, fun _ => hx, fun r _ _ => by omega⟩
        · rw [if_neg h1a]
          have ha : a = first + 1 := by omega
          obtain ⟨f', a', e, i1, i2, i3, i4, i5, i6⟩ := ih a (a + 1) (by omega) (by omega) (by omega) (by omega)
            (fun r hr1 hr2 => by rw [show r = a by omega])
          refine ⟨f', a', e, by omega, i2, i3, i4, i5, fun r hr1 hr2 => ?_⟩
          by_cases hr : r = first
          · rw [hr, ← ha]; exact hx
          · exact i6 r (by omega) hr2
      · rw [if_neg hx]
        have hx' : kc T P W (dec (cel sa a)) = kc T P W (dec (cel sa first)) := Classical.byContradiction hx
        exact ih first (a + 1) (by omega) h2 (by omega) (by omega) (fun r hr1 hr2 => by
          by_cases hr : r = a
          · rw [hr]; exact hx'
          · exact h5 r hr1 (by omega))
    · rw [if_neg hal]
      exact ⟨first, a, rfl, Nat.le_refl _, h3, h4, h5, fun _ => by omega, fun r _ _ => by omega⟩

theorem ByChar.le {first last : Nat} {sa : List Int} (h : ByChar T P W first last sa) {r : Nat} (hr : first ≤ r) : ∀ (s : Nat), r ≤ s → s < last →
    kc T P W (dec (cel sa r)) ≤ kc T P W (dec (cel sa s)) := by
  intro s
  induction s with
  | zero => intro h1 _; have : r = 0 := by omega
            rw [this]; exact Nat.le_refl _
  | succ s ih =>
    intro h1 h2
    by_cases hs : r = s + 1
    · rw [hs]; exact Nat.le_refl _
    · have := ih (by omega) (by omega)
      have := h s (by omega) h2
      omega

theorem runStep_spec {first last : Nat} {sa : List Int} {st : List Frame} (hG : Grp T P m pa W first last sa) (hW : W ≠ [])
    (hN : 8 < last - first) (hN2 : last - first ≤ 1024) (hby : ByChar T P W first last sa) (hst : st.length + pot (last - first) ≤ 16)
    (hlow : ∀ f, f.last - f.first < last - first → RunF T P m pa W f) (hnext : ∀ x f, RunF T P m pa (W ++ [x]) f) :
    StepOk T P m pa first last sa st (runStep T pa sa st first last W.length) := by
  unfold runStep
  rw [bind_some' (hG.td (Nat.le_refl _) (by omega))]
  obtain ⟨F, A, e1, h1, h2, h3, h4, h5, h6⟩ := runOf_spec hG _ first (first + 1) (Nat.le_refl _) (Nat.le_refl _) (by omega) (by omega)
    (fun r hr1 hr2 => by rw [show r = first by omega])
  rw [bind_some' e1]
  simp only
  generalize hv : kc T P W (dec (cel sa F)) = v at *
  obtain ⟨y, sa1, B, e2, e3, i1, i2, i3, i4, i5⟩ := split_spec (hG.part (a := F) (b := A) (by omega) h3) h2 hW h4
  have hroom := hG.room
  have hbelow := hG.below
  rw [bind_some' (get_cel (by omega)), bind_some' e2, bind_some' e3]
  simp only
  have hout : ∀ r, r < F ∨ A ≤ r → cel sa1 r = cel sa r := i3.frame
  have tailG : Grp T P m pa W A last sa1 := (hG.part (by omega) (Nat.le_refl _)).same i3.len (fun r hr1 hr2 => hout r (by omega)) (fun r hr => hout r (by omega))
  have tailBy : ByChar T P W A last sa1 := by
    intro r hr1 hr2
    rw [hout r (by omega), hout (r + 1) (by omega)]; exact hby r (by omega) hr2
  -- the end, when both parts are sorted
  have finish : ∀ sa', sa'.length = sa1.length → (∀ r, r < B ∨ last ≤ r → cel sa' r = cel sa1 r) →
      (Perm B A (cel sa1) (cel sa') ∧ Srt (sub T P m) B A (cel sa')) → (Perm A last (cel sa1) (cel sa') ∧ Srt (sub T P m) A last (cel sa')) →
      Res first last sa sa' ∧ Srt (sub T P m) first last (cel sa') := by
    intro sa' l1 o1 ⟨p1, s1⟩ ⟨p2, s2⟩
    have hperm : Perm F A (cel sa) (cel sa') := i3.perm.trans (Perm.join (Perm.congr (fun r hr1 hr2 => by rw [o1 r (by omega)])) p1 i1 i2)
    have hres : Res first last sa sa' := by
      refine ⟨by rw [l1, i3.len], fun r hr => by rw [o1 r (by omega), hout r (by omega)], ?_⟩
      exact Perm.join (Perm.congr (fun r hr1 hr2 => by rw [o1 r (by omega), hout r (by omega)]))
        (Perm.join hperm ((Perm.congr (fun r hr1 hr2 => by rw [hout r (by omega)])).trans p2) (by omega) h3) h1 (by omega)
    refine ⟨hres, ?_⟩
    have good := hres.all hG.good
    have same : ∀ r, r < F → cel sa' r = cel sa r := fun r hr => by rw [o1 r (by omega), hout r (by omega)]
    have mid : ∀ r, F ≤ r → r < A → kc T P W (dec (cel sa' r)) = v := hperm.all (Q := fun x => kc T P W x = v) h4
    have high : ∀ r, A ≤ r → r < last → v < kc T P W (dec (cel sa' r)) := by
      refine p2.all (Q := fun x => v < kc T P W x) (fun r hr1 hr2 => ?_)
      rw [hout r (by omega)]
      have k1 := h5 (by omega)
      have k2 := hby.le (r := F) (by omega) A (by omega) (by omega)
      have k3 := hby.le (r := A) (by omega) r hr1 hr2
      omega
    have hmid := i5 sa' (fun r hr1 hr2 => o1 r (by omega)) p1 s1
    have single : ∀ r s, first ≤ r → r < F → r < s → s < last → kc T P W (dec (cel sa r)) < kc T P W (dec (cel sa s)) := by
      intro r s hr1 hr2 hr3 hr4
      have k1 := h6 r hr1 hr2
      have k2 := hby r hr1 (by omega)
      have k3 := hby.le (r := r + 1) (by omega) s (by omega) hr4
      omega
    have low : ∀ r, first ≤ r → r < F → kc T P W (dec (cel sa' r)) < v := by
      intro r hr1 hr2
      rw [same r hr2, ← hv]
      exact single r F hr1 hr2 hr2 (by omega)
    refine srt_app (c := F) ⟨fun hf => ?_, fun r hr1 hr2 => Or.inl ⟨?_, ?_⟩⟩ (srt_app (c := A) hmid s2 (by omega) ?_) h1 ?_
    · rw [same first hf]; exact hG.pos first (Nat.le_refl _) (by omega)
    · rw [same _ hr2]; exact hG.pos _ (by omega) (by omega)
    · refine lt_of_kc (good r hr1 (by omega)) (good (r + 1) (by omega) (by omega)) ?_
      rw [same r (by omega), same _ hr2]
      exact single r (r + 1) hr1 (by omega) (by omega) (by omega)
    · intro r s k1 k2 k3 k4
      exact lt_of_kc (good r (by omega) (by omega)) (good s (by omega) k4) (by rw [mid r k1 k2]; exact high s k3 k4)
    · intro r s k1 k2 k3 k4
      refine lt_of_kc (good r (by omega) (by omega)) (good s (by omega) k4) ?_
      have := low r k1 k2
      rcases Nat.lt_or_ge s A with h7 | h7
      · rw [mid s k3 h7]; exact this
      · have := high s h7 k4; omega
  have one : ∀ (x y : Nat) (s : List Int), y - x ≤ 1 → (∀ r, x ≤ r → r < y → 0 ≤ cel s r) → Srt (sub T P m) x y (cel s) := by
    intro x y s hxy h0
    rcases Nat.lt_or_ge x y with h | h
    · rw [show y = x + 1 by omega]; exact Srt.one (h0 x (Nat.le_refl _) h)
    · exact Srt.nil h
  have fitMid : ∀ l, (1 ≤ A - B → 0 ≤ l) → Fit T P m pa (W ++ [v]) ⟨B, A, W.length + 1, l⟩ sa1 := fun l hl =>
    ⟨by simp, by simp, i2, by show A - B ≤ 1024; omega, i4, fun h => Or.inl (by have h' : l < 0 := h; show A - B ≤ 8; omega)⟩
  have fitHigh : Fit T P m pa W ⟨A, last, W.length, -1⟩ sa1 :=
    ⟨rfl, hW, h3, by show last - A ≤ 1024; omega, tailG, fun _ => Or.inr tailBy⟩
  have potA := pot_mono (last - first) (last - A) (by omega)
  have potB := pot_mono (last - first) (A - B) (by omega)
  have potN := pot_big hN
  obtain ⟨l, el, hl⟩ := ilg_spec (n := A - B) (by omega)
  have runHigh : RunF T P m pa W ⟨A, last, W.length, -1⟩ := hlow _ (by show last - A < last - first; omega)
  by_cases c1 : A - B ≤ last - A
  · rw [if_pos c1]
    have half := pot_half hN (M := A - B) (by omega)
    by_cases c2 : 1 < A - B
    · rw [if_pos c2, bind_some' (push_spec (by omega)), bind_some' el]
      obtain ⟨sa', e, k1, k2, k3, k4⟩ := run_two (st := st) runHigh (hnext v ⟨B, A, W.length + 1, l⟩) fitHigh (fitMid l hl) (Or.inr (Nat.le_refl _))
        (by show _ + pot (last - A) ≤ 16; omega) (by show _ + pot (A - B) ≤ 16; omega)
      have := finish sa' k1 (fun r hr => k2 r (show r < A ∨ last ≤ r by omega) (show r < B ∨ A ≤ r by omega)) k4 k3
      exact ⟨sa1, _, _, sa', rfl, e, this.1, this.2⟩
    · rw [if_neg c2]
      obtain ⟨sa', e, k1, k2⟩ := runHigh sa1 st fitHigh (by show st.length + pot (last - A) ≤ 16; omega)
      have k1' : Res A last sa1 sa' := k1
      have same : ∀ r, B ≤ r → r < A → cel sa' r = cel sa1 r := fun r hr1 hr2 => k1'.frame r (by omega)
      have := finish sa' k1.len (fun r hr => k1'.frame r (by omega))
        ⟨Perm.congr (fun r hr1 hr2 => by rw [same r hr1 hr2]), one _ _ _ (by omega) (fun r hr1 hr2 => by rw [same r hr1 hr2]; exact i4.pos r hr1 hr2)⟩ ⟨k1.perm, k2⟩
      exact ⟨sa1, st, _, sa', rfl, e, this.1, this.2⟩
  · rw [if_neg c1, bind_some' el]
    have half := pot_half hN (M := last - A) (by omega)
    by_cases c2 : 1 < last - A
    · rw [if_pos c2, bind_some' (push_spec (by omega))]
      obtain ⟨sa', e, k1, k2, k3, k4⟩ := run_two (st := st) (hnext v ⟨B, A, W.length + 1, l⟩) runHigh (fitMid l hl) fitHigh (Or.inl (Nat.le_refl _))
        (by show _ + pot (A - B) ≤ 16; omega) (by show _ + pot (last - A) ≤ 16; omega)
      have := finish sa' k1 (fun r hr => k2 r (show r < B ∨ A ≤ r by omega) (show r < A ∨ last ≤ r by omega)) k3 k4
      exact ⟨sa1, _, _, sa', rfl, e, this.1, this.2⟩
    · rw [if_neg c2]
      obtain ⟨sa', e, k1, k2⟩ := hnext v ⟨B, A, W.length + 1, l⟩ sa1 st (fitMid l hl) (by show st.length + pot (A - B) ≤ 16; omega)
      have k1' : Res B A sa1 sa' := k1
      have same : ∀ r, A ≤ r → r < last → cel sa' r = cel sa1 r := fun r hr1 hr2 => k1'.frame r (by omega)
      have := finish sa' k1.len (fun r hr => k1'.frame r (by omega)) ⟨k1.perm, k2⟩
        ⟨Perm.congr (fun r hr1 hr2 => by rw [same r hr1 hr2]), one _ _ _ (by omega) (fun r hr1 hr2 => by rw [same r hr1 hr2]; exact tailG.pos r hr1 hr2)⟩
      exact ⟨sa1, st, _, sa', rfl, e, this.1, this.2⟩

/-! ## The loop -/

theorem mintro_round {f : Frame} (hlow : ∀ g : Frame, g.last - g.first < f.last - f.first → RunF T P m pa W g)
    (hnext : ∀ x g, W.length < T.length → RunF T P m pa (W ++ [x]) g) : RunF T P m pa W f := by
  intro sa st hF hst
  obtain ⟨first, last, depth, limit⟩ := f
  have hd : depth = W.length := hF.depth
  subst hd
  have hG : Grp T P m pa W first last sa := hF.grp
  have hle : first ≤ last := hF.le
  have hsm : last - first ≤ 1024 := hF.small
  have hli : limit < 0 → last - first ≤ 8 ∨ ByChar T P W first last sa := hF.limit
  have hst' : st.length + pot (last - first) ≤ 16 := hst
  rw [mintroLoop]
  unfold mintroStep
  simp only
  by_cases h8 : last - first ≤ 8
  · rw [if_pos h8]
    have hsort : ∃ sa', (if 1 < last - first then insertionsort T pa sa first last W.length else some sa) = some sa' ∧ Res first last sa sa' ∧
        Srt (sub T P m) first last (cel sa') := by
      by_cases h1 : 1 < last - first
      · rw [if_pos h1]
        exact insertionsort_spec hG.env hG.below hG.room (by omega) hG.pos hG.good
      · rw [if_neg h1]
        refine ⟨sa, rfl, Res.refl _ _ _, ?_⟩
        rcases Nat.lt_or_ge first last with h | h
        · rw [show last = first + 1 by omega]; exact Srt.one (hG.pos first (Nat.le_refl _) h)
        · exact Srt.nil h
    obtain ⟨sa', e, h2, h3⟩ := hsort
    refine ⟨sa', ?_, h2, h3⟩
    rw [bind_some' e]
    unfold after
    cases hp : pop st with
    | none => rfl
    | some q => rfl
  · rw [if_neg h8]
    have hlong : W.length < T.length := (hG.good first (Nat.le_refl _) (by omega)).long
    have hnext' : ∀ x g, RunF T P m pa (W ++ [x]) g := fun x g => hnext x g hlong
    have hlow' : ∀ g : Frame, g.last - g.first < last - first → RunF T P m pa W g := hlow
    have hheap : ∃ sa1, (if limit = 0 then heapsort T pa W.length first (last - first) sa else some sa) = some sa1 ∧ Mov first last sa sa1 ∧
        (limit - 1 < 0 → ByChar T P W first last sa1) := by
      by_cases h0 : limit = 0
      · rw [if_pos h0]
        have := heapsort_spec (base := first) (N := last - first) (sa := sa) (T := T) (P := P) (m := m) (pa := pa) (W := W) (by omega) (by rw [show first + (last - first) = last by omega]; exact hG)
        rw [show first + (last - first) = last by omega] at this
        obtain ⟨sa1, e, h1, h2⟩ := this
        exact ⟨sa1, e, h1, fun _ => h2⟩
      · rw [if_neg h0]
        refine ⟨sa, rfl, Mov.refl _ _ _, fun h => ?_⟩
        rcases hli (by omega) with h1 | h1
        · omega
        · exact h1
    obtain ⟨sa1, e1, m1, hby⟩ := hheap
    rw [bind_some' e1]
    have hG1 := hG.mov m1
    have hstep : StepOk T P m pa first last sa1 st (if limit - 1 < 0 then runStep T pa sa1 st first last W.length
        else partStep T pa sa1 st first last W.length (limit - 1)) := by
      by_cases h0 : limit - 1 < 0
      · rw [if_pos h0]
        exact runStep_spec hG1 hF.some (by omega) hsm (hby h0) hst' hlow' hnext'
      · rw [if_neg h0]
        exact partStep_spec hG1 hF.some (by omega) hsm (by omega) hst' hlow' hnext'
    obtain ⟨sa2, st2, f2, sa', e2, e3, h1, h2⟩ := hstep
    refine ⟨sa', ?_, m1.res.trans h1, h2⟩
    rw [bind_some' e2, ← e3]
    rfl

theorem mintro_run : ∀ (D : Nat) (W : List Nat), T.length - W.length ≤ D → ∀ (N : Nat) (f : Frame), f.last - f.first ≤ N → RunF T P m pa W f := by
  intro D
  induction D with
  | zero =>
    intro W hD N
    induction N with
    | zero => intro f hf; exact mintro_round (fun g hg => by omega) (fun x g h => by omega)
    | succ N ih => intro f hf; exact mintro_round (fun g hg => ih g (by omega)) (fun x g h => by omega)
  | succ D ihD =>
    intro W hD N
    induction N with
    | zero => intro f hf; exact mintro_round (fun g hg => by omega) (fun x g h => ihD _ (by simp; omega) _ g (Nat.le_refl _))
    | succ N ih => intro f hf; exact mintro_round (fun g hg => ih g (by omega)) (fun x g h => ihD _ (by simp; omega) _ g (Nat.le_refl _))

/-- `ss_mintrosort` sorts a group of at most 1024 substrings that start with `W`. -/
theorem mintrosort_spec {first last : Nat} {sa : List Int} (hG : Grp T P m pa W first last sa) (hW : W ≠ []) (hfl : first ≤ last) (hN : last - first ≤ 1024) :
    ∃ sa', mintrosort T pa sa first last W.length = some sa' ∧ Res first last sa sa' ∧ Srt (sub T P m) first last (cel sa') := by
  unfold mintrosort
  obtain ⟨l, el, hl⟩ := ilg_spec hN
  rw [bind_some' el]
  have := pot_block hN
  exact mintro_run _ W (Nat.le_refl _) _ ⟨first, last, W.length, l⟩ (Nat.le_refl _) sa []
    ⟨rfl, hW, hfl, hN, hG, fun h => Or.inl (by have h' : l < 0 := h; show last - first ≤ 8; omega)⟩ (by show 0 + pot (last - first) ≤ 16; omega)

end Bwtc.Ss
