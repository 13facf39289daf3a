import Verif.SsMerge
import Verif.SsIntro
import Verif.SsRoot

/-!
# `sssort` sorts a range
-/

set_option autoImplicit false

namespace Bwtc.Ss
open Sais (put inv put_spec inv_inv bind_some')
open Divsuf (getI dec sub)
open Suffix

variable {T : List Nat} {P : Nat → Nat} {m pa : Nat} {W : List Nat} {K : Nat → List Nat} {J : Int → Prop}

/-- What a procedure that works on the cells from `first` to `last` with a buffer may do. -/
structure Wk (J : Int → Prop) (first last buf n : Nat) (sa sa' : List Int) : Prop where
  len : sa'.length = sa.length
  off : ∀ r, r < first ∨ last ≤ r → r < buf ∨ buf + n ≤ r → cel sa' r = cel sa r
  perm : Perm first last (cel sa) (cel sa')
  bperm : Perm buf (buf + n) (cel sa) (cel sa')
  bj : (∀ r, buf ≤ r → r < buf + n → J (cel sa r)) → ∀ r, buf ≤ r → r < buf + n → J (cel sa' r)

theorem Wk.refl (J : Int → Prop) (first last buf n : Nat) (sa : List Int) : Wk J first last buf n sa sa :=
  ⟨rfl, fun _ _ _ => rfl, Perm.refl _ _ _, Perm.refl _ _ _, fun h => h⟩

theorem Wk.trans {first last buf n : Nat} {sa sa' sa'' : List Int} (h : Wk J first last buf n sa sa') (h' : Wk J first last buf n sa' sa'') : Wk J first last buf n sa sa'' :=
  ⟨by rw [h'.len, h.len], fun r h1 h2 => by rw [h'.off r h1 h2, h.off r h1 h2], h.perm.trans h'.perm, h.bperm.trans h'.bperm, fun h1 => h'.bj (h.bj h1)⟩

theorem Merged.wk {a b first last buf n : Nat} {sa sa' : List Int} (h : Merged K J a b buf n sa sa') (h1 : first ≤ a) (hab : a ≤ b) (h2 : b ≤ last) (h3 : last ≤ buf) : Wk J first last buf n sa sa' :=
  ⟨h.len, fun r h4 h5 => h.off r (by omega) h5, h.perm.extend h1 h2 hab (fun r h4 h5 h6 => by rw [h.off r h6 (by omega)]), h.bperm, h.bj⟩

/-- The sorted runs in front of cell `e`; `i` is the number of blocks, `k` the size of a block. -/
inductive Runs (K : Nat → List Nat) (first : Nat) (f : Nat → Int) : Nat → Nat → Nat → Prop
  | nil (k : Nat) : Runs K first f first k 0
  | odd (e k i : Nat) : Srt K e (e + k) f → Runs K first f e (2 * k) i → Runs K first f (e + k) k (2 * i + 1)
  | even (e k i : Nat) : 0 < i → Runs K first f e (2 * k) i → Runs K first f e k (2 * i)

theorem Runs.ge {first : Nat} {f : Nat → Int} {e k i : Nat} (h : Runs K first f e k i) : first ≤ e := by
  induction h with
  | nil k => exact Nat.le_refl _
  | odd e k i _ _ ih => omega
  | even e k i _ _ ih => exact ih

theorem Runs.congr {first : Nat} {f g : Nat → Int} {e k i : Nat} (h : Runs K first f e k i) (hg : ∀ r, first ≤ r → r < e → g r = f r) : Runs K first g e k i := by
  induction h with
  | nil k => exact Runs.nil k
  | odd e k i h1 h2 ih => exact Runs.odd e k i (h1.congr (fun r h3 h4 => hg r (by have := h2.ge; omega) h4)) (ih (fun r h3 h4 => hg r h3 (by omega)))
  | even e k i h1 h2 ih => exact Runs.even e k i h1 (ih hg)

theorem Wk.good {first last last' buf n : Nat} {sa sa' : List Int} {Q : Nat → Prop} (h : Wk J first last' buf n sa sa') (hQ : ∀ r, first ≤ r → r < last → Q (dec (cel sa r)))
    (hl : last' ≤ last) (hb : last ≤ buf) : ∀ r, first ≤ r → r < last → Q (dec (cel sa' r)) := by
  intro r h1 h2
  by_cases h3 : r < last'
  · exact h.perm.all (Q := Q) (fun r h4 h5 => hQ r h4 (by omega)) r h1 h3
  · rw [h.off r (by omega) (by omega)]; exact hQ r h1 h2

theorem mergeUp_spec {first bu n : Nat} {f : Nat → Int} {b k i : Nat} (hR : Runs (sub T P m) first f b k i) : ∀ (sa : List Int), (∀ r, first ≤ r → r < b → cel sa r = f r) → Env T P m pa sa → pa ≤ sa.length →
    0 < k → Srt (sub T P m) b (b + k) (cel sa) → b + k ≤ bu → bu + n ≤ pa → b + k - first < 2 ^ 32 → (∀ r, first ≤ r → r < b + k → Good T P m W (dec (cel sa r))) →
    ∃ sa', mergeUp T pa W.length bu n sa b k i = some sa' ∧ Runs (sub T P m) first (cel sa') (b + k) k (i + 1) ∧ Wk J first (b + k) bu n sa sa' := by
  induction hR with
  | nil k =>
    intro sa hf hE hpa hk hS h1 h2 h3 hg
    rw [mergeUp, if_neg (by omega)]
    exact ⟨sa, rfl, Runs.odd first k 0 hS (Runs.nil _), Wk.refl _ _ _ _ _ _⟩
  | odd e k i hS0 hR0 ih =>
    intro sa hf hE hpa hk hS h1 h2 h3 hg
    have hge := hR0.ge
    rw [mergeUp, if_pos (by omega), if_neg (by omega), show e + k - k = e by omega, show (2 * i + 1) / 2 = i by omega]
    have hg' : ∀ r, e ≤ r → r < e + k + k → Good T P m W (dec (cel sa r)) := fun r h4 h5 => hg r (by omega) h5
    obtain ⟨s1, e1, M⟩ := swapmerge_spec (J := J) (buf := bu) (N := n) hE hpa (show e ≤ e + k by omega) (show e + k ≤ e + k + k by omega) (by omega) h1 h2 (by omega)
      (hS0.congr (fun r h4 h5 => hf r (by omega) h5)) hS hg'
    rw [bind_some' e1]
    have w1 : Wk J first (e + k + k) bu n sa s1 := M.wk hge (by omega) (Nat.le_refl _) h1
    have hlow : ∀ r, r < e → cel s1 r = cel sa r := fun r hr => M.off r (Or.inl hr) (Or.inl (by omega))
    obtain ⟨s2, e2, R2, w2⟩ := ih s1 (fun r h4 h5 => by rw [hlow r h5, hf r h4 (by omega)]) (hE.frame M.len (fun r hr => M.off r (by omega) (by omega))) (by rw [M.len]; exact hpa) (by omega)
      (by rw [show e + 2 * k = e + k + k by omega]; exact M.srt) (by omega) h2 (by omega) (by rw [show e + 2 * k = e + k + k by omega]; exact w1.good hg (Nat.le_refl _) h1)
    rw [show e + 2 * k = e + k + k by omega] at R2 w2
    exact ⟨s2, e2, Runs.even _ k (i + 1) (by omega) R2, w1.trans w2⟩
  | even e k i hi hR0 ih =>
    intro sa hf hE hpa hk hS h1 h2 h3 hg
    rw [mergeUp, if_neg (by omega)]
    exact ⟨sa, rfl, Runs.odd e k i hS (hR0.congr hf), Wk.refl _ _ _ _ _ _⟩

theorem mergeAll_spec {first middle bu n : Nat} {f : Nat → Int} {b k i : Nat} (hR : Runs (sub T P m) first f b k i) : ∀ (sa : List Int), (∀ r, first ≤ r → r < b → cel sa r = f r) → Env T P m pa sa → pa ≤ sa.length →
    0 < k → b ≤ middle → Srt (sub T P m) b middle (cel sa) → middle ≤ bu → bu + n ≤ pa → middle - first < 2 ^ 32 → (∀ r, first ≤ r → r < middle → Good T P m W (dec (cel sa r))) →
    ∃ sa', mergeAll T pa W.length middle bu n sa b k i = some sa' ∧ Srt (sub T P m) first middle (cel sa') ∧ Wk J first middle bu n sa sa' := by
  induction hR with
  | nil k =>
    intro sa hf hE hpa hk hb hS h1 h2 h3 hg
    rw [mergeAll, if_neg (by omega)]
    exact ⟨sa, rfl, hS, Wk.refl _ _ _ _ _ _⟩
  | odd e k i hS0 hR0 ih =>
    intro sa hf hE hpa hk hb hS h1 h2 h3 hg
    have hge := hR0.ge
    rw [mergeAll, if_pos (by omega), if_pos (by omega), if_neg (by omega), show e + k - k = e by omega, show (2 * i + 1) / 2 = i by omega]
    have hg' : ∀ r, e ≤ r → r < middle → Good T P m W (dec (cel sa r)) := fun r h4 h5 => hg r (by omega) h5
    obtain ⟨s1, e1, M⟩ := swapmerge_spec (J := J) (buf := bu) (N := n) hE hpa (show e ≤ e + k by omega) (show e + k ≤ middle by omega) (by omega) h1 h2 (by omega)
      (hS0.congr (fun r h4 h5 => hf r (by omega) h5)) hS hg'
    rw [bind_some' e1]
    have w1 : Wk J first middle bu n sa s1 := M.wk hge (by omega) (Nat.le_refl _) h1
    have hlow : ∀ r, r < e → cel s1 r = cel sa r := fun r hr => M.off r (Or.inl hr) (Or.inl (by omega))
    obtain ⟨s2, e2, S2, w2⟩ := ih s1 (fun r h4 h5 => by rw [hlow r h5, hf r h4 (by omega)]) (hE.frame M.len (fun r hr => M.off r (by omega) (by omega))) (by rw [M.len]; exact hpa) (by omega) (by omega)
      M.srt h1 h2 h3 (w1.good hg (Nat.le_refl _) h1)
    exact ⟨s2, e2, S2, w1.trans w2⟩
  | even e k i hi hR0 ih =>
    intro sa hf hE hpa hk hb hS h1 h2 h3 hg
    rw [mergeAll, if_pos (by omega), if_neg (by omega), show 2 * i / 2 = i by omega]
    exact ih sa hf hE hpa (by omega) hb hS h1 h2 h3 hg

/-- What is done to the range and to the buffer, that may be a part of the range. -/
structure Out (first last buf n : Nat) (sa sa' : List Int) : Prop where
  len : sa'.length = sa.length
  off : ∀ r, r < first ∨ last ≤ r → r < buf ∨ buf + n ≤ r → cel sa' r = cel sa r
  perm : Perm first last (cel sa) (cel sa')

theorem Out.refl (first last buf n : Nat) (sa : List Int) : Out first last buf n sa sa := ⟨rfl, fun _ _ _ => rfl, Perm.refl _ _ _⟩

theorem Out.trans {first last buf n : Nat} {sa sa' sa'' : List Int} (h : Out first last buf n sa sa') (h' : Out first last buf n sa' sa'') : Out first last buf n sa sa'' :=
  ⟨by rw [h'.len, h.len], fun r h1 h2 => by rw [h'.off r h1 h2, h.off r h1 h2], h.perm.trans h'.perm⟩

theorem Res.out {a b first last buf n : Nat} {sa sa' : List Int} (h : Res a b sa sa') (h1 : first ≤ a) (hab : a ≤ b) (h2 : b ≤ last) : Out first last buf n sa sa' :=
  have h := h.extend h1 h2 hab
  ⟨h.len, fun r h4 _ => h.frame r h4, h.perm⟩

theorem Wk.out {a b first last bu nu buf n : Nat} {sa sa' : List Int} (h : Wk J a b bu nu sa sa') (h1 : first ≤ a) (hab : a ≤ b) (h2 : b ≤ last) (h3 : b ≤ bu)
    (hB : bu + nu ≤ last ∨ (last ≤ bu ∧ bu = buf ∧ nu = n)) : Out first last buf n sa sa' := by
  refine ⟨h.len, fun r h4 h5 => h.off r (by omega) (by omega), ?_⟩
  rcases hB with hB | hB
  · refine Perm.join (c := bu) (h.perm.extend h1 h3 hab (fun r h4 h5 h6 => by rw [h.off r h6 (by omega)])) ?_ (by omega) (by omega)
    exact h.bperm.extend (Nat.le_refl _) hB (by omega) (fun r h4 h5 h6 => by rw [h.off r (by omega) h6])
  · exact h.perm.extend h1 h2 hab (fun r h4 h5 h6 => by rw [h.off r h6 (by omega)])

theorem Out.env {first last buf n : Nat} {sa sa' : List Int} (h : Out first last buf n sa sa') (hE : Env T P m pa sa) (h1 : last ≤ pa) (h2 : buf + n ≤ pa) : Env T P m pa sa' :=
  hE.frame h.len (fun r hr => h.off r (by omega) (by omega))

/-- The blocks. -/
theorem blocks_run {first middle last buf n : Nat} (hW : W ≠ []) (hml : middle ≤ last) (hlp : last ≤ pa) (hb : last ≤ buf ∨ (buf = middle ∧ buf + n = last)) (hbp : buf + n ≤ pa) (hsz : last - first < 2 ^ 32) :
    ∀ (d : Nat) (sa : List Int) (a i : Nat), middle - a ≤ d → a ≤ middle → Env T P m pa sa → pa ≤ sa.length → Runs (sub T P m) first (cel sa) a 1024 i →
      (∀ r, a ≤ r → r < last → 0 ≤ cel sa r) → (∀ r, first ≤ r → r < last → Good T P m W (dec (cel sa r))) →
      ∃ sa' a' i', blocks T pa W.length middle last buf n sa a i = some (sa', a', i') ∧ a ≤ a' ∧ a' ≤ middle ∧ middle - a' ≤ 1024 ∧ Runs (sub T P m) first (cel sa') a' 1024 i' ∧
        (∀ r, a' ≤ r → r < last → 0 ≤ cel sa' r) ∧ Out first last buf n sa sa' := by
  intro d
  induction d with
  | zero =>
    intro sa a i h1 h2 hE hpa hR hpos hg
    rw [blocks, if_neg (by omega)]
    exact ⟨sa, a, i, rfl, Nat.le_refl _, h2, by omega, hR, hpos, Out.refl _ _ _ _ _⟩
  | succ d ih =>
    intro sa a i h1 h2 hE hpa hR hpos hg
    rw [blocks]
    by_cases h3 : 1024 < middle - a
    · rw [if_pos h3]
      have hge := hR.ge
      obtain ⟨s1, e1, r1, S1⟩ := mintrosort_spec (T := T) (P := P) (m := m) (pa := pa) (W := W) (first := a) (last := a + 1024) (sa := sa)
        ⟨hE, by omega, by omega, fun r h4 h5 => hpos r h4 (by omega), fun r h4 h5 => hg r (by omega) (by omega)⟩ hW (by omega) (by omega)
      rw [bind_some' e1]
      have o1 : Out first last buf n sa s1 := r1.out hge (by omega) (by omega)
      have hg1 : ∀ r, first ≤ r → r < last → Good T P m W (dec (cel s1 r)) := o1.perm.all hg
      have R1 : Runs (sub T P m) first (cel s1) a 1024 i := hR.congr (fun r h4 h5 => r1.frame r (Or.inl h5))
      have hpos1 : ∀ r, a + 1024 ≤ r → r < last → 0 ≤ cel s1 r := fun r h4 h5 => by rw [r1.frame r (Or.inr h4)]; exact hpos r (by omega) h5
      have E1 : Env T P m pa s1 := o1.env hE hlp hbp
      have len1 := r1.len
      have step : ∀ bu nu : Nat, a + 1024 ≤ bu → bu + nu ≤ pa → (bu + nu ≤ last ∨ (last ≤ bu ∧ bu = buf ∧ nu = n)) →
          ∃ s2, mergeUp T pa W.length bu nu s1 a 1024 i = some s2 ∧ Runs (sub T P m) first (cel s2) (a + 1024) 1024 (i + 1) ∧ (∀ r, a + 1024 ≤ r → r < last → 0 ≤ cel s2 r) ∧ Out first last buf n s1 s2 := by
        intro bu nu h4 h5 h6
        obtain ⟨s2, e2, R2, w2⟩ := mergeUp_spec (J := fun x => 0 ≤ x) (W := W) (bu := bu) (n := nu) R1 s1 (fun _ _ _ => rfl) E1 (by omega) (by omega) S1 h4 h5 (by omega) (fun r h7 h8 => hg1 r h7 (by omega))
        refine ⟨s2, e2, R2, ?_, w2.out (Nat.le_refl _) (by omega) (by omega) h4 h6⟩
        intro r h7 h8
        by_cases h9 : bu ≤ r ∧ r < bu + nu
        · exact w2.bj (fun r h10 h11 => hpos1 r (by omega) (by omega)) r h9.1 h9.2
        · rw [w2.off r (by omega) (by omega)]; exact hpos1 r h7 h8
      have both : ∃ s2, (if last - (a + 1024) ≤ n then mergeUp T pa W.length buf n s1 a 1024 i else mergeUp T pa W.length (a + 1024) (last - (a + 1024)) s1 a 1024 i) = some s2 ∧
          Runs (sub T P m) first (cel s2) (a + 1024) 1024 (i + 1) ∧ (∀ r, a + 1024 ≤ r → r < last → 0 ≤ cel s2 r) ∧ Out first last buf n s1 s2 := by
        by_cases h4 : last - (a + 1024) ≤ n
        · rw [if_pos h4]
          refine step buf n (by omega) hbp ?_
          rcases hb with hb | hb
          · exact Or.inr ⟨hb, rfl, rfl⟩
          · exact Or.inl (by omega)
        · rw [if_neg h4]
          exact step (a + 1024) (last - (a + 1024)) (Nat.le_refl _) (by omega) (Or.inl (by omega))
      obtain ⟨s2, e2, R2, hpos2, o2⟩ := both
      simp only
      rw [bind_some' e2]
      obtain ⟨s3, a', i', e3, k1, k2, k3, R3, hpos3, o3⟩ := ih s2 (a + 1024) (i + 1) (by omega) (by omega) (o2.env E1 hlp hbp) (by rw [o2.len]; omega) R2 hpos2 (o2.perm.all hg1)
      exact ⟨s3, a', i', e3, by omega, k2, k3, R3, hpos3, o1.trans (o2.trans o3)⟩
    · rw [if_neg h3]
      exact ⟨sa, a, i, rfl, Nat.le_refl _, h2, by omega, hR, hpos, Out.refl _ _ _ _ _⟩

/-- The last merge when there is nothing to merge. -/
theorem inplacemerge_one {sa : List Int} {first depth : Nat} (h : first < sa.length) (h0 : 0 ≤ cel sa first) : inplacemerge T pa sa first first (first + 1) depth = some sa := by
  rw [inplacemerge, if_neg (by omega), bind_some' (get_cel (show first + 1 - 1 < sa.length by omega))]
  have : inplaceSearch T sa pa depth (idx (cel sa (first + 1 - 1))) first (first - first) ((first - first) / 2) (-1) = some (first, -1) := by
    rw [inplaceSearch, if_neg (by omega)]
  rw [bind_some' this]
  show (if first < first then _ else _) = _
  rw [if_neg (by omega)]
  have : (if cel sa (first + 1 - 1) < 0 then backUp sa (first + 1 - 1) else some (first + 1 - 1)) = some first := by
    rw [show first + 1 - 1 = first by omega, if_neg (by omega)]
  simp only
  rw [bind_some' this, if_pos rfl]
  rfl

/-- The blocks, their merges and the rest. -/
theorem sortRange_spec {first last buf n : Nat} {sa : List Int} (hW : W ≠ []) (hE : Env T P m pa sa) (hpa : pa ≤ sa.length) (h1 : first < last) (hb : last ≤ buf) (hbp : buf + n ≤ pa) (hsz : last - first < 2 ^ 32)
    (hpos : ∀ r, first ≤ r → r < last → 0 ≤ cel sa r) (hg : ∀ r, first ≤ r → r < last → Good T P m W (dec (cel sa r))) :
    ∃ sa', sortRange T pa sa first last buf n W.length = some sa' ∧ Out first last buf n sa sa' ∧ Srt (sub T P m) first last (cel sa') := by
  have main : ∀ middle bu nu : Nat, first ≤ middle → middle ≤ last → (last ≤ bu ∨ (bu = middle ∧ bu + nu = last)) → bu + nu ≤ pa →
      ∃ s1 a i s2 s3, blocks T pa W.length middle last bu nu sa first 0 = some (s1, a, i) ∧ mintrosort T pa s1 a middle W.length = some s2 ∧
        mergeAll T pa W.length middle bu nu s2 a 1024 i = some s3 ∧ Srt (sub T P m) first middle (cel s3) ∧ Out first last bu nu sa s3 ∧ (∀ r, middle ≤ r → r < last → 0 ≤ cel s3 r) := by
    intro middle bu nu h2 h3 h4 h5
    obtain ⟨s1, a, i, e1, a1, a2, a3, R1, p1, o1⟩ := blocks_run (W := W) hW h3 (show last ≤ pa by omega) h4 h5 hsz _ sa first 0 (Nat.le_refl _) h2 hE hpa (Runs.nil _) hpos hg
    have E1 := o1.env hE (by omega) h5
    have g1 : ∀ r, first ≤ r → r < last → Good T P m W (dec (cel s1 r)) := o1.perm.all hg
    have l1 := o1.len
    obtain ⟨s2, e2, r2, S2⟩ := mintrosort_spec (T := T) (P := P) (m := m) (pa := pa) (W := W) (first := a) (last := middle) (sa := s1)
      ⟨E1, by omega, by omega, fun r h6 h7 => p1 r h6 (by omega), fun r h6 h7 => g1 r (by omega) (by omega)⟩ hW a2 a3
    have o2 : Out first last bu nu s1 s2 := r2.out (by omega) a2 h3
    have E2 := o2.env E1 (by omega) h5
    have g2 : ∀ r, first ≤ r → r < last → Good T P m W (dec (cel s2 r)) := o2.perm.all g1
    have l2 := o2.len
    have p2 : ∀ r, middle ≤ r → r < last → 0 ≤ cel s2 r := fun r h6 h7 => by rw [r2.frame r (Or.inr h6)]; exact p1 r (by omega) h7
    obtain ⟨s3, e3, S3, w3⟩ := mergeAll_spec (J := fun x => 0 ≤ x) (W := W) (middle := middle) (bu := bu) (n := nu) R1 s2 (fun r h6 h7 => r2.frame r (Or.inl h7)) E2 (by omega) (by omega) a2 S2 (by omega) h5 (by omega)
      (fun r h6 h7 => g2 r h6 (by omega))
    refine ⟨s1, a, i, s2, s3, e1, e2, e3, S3, o1.trans (o2.trans (w3.out (Nat.le_refl _) h2 h3 (by omega) ?_)), ?_⟩
    · rcases h4 with h4 | h4
      · exact Or.inr ⟨h4, rfl, rfl⟩
      · exact Or.inl (by omega)
    · intro r h6 h7
      by_cases h9 : bu ≤ r ∧ r < bu + nu
      · exact w3.bj (fun r h10 h11 => p2 r (by omega) (by omega)) r h9.1 h9.2
      · rw [w3.off r (by omega) (by omega)]; exact p2 r h6 h7
  have ext : plan first last buf n = some (last, 0, buf, n) → ∃ sa', sortRange T pa sa first last buf n W.length = some sa' ∧ Out first last buf n sa sa' ∧ Srt (sub T P m) first last (cel sa') := by
    intro hp
    obtain ⟨s1, a, i, s2, s3, e1, e2, e3, S3, o3, -⟩ := main last buf n (by omega) (Nat.le_refl _) (Or.inl hb) hbp
    refine ⟨s3, ?_, o3, S3⟩
    unfold sortRange
    rw [bind_some' hp]
    simp only
    rw [bind_some' e1]
    simp only
    rw [bind_some' e2, bind_some' e3]
    rfl
  by_cases hc : n < 1024 ∧ n < last - first
  · obtain ⟨s, es, s1, s2⟩ := isqrt_spec (x := last - first) (by omega)
    by_cases hl : n < s
    · have hp : plan first last buf n = some (last - min s 1024, min s 1024, last - min s 1024, min s 1024) := by
        unfold plan
        rw [if_pos hc, bind_some' es, if_pos hl]
        simp only
        rw [if_neg (by omega)]; rfl
      generalize hlim : min s 1024 = lim at hp
      obtain ⟨t1, a, i, t2, t3, e1, e2, e3, S3, o3, p3⟩ := main (last - lim) (last - lim) lim (by omega) (by omega) (Or.inr ⟨rfl, by omega⟩) (by omega)
      have E3 := o3.env hE (by omega) (by omega)
      have g3 : ∀ r, first ≤ r → r < last → Good T P m W (dec (cel t3 r)) := o3.perm.all hg
      have l3 := o3.len
      obtain ⟨t4, e4, r4, S4⟩ := mintrosort_spec (T := T) (P := P) (m := m) (pa := pa) (W := W) (first := last - lim) (last := last) (sa := t3)
        ⟨E3, by omega, by omega, p3, fun r h6 h7 => g3 r (by omega) h7⟩ hW (by omega) (by omega)
      have l4 := r4.len
      have o4 : Out first last buf n sa t4 := by
        refine ⟨by omega, fun r h2 h3 => by rw [r4.frame r (by omega), o3.off r h2 (by omega)], o3.perm.trans (r4.extend (show first ≤ last - lim by omega) (Nat.le_refl _) (by omega)).perm⟩
      have fin : ∃ t5, inplacemerge T pa t4 first (last - lim) last W.length = some t5 ∧ Res first last t4 t5 ∧ Srt (sub T P m) first last (cel t5) := by
        by_cases hf : first < last - lim
        · exact inplacemerge_spec (W := W) (o4.env hE (by omega) hbp) (by omega) hf (by omega) (by omega) (S3.congr (fun r h2 h3 => r4.frame r (Or.inl h3))) S4 (o4.perm.all hg)
        · have f1 : last - lim = first := by omega
          have f2 : last = first + 1 := by omega
          have h0 : 0 ≤ cel t4 first := by
            have := S4.first (by omega)
            rwa [f1] at this
          rw [f1, f2]
          exact ⟨t4, inplacemerge_one (by omega) h0, Res.refl _ _ _, Srt.one h0⟩
      obtain ⟨t5, e5, r5, S5⟩ := fin
      refine ⟨t5, ?_, o4.trans (r5.out (Nat.le_refl _) (by omega) (Nat.le_refl _)), S5⟩
      unfold sortRange
      rw [bind_some' hp]
      simp only
      rw [bind_some' e1]
      simp only
      rw [bind_some' e2, bind_some' e3, if_pos (by omega), bind_some' e4, e5]
    · apply ext
      unfold plan
      rw [if_pos hc, bind_some' es, if_neg hl]; rfl
  · apply ext
    unfold plan
    rw [if_neg hc]

end Bwtc.Ss
