import Verif.SaisStage1

/-!
# The reduced problem

The text of the names of the LMS substrings, and how its suffix array gives the order of the LMS suffixes.
-/

set_option autoImplicit false

namespace Bwtc.Sais
open Induce Suffix Classical

variable {T : List Nat}

/-- The number of an LMS position from the left. -/
noncomputable def idx (T : List Nat) (p : Nat) : Nat := cnt T.length (fun q => isLMS T q ∧ q < p)

theorem idx_lt {p : Nat} (h : isLMS T p) : idx T p < lmsCount T :=
  cnt_lt h.1.1 (fun a => by have := a.2; omega) h (fun _ _ a => a.1)

theorem idx_mono {p q : Nat} (hp : isLMS T p) (h : p < q) : idx T p < idx T q :=
  cnt_lt hp.1.1 (fun a => by have := a.2; omega) ⟨hp, h⟩ (fun _ _ a => ⟨a.1, by have := a.2; omega⟩)

theorem idx_inj {p q : Nat} (hp : isLMS T p) (hq : isLMS T q) (h : idx T p = idx T q) : p = q := by
  rcases Nat.lt_trichotomy p q with a | a | a
  · have := idx_mono hp a; omega
  · exact a
  · have := idx_mono hq a; omega

theorem idx_surj {r : Nat} (hr : r < lmsCount T) : ∃ p, isLMS T p ∧ idx T p = r := by
  obtain ⟨p, _, h2, h3⟩ := rank_surj (n := T.length) (P := isLMS T) (lt := fun p q => p < q)
    (fun p => Nat.lt_irrefl p) (fun _ _ _ => Nat.lt_trans) (fun p q _ _ _ _ => Nat.lt_trichotomy p q) hr
  exact ⟨p, h2, h3⟩

theorem idx_next {p a : Nat} (hp : isLMS T p) (h : NextLMS T p a) : idx T a = idx T p + 1 :=
  cnt_insert (P := fun q => isLMS T q ∧ q < p) (Q := fun q => isLMS T q ∧ q < a) hp.1.1
    (fun b => by have := b.2; omega) (fun q _ => by
      constructor
      · rintro ⟨h1, h2⟩
        by_cases e : q = p
        · exact Or.inr e
        · refine Or.inl ⟨h1, ?_⟩
          apply Classical.byContradiction
          intro hge
          exact h.2.2 q (by omega) h2 h1
      · rintro (⟨h1, h2⟩ | e)
        · exact ⟨h1, by have := h.2.1; omega⟩
        · rw [e]; exact ⟨hp, h.2.1⟩)

/-- The text of the names. -/
def IsNames (T : List Nat) (nm : Nat → Nat) (R : List Nat) : Prop :=
  R.length = lmsCount T ∧ ∀ p, isLMS T p → ch R (idx T p) + 1 = nm p

theorem names_sless {nm : Nat → Nat} {name : Nat} (hN : Named T nm name) {R : List Nat} (hR : IsNames T nm R) {p q : Nat}
    (hp : isLMS T p) (hq : isLMS T q) (h : sless T p q) : sless R (idx T p) (idx T q) := by
  suffices H : ∀ d p q, T.length - p ≤ d → isLMS T p → isLMS T q → sless T p q → sless R (idx T p) (idx T q) from
    H _ p q (Nat.le_refl _) hp hq h
  intro d
  induction d with
  | zero => intro p q hd hp; have := hp.1.1; omega
  | succ d ih =>
    intro p q hd hp hq h
    have h1 := hR.2 p hp
    have h2 := hR.2 q hq
    rw [sless_step (by rw [hR.1]; exact idx_lt hp) (by rw [hR.1]; exact idx_lt hq)]
    rcases Nat.lt_trichotomy (nm p) (nm q) with a | a | a
    · exact Or.inl (by omega)
    · right
      refine ⟨by omega, ?_⟩
      rcases hN.same p q hp hq a with e | ⟨x, y, hx, hy, hxy⟩
      · subst e; exact absurd h (sless_irrefl p)
      · rw [← idx_next hp hx, ← idx_next hq hy]
        exact ih x y (by have := hx.2.1; have := hp.1.1; omega) hx.1 hy.1 (hxy.mp h)
    · exact absurd (sless_trans h (hN.less q p hq hp a)) (sless_irrefl p)

theorem names_row {nm : Nat → Nat} {name : Nat} (hN : Named T nm name) {R : List Nat} (hR : IsNames T nm R) {p : Nat}
    (hp : isLMS T p) : row R (idx T p) = lrow T p := by
  unfold row lrow
  symm
  rw [hR.1]
  apply cnt_bij (idx T)
  · rintro q _ ⟨h1, h2⟩
    exact ⟨idx_lt h1, names_sless hN hR h1 hp h2⟩
  · rintro q r _ _ ⟨h1, _⟩ ⟨h2, _⟩ e
    exact idx_inj h1 h2 e
  · intro r hr h
    obtain ⟨q, hq, e⟩ := idx_surj hr
    refine ⟨q, hq.1.1, ⟨hq, ?_⟩, e⟩
    rw [← e] at h
    rcases sless_total (T := T) (Nat.le_of_lt hq.1.1) (Nat.le_of_lt hp.1.1) with a | a | a
    · exact a
    · subst a; exact absurd h (sless_irrefl _)
    · exact absurd (sless_trans h (names_sless hN hR hp hq a)) (sless_irrefl _)

/-! ## Moving the names -/

theorem toNats_spec (A : List Int) (h : ∀ v ∈ A, 0 ≤ v) : ∃ R, toNats A = some R ∧ R.map Int.ofNat = A := by
  induction A with
  | nil => exact ⟨[], rfl, rfl⟩
  | cons v A ih =>
    obtain ⟨R, h1, h2⟩ := ih (fun w hw => h w (List.mem_cons_of_mem _ hw))
    have hv := h v (List.mem_cons_self ..)
    refine ⟨v.toNat :: R, ?_, ?_⟩
    · unfold toNats
      rw [if_neg (by omega), h1]
      rfl
    · rw [List.map_cons, h2]
      congr 1
      exact Int.toNat_of_nonneg hv

/-- The cells of a stretch of the memory. -/
theorem get_slice {A : List Int} {a m i : Nat} (h : i < m) : ((A.drop a).take m)[i]? = A[a + i]? := by
  rw [List.getElem?_take_of_lt h, List.getElem?_drop]

/-- Lines 585-587. -/
theorem moveNames_spec {nm : Nat → Nat} {sa : List Int} {base t : Nat} (ht : t ≤ T.length / 2) (hnm : ∀ p, isLMS T p → 1 ≤ nm p)
    (hsa : ∀ p, isLMS T p → sa[lmsCount T + p / 2]? = some (nm p : Int))
    (hz : ∀ r, lmsCount T ≤ r → r < lmsCount T + T.length / 2 → (∀ p, isLMS T p → r ≠ lmsCount T + p / 2) → sa[r]? = some 0)
    (hbase : T.length / 2 ≤ base) {mem : List Int} (hmem : base + lmsCount T ≤ mem.length)
    (hsame : ∀ r, r < t → mem[lmsCount T + r]? = sa[lmsCount T + r]?)
    (hdone : ∀ p, isLMS T p → t ≤ p / 2 → mem[base + idx T p]? = some ((nm p : Int) - 1)) :
    ∃ mem', moveNames (lmsCount T) base t (cnt T.length (fun q => isLMS T q ∧ q / 2 < t)) mem = some mem' ∧
      mem'.length = mem.length ∧ (∀ p, isLMS T p → mem'[base + idx T p]? = some ((nm p : Int) - 1)) ∧
      ∀ r, r < base ∨ base + lmsCount T ≤ r → mem'[r]? = mem[r]? := by
  induction t generalizing mem with
  | zero => exact ⟨mem, rfl, rfl, fun p hp => hdone p hp (by omega), fun _ _ => rfl⟩
  | succ t ih =>
    unfold moveNames
    -- the space ahead of the writes
    have hroom : t < cnt T.length (fun q => isLMS T q ∧ q / 2 < t) + (T.length / 2 - lmsCount T) + 1 := by
      have h1 : lmsCount T = cnt T.length (fun q => isLMS T q ∧ q / 2 < t) + cnt T.length (fun q => isLMS T q ∧ t ≤ q / 2) :=
        cnt_or (R := isLMS T) (P := fun q => isLMS T q ∧ q / 2 < t) (Q := fun q => isLMS T q ∧ t ≤ q / 2)
          (fun q _ => by
            constructor
            · intro h
              by_cases e : q / 2 < t
              · exact Or.inl ⟨h, e⟩
              · exact Or.inr ⟨h, by omega⟩
            · rintro (h | h) <;> exact h.1) (fun q _ a b => by have := a.2; have := b.2; omega)
      have h2 : cnt T.length (fun q => isLMS T q ∧ t ≤ q / 2) ≤ T.length / 2 - t :=
        cnt_inj_le (fun q => q / 2 - t) (fun p _ h => by have := lms_half_lt h.1; have := h.2; omega)
          (fun p q _ _ hp hq h => lms_half hp.1 hq.1 (by have := hp.2; have := hq.2; omega))
      have h3 := lmsCount_le (T := T)
      omega
    have h3 := lmsCount_le (T := T)
    by_cases hl : ∃ p, isLMS T p ∧ p / 2 = t
    · obtain ⟨p, hp, hpt⟩ := hl
      have hv := hsa p hp
      have h1 := hnm p hp
      rw [hpt, ← hsame t (by omega)] at hv
      have hidx : idx T p = cnt T.length (fun q => isLMS T q ∧ q / 2 < t) := cnt_congr (fun q _ => by
        constructor
        · rintro ⟨a, b⟩
          have := lms_gap a hp b
          exact ⟨a, by omega⟩
        · rintro ⟨a, b⟩
          exact ⟨a, by omega⟩)
      have hins : cnt T.length (fun q => isLMS T q ∧ q / 2 < t + 1) = cnt T.length (fun q => isLMS T q ∧ q / 2 < t) + 1 :=
        cnt_insert (P := fun q => isLMS T q ∧ q / 2 < t) (Q := fun q => isLMS T q ∧ q / 2 < t + 1) hp.1.1
          (fun a => by have := a.2; omega) (fun q _ => by
            constructor
            · rintro ⟨a, b⟩
              by_cases e : q / 2 = t
              · exact Or.inr (lms_half a hp (by omega))
              · exact Or.inl ⟨a, by omega⟩
            · rintro (⟨a, b⟩ | e)
              · exact ⟨a, by omega⟩
              · rw [e]; exact ⟨hp, by omega⟩)
      have hi := idx_lt hp
      have hset := get_set1 (A := mem) (i := base + idx T p) (v := (nm p : Int) - 1) (by omega)
      obtain ⟨mem', g1, g2, g3, g4⟩ := ih (mem := mem.set (base + idx T p) ((nm p : Int) - 1)) (by omega)
        (by rw [List.length_set]; exact hmem)
        (by
          intro r hr
          rw [hset.2 _ (by omega)]
          exact hsame r (by omega))
        (by
          intro q hq hqt
          by_cases e : q = p
          · rw [e]; exact hset.1
          · have hne : idx T q ≠ idx T p := fun a => e (idx_inj hq hp a)
            rw [hset.2 _ (by omega)]
            apply hdone q hq
            have : q / 2 ≠ t := fun a => e (lms_half hq hp (by omega))
            omega)
      refine ⟨mem', ?_, by rw [g2, List.length_set], g3, ?_⟩
      · rw [bind_some' hv, if_pos (by omega), hins, if_neg (by omega), Nat.add_sub_cancel, ← hidx,
          bind_some' (put_spec (by omega) _)]
        rw [← hidx] at g1
        exact g1
      · intro r hr
        rw [g4 r hr, hset.2 r (by omega)]
    · have hv := hz (lmsCount T + t) (by omega) (by omega) (fun p hp e => hl ⟨p, hp, by omega⟩)
      rw [← hsame t (by omega)] at hv
      have hcc : cnt T.length (fun q => isLMS T q ∧ q / 2 < t + 1) = cnt T.length (fun q => isLMS T q ∧ q / 2 < t) :=
        cnt_congr (fun q _ => by
          constructor
          · rintro ⟨a, b⟩
            refine ⟨a, ?_⟩
            have : q / 2 ≠ t := fun e => hl ⟨q, a, e⟩
            omega
          · rintro ⟨a, b⟩; exact ⟨a, by omega⟩)
      obtain ⟨mem', g1, g2, g3, g4⟩ := ih (mem := mem) (by omega) hmem (fun r hr => hsame r (by omega))
        (by
          intro q hq hqt
          apply hdone q hq
          have : q / 2 ≠ t := fun e => hl ⟨q, hq, e⟩
          omega)
      refine ⟨mem', ?_, g2, g3, g4⟩
      rw [bind_some' hv, if_neg (by simp), hcc, g1]

/-! ## From the suffix array of the names to the LMS suffixes -/

/-- Lines 589-597. -/
theorem positions_spec (hn : 0 < T.length) {base : Nat} {mem : List Int} (hmem : base + lmsCount T ≤ mem.length) :
    ∃ mem', lmsScan T (posAct base) (mem, lmsCount T) = some (mem', 0) ∧ mem'.length = mem.length ∧
      (∀ p, isLMS T p → mem'[base + idx T p]? = some (p : Int)) ∧
      ∀ r, r < base ∨ base + lmsCount T ≤ r → mem'[r]? = mem[r]? := by
  have hall : ∀ q, isLMS T q → ¬ T.length - 1 < q := by
    intro q hq a
    have := isS_next hq.1
    omega
  obtain ⟨s, h1, h2, h3, h4, h5⟩ := lmsScan_spec (act := posAct base) hn
    (fun i s => s.1.length = mem.length ∧ s.2 = cnt T.length (fun q => isLMS T q ∧ q < i + 1) ∧
      (∀ p, isLMS T p → i < p → s.1[base + idx T p]? = some (p : Int)) ∧
      ∀ r, r < base ∨ base + lmsCount T ≤ r → s.1[r]? = mem[r]?) (mem, lmsCount T)
    (by
      rintro i ⟨A, c⟩ hl ⟨a1, a2, a3, a4⟩
      simp only at a1 a2 a3 a4
      have hins : cnt T.length (fun q => isLMS T q ∧ q < i + 1 + 1) = cnt T.length (fun q => isLMS T q ∧ q < i + 1) + 1 :=
        cnt_insert (P := fun q => isLMS T q ∧ q < i + 1) (Q := fun q => isLMS T q ∧ q < i + 1 + 1) hl.1.1
          (fun a => by have := a.2; omega) (fun q _ => by
            constructor
            · rintro ⟨a, b⟩
              by_cases e : q = i + 1
              · exact Or.inr e
              · exact Or.inl ⟨a, by omega⟩
            · rintro (⟨a, b⟩ | e)
              · exact ⟨a, by omega⟩
              · rw [e]; exact ⟨hl, by omega⟩)
      have hidx : idx T (i + 1) = cnt T.length (fun q => isLMS T q ∧ q < i + 1) := rfl
      have hi := idx_lt hl
      have hset := get_set1 (A := A) (i := base + idx T (i + 1)) (v := ((i + 1 : Nat) : Int)) (by omega)
      refine ⟨(A.set (base + idx T (i + 1)) ((i + 1 : Nat) : Int), idx T (i + 1)), ?_, by rw [List.length_set]; exact a1, hidx, ?_, ?_⟩
      · unfold posAct
        simp only
        rw [a2, hins, if_neg (by omega), Nat.add_sub_cancel, ← hidx, bind_some' (put_spec (by omega) _)]
        rfl
      · intro p hp hip
        by_cases e : p = i + 1
        · rw [e]; exact hset.1
        · have hne : idx T p ≠ idx T (i + 1) := fun a => e (idx_inj hp hl a)
          simp only
          rw [hset.2 _ (by omega)]
          exact a3 p hp (by omega)
      · intro r hr
        simp only
        rw [hset.2 r (by omega)]
        exact a4 r hr)
    (by
      rintro i s hi hl ⟨a1, a2, a3, a4⟩
      refine ⟨a1, ?_, ?_, a4⟩
      · rw [a2]
        apply cnt_congr
        intro q _
        constructor
        · rintro ⟨a, b⟩
          refine ⟨a, ?_⟩
          have : q ≠ i + 1 := fun e => hl (by rw [← e]; exact a)
          omega
        · rintro ⟨a, b⟩; exact ⟨a, by omega⟩
      · intro p hp hip
        apply a3 p hp
        have : p ≠ i + 1 := fun e => hl (by rw [← e]; exact hp)
        omega)
    (by
      refine ⟨rfl, ?_, fun p hp h => absurd h (hall p hp), fun _ _ => rfl⟩
      apply cnt_congr
      intro q hq
      constructor
      · intro a; exact ⟨a, by omega⟩
      · exact fun a => a.1)
  rw [cnt_false (n := T.length) (P := fun q => isLMS T q ∧ q < 0 + 1) (fun q _ a => by
    have := isLMS_pos a.1; have := a.2; omega)] at h3
  refine ⟨s.1, ?_, h2, fun p hp => h4 p hp (isLMS_pos hp), h5⟩
  rw [h1, ← h3]

/-- Line 598. -/
theorem mapBack_spec {nm : Nat → Nat} {name : Nat} (hN : Named T nm name) {R : List Nat} (hR : IsNames T nm R) {base : Nat}
    (hbase : lmsCount T ≤ base) {mem : List Int} (hpos : ∀ p, isLMS T p → mem[base + idx T p]? = some (p : Int))
    (hsub : ∀ t, t < R.length → mem[row R t]? = some (t : Int)) :
    ∃ mem', loopUp (mapStep base) (lmsCount T) 0 mem = some mem' ∧ mem'.length = mem.length ∧
      (∀ p, isLMS T p → mem'[lrow T p]? = some (p : Int)) ∧ ∀ r, lmsCount T ≤ r → mem'[r]? = mem[r]? := by
  obtain ⟨mem', h1, h2, h3, h4⟩ := loopUp_spec (f := mapStep base) (fun i A => A.length = mem.length ∧
      (∀ p, isLMS T p → lrow T p < i → A[lrow T p]? = some (p : Int)) ∧ ∀ r, i ≤ r → A[r]? = mem[r]?) (lmsCount T) 0 mem
    (by
      rintro i A _ hi ⟨a1, a2, a3⟩
      obtain ⟨p, hp, e⟩ := lrow_surj (T := T) (r := i) (by omega)
      have hv := hsub (idx T p) (by rw [hR.1]; exact idx_lt hp)
      rw [names_row hN hR hp, e, ← a3 i (Nat.le_refl _)] at hv
      have hw := hpos p hp
      rw [← a3 _ (by omega)] at hw
      have hil : i < A.length := (List.getElem?_eq_some_iff.mp hv).1
      have hset := get_set1 (A := A) (i := i) (v := (p : Int)) hil
      refine ⟨A.set i p, ?_, by rw [List.length_set]; exact a1, ?_, ?_⟩
      · unfold mapStep
        rw [bind_some' hv, if_neg (by omega), Int.toNat_natCast, bind_some' hw]
        rfl
      · intro q hq hlt
        by_cases e2 : lrow T q = i
        · rw [e2, hset.1, lrow_inj hp hq (by omega)]
        · rw [hset.2 _ e2]
          exact a2 q hq (by omega)
      · intro r hr
        rw [hset.2 r (by omega)]
        exact a3 r (by omega))
    ⟨rfl, fun p hp h => by omega, fun _ _ => rfl⟩
  rw [Nat.zero_add] at h3 h4
  exact ⟨mem', h1, h2, fun p hp => h3 p hp (lrow_lt hp), h4⟩

/-! ## Stages 1 and 2 -/

theorem chooseFlags_eq (n fs k : Nat) : (chooseFlags n fs k).f1 = (placement fs k).f1 ∧
    (chooseFlags n fs k).f4 = (placement fs k).f4 ∧ (chooseFlags n fs k).f8 = (placement fs k).f8 ∧
    (chooseFlags n fs k).f64 = (placement fs k).f64 := by
  unfold chooseFlags
  simp only
  split
  · split
    · split <;> exact ⟨rfl, rfl, rfl, rfl⟩
    · split <;> exact ⟨rfl, rfl, rfl, rfl⟩
  · exact ⟨rfl, rfl, rfl, rfl⟩

/-- If `C` and `B` coincide then `C` is counted anew. -/
theorem same_f8 (n fs k : Nat) (h : (chooseFlags n fs k).same = true) : (chooseFlags n fs k).f8 = true := by
  obtain ⟨_, h4, h8, h64⟩ := chooseFlags_eq n fs k
  unfold Flags.same at h
  rw [h4, h64] at h
  rw [h8]
  revert h
  unfold placement
  split
  · split <;> exact fun h => by simp at h
  · split
    · split
      · exact fun h => by simp at h
      · split
        · exact fun h => by simp at h
        · exact fun _ => rfl
    · exact fun _ => rfl

/-- `LMSsort2` is used on short texts only. -/
theorem two_small (n fs k : Nat) (h : ((chooseFlags n fs k).f16 || (chooseFlags n fs k).f32) = true) : n + n < 2 ^ 31 := by
  revert h
  unfold chooseFlags
  simp only
  split
  · rename_i h
    exact fun _ => by omega
  · unfold placement
    intro h
    split at h
    · split at h <;> simp at h
    · split at h
      · split at h
        · simp at h
        · split at h <;> simp at h
      · simp at h

/-- `C` in the free space fits there. -/
theorem inside_le (n fs k : Nat) (h : (chooseFlags n fs k).inside = true) : k ≤ fs := by
  obtain ⟨h1, h4, _, _⟩ := chooseFlags_eq n fs k
  unfold Flags.inside at h
  rw [h1, h4] at h
  revert h
  unfold placement
  split
  · split <;> exact fun h => by simp at h
  · split
    · intro _; assumption
    · exact fun h => by simp at h

/-- Where the arrays lie. -/
theorem apart (n fs k : Nat) :
    (∀ c, offC n fs k = some c → n ≤ c ∧ c + k ≤ n + fs) ∧
    (∀ b, offB n fs k = some b → n ≤ b ∧ b + k ≤ n + fs) ∧
    (∀ d, offD n fs k = some d → ∃ d' b, d = some d' ∧ offB n fs k = some b ∧ n ≤ d' ∧ d' + 2 * k ≤ b) ∧
    (∀ b c, offB n fs k = some b → offC n fs k = some c → b + k ≤ c ∨
      (b = c ∧ (chooseFlags n fs k).same = true ∧ (chooseFlags n fs k).f8 = true ∧ offD n fs k = none ∧
        (chooseFlags n fs k).f16 = false)) := by
  unfold offD offB offC chooseFlags Flags.inside Flags.same
  by_cases h1 : k ≤ 256
  · by_cases h2 : k ≤ fs
    · have hp : placement fs k = { f1 := true } := by unfold placement; rw [if_pos h1, if_pos h2]
      simp only [hp]
      by_cases h3 : n ≤ (2 ^ 31 - 1) / 2 ∧ 2 ≤ n / k
      · rw [if_pos h3]
        by_cases h4 : (k * 2 : Int) ≤ (fs : Int) - k
        · simp [h4]; omega
        · simp [h4]; omega
      · rw [if_neg h3]; simp; omega
    · have hp : placement fs k = { f1 := true, f2 := true } := by unfold placement; rw [if_pos h1, if_neg h2]
      simp only [hp]
      by_cases h3 : n ≤ (2 ^ 31 - 1) / 2 ∧ 2 ≤ n / k
      · rw [if_pos h3]
        by_cases h4 : (k * 2 : Int) ≤ (fs : Int) - k
        · omega
        · simp [h4]
      · rw [if_neg h3]; simp
  · by_cases h2 : k ≤ fs
    · by_cases h5 : k ≤ fs - k
      · have hp : placement fs k = {} := by unfold placement; rw [if_neg h1, if_pos h2, if_pos h5]
        simp only [hp]
        by_cases h3 : n ≤ (2 ^ 31 - 1) / 2 ∧ 2 ≤ n / k
        · rw [if_pos h3]
          by_cases h4 : (k * 2 : Int) ≤ (fs : Int) - k * 2
          · simp [h4]; omega
          · simp [h4]; omega
        · rw [if_neg h3]; simp; omega
      · by_cases h6 : k ≤ 1024
        · have hp : placement fs k = { f2 := true } := by unfold placement; rw [if_neg h1, if_pos h2, if_neg h5, if_pos h6]
          simp only [hp]
          by_cases h3 : n ≤ (2 ^ 31 - 1) / 2 ∧ 2 ≤ n / k
          · rw [if_pos h3]; simp; omega
          · rw [if_neg h3]; simp; omega
        · have hp : placement fs k = { f64 := true, f8 := true } := by unfold placement; rw [if_neg h1, if_pos h2, if_neg h5, if_neg h6]
          simp only [hp]
          by_cases h3 : n ≤ (2 ^ 31 - 1) / 2 ∧ 2 ≤ n / k
          · rw [if_pos h3]; simp; omega
          · rw [if_neg h3]; simp; omega
    · have hp : placement fs k = { f4 := true, f8 := true } := by unfold placement; rw [if_neg h1, if_neg h2]
      simp only [hp]
      by_cases h3 : n ≤ (2 ^ 31 - 1) / 2 ∧ 2 ≤ n / k
      · rw [if_pos h3]; simp
      · rw [if_neg h3]; simp

/-- Outside of the free space `C` is counted anew or stays. -/
theorem plan_spec (n fs k name newfs : Nat) {f : Flags} (hf : f = chooseFlags n fs k) :
    (plan f k name newfs).2.same = f.same ∧ (plan f k name newfs).2.inside = f.inside ∧
    (plan f k name newfs).1 ≤ newfs ∧ (f.inside = true ∨ (plan f k name newfs).1 = newfs) ∧
    newfs ≤ (plan f k name newfs).1 + k ∧ ((plan f k name newfs).2.f8 = f.f8 ∨ (plan f k name newfs).2.f8 = true) ∧
    (f.inside = true → (plan f k name newfs).2.f8 = true ∨ (plan f k name newfs).1 + k ≤ newfs) := by
  have hs : f.f64 = true → f.f8 = true := by
    intro h
    subst hf
    exact same_f8 n fs k (by unfold Flags.same; rw [h, Bool.or_true])
  obtain ⟨f1, f2, f4, f8, f16, f32, f64⟩ := f
  simp only at hs
  unfold plan Flags.same Flags.inside
  simp only
  cases f1 <;> cases f4 <;> cases f64 <;> (try have hs := hs rfl) <;> simp <;> (try split) <;> simp_all <;> omega

theorem store_length {mem A : List Int} {off : Nat} (h : off + A.length ≤ mem.length) : (store mem off A).length = mem.length := by
  unfold store
  rw [List.length_append, List.length_append, List.length_take, List.length_drop]
  omega

theorem store_before {mem A : List Int} {off r : Nat} (h : off + A.length ≤ mem.length) (hr : r < off) :
    (store mem off A)[r]? = mem[r]? := by
  unfold store
  rw [List.append_assoc, List.getElem?_append_left (by rw [List.length_take]; omega), List.getElem?_take_of_lt hr]

theorem store_at {mem A : List Int} {off r : Nat} (h : off + A.length ≤ mem.length) (hr : r < A.length) :
    (store mem off A)[off + r]? = A[r]? := by
  unfold store
  have : (mem.take off).length = off := by rw [List.length_take]; omega
  rw [List.append_assoc, List.getElem?_append_right (by omega), this, Nat.add_sub_cancel_left,
    List.getElem?_append_left hr]

theorem slice_eq {A : List Int} {B : List Int} {a : Nat} (h : ∀ i, i < B.length → A[a + i]? = B[i]?) :
    (A.drop a).take B.length = B := by
  apply List.ext_getElem?
  intro i
  by_cases hi : i < B.length
  · rw [get_slice hi, h i hi]
  · rw [List.getElem?_eq_none (by rw [List.length_take]; omega), List.getElem?_eq_none (by omega)]

theorem toNats_map (C : List Nat) : toNats (C.map Int.ofNat) = some C := by
  induction C with
  | nil => rfl
  | cons c C ih =>
    rw [List.map_cons]
    unfold toNats
    rw [ih, if_neg (show ¬ Int.ofNat c < 0 from by simp)]
    rfl

/-- What stage 3 is given. -/
structure ReduceOut (T : List Nat) (k : Nat) (f : Flags) (C : List Nat) (mem' : List Int) (size : Nat) : Prop where
  size : mem'.length = size
  counts : f.f8 = true ∨ Counts T k C
  lms : if 1 < lmsCount T then LmsSorted T (mem'.take T.length) else Spread T (mem'.take T.length)

/-- The recursive call does its work on shorter texts. -/
def Sorts (rec : List Nat → List Int → Nat → Option (List Int)) (n : Nat) : Prop :=
  ∀ (R : List Nat) (mem : List Int) (k : Nat), R.length < n → 0 < R.length → (∀ c ∈ R, c < k) → R.length ≤ mem.length →
    ∃ mem', rec R mem k = some mem' ∧ mem'.length = mem.length ∧ IsSA R (mem'.take R.length)

theorem take_sorted {sa A : List Int} (h : LmsSorted T sa) (hl : T.length ≤ A.length)
    (hA : ∀ r, r < T.length → A[r]? = sa[r]?) : LmsSorted T (A.take T.length) := by
  refine ⟨by rw [List.length_take]; omega, fun p hp => ?_⟩
  have h1 := lrow_lt hp
  have h2 := lmsCount_le (T := T)
  rw [List.getElem?_take_of_lt (by omega), hA _ (by omega)]
  exact h.2 p hp

theorem take_eq' {sa A : List Int} (hs : sa.length = T.length) (hl : T.length ≤ A.length)
    (hA : ∀ r, r < T.length → A[r]? = sa[r]?) : A.take T.length = sa := by
  apply List.ext_getElem?
  intro r
  by_cases hr : r < T.length
  · rw [List.getElem?_take_of_lt hr, hA r hr]
  · rw [List.getElem?_eq_none (by rw [List.length_take]; omega), List.getElem?_eq_none (by omega)]

theorem reduce_spec {rec : List Nat → List Int → Nat → Option (List Int)} (hrec : Sorts rec T.length) {k : Nat}
    (hk : ∀ c ∈ T, c < k) (hn : 0 < T.length) {mem : List Int} (hmem : T.length ≤ mem.length) :
    ∃ f C mem', reduce rec T mem k = some (f, C, lmsCount T, mem') ∧ ReduceOut T k f C mem' mem.length := by
  have hk0 : 0 < k := by
    have := ch_lt hk hn
    omega
  obtain ⟨fs, hfs⟩ : ∃ fs, mem.length = T.length + fs := ⟨mem.length - T.length, by omega⟩
  have hfs' : mem.length - T.length = fs := by omega
  unfold reduce
  rw [if_neg (by omega)]
  simp only
  rw [hfs']
  obtain ⟨f, hf⟩ : ∃ f, f = chooseFlags T.length fs k := ⟨_, rfl⟩
  rw [← hf]
  obtain ⟨sa, C, name, s1, s2⟩ := stage1_spec hk hn f.same (f.f16 || f.f32) (by rw [hf]; exact two_small _ _ _)
  rw [bind_some' s1]
  simp only
  have hsame8 : f.same = true → f.f8 = true := by rw [hf]; exact same_f8 _ _ _
  have hins : f.inside = true → k ≤ fs := by rw [hf]; exact inside_le _ _ _
  have hhalf := lmsCount_le (T := T)
  have hCt : f.f8 = false → Counts T k C := by
    intro b
    apply s2.counts
    cases e : f.same with
    | true => rw [hsame8 e] at b; exact absurd b (by simp)
    | false => rfl
  have hC8 : f.f8 = true ∨ Counts T k C := by
    cases e : f.f8 with
    | true => exact Or.inl rfl
    | false => exact Or.inr (hCt e)
  -- the memory after stage 1
  obtain ⟨M, hM⟩ : ∃ M, M = if (f.inside && !f.f8) = true then store (sa ++ mem.drop T.length) (T.length + fs - k) (C.map Int.ofNat)
      else sa ++ mem.drop T.length := ⟨_, rfl⟩
  rw [← hM]
  have hsz := s2.size
  have hal : (sa ++ mem.drop T.length).length = T.length + fs := by
    rw [List.length_append, List.length_drop]; omega
  have hMl : M.length = T.length + fs := by
    rw [hM]
    split
    · rename_i h
      rw [Bool.and_eq_true, Bool.not_eq_true'] at h
      have h1 := (hCt h.2).1
      have h2 := hins h.1
      rw [store_length (by rw [List.length_map]; omega), hal]
    · exact hal
  have hMs : ∀ r, r < T.length → M[r]? = sa[r]? := by
    intro r hr
    rw [hM]
    split
    · rename_i h
      rw [Bool.and_eq_true, Bool.not_eq_true'] at h
      have h1 := (hCt h.2).1
      have h2 := hins h.1
      rw [store_before (by rw [List.length_map]; omega) (by omega), List.getElem?_append_left (by omega)]
    · rw [List.getElem?_append_left (by omega)]
  have hMC : f.inside = true → f.f8 = false → ∀ i, i < k → M[T.length + fs - k + i]? = (C.map Int.ofNat)[i]? := by
    intro h3 h4 i hi
    have h1 := (hCt h4).1
    have h2 := hins h3
    rw [hM, if_pos (by rw [h3, h4]; rfl), store_at (by rw [List.length_map]; omega) (by rw [List.length_map]; omega)]
  by_cases hnm : name < lmsCount T
  · rw [if_pos hnm]
    have h1m : 1 < lmsCount T := by
      apply Classical.byContradiction
      intro h
      have := (s2.few h).2
      omega
    obtain ⟨nm, hN, hval, hzero⟩ := (s2.many h1m).named hnm
    rw [if_neg (by omega)]
    obtain ⟨p1, p2, p3, p4, p5, p6, p7⟩ := plan_spec T.length fs k name (T.length + fs - lmsCount T * 2) hf
    obtain ⟨pl, hpl⟩ : ∃ pl, pl = plan f k name (T.length + fs - lmsCount T * 2) := ⟨_, rfl⟩
    rw [← hpl] at p1 p2 p3 p4 p5 p6 p7 ⊢
    have hb1 : T.length / 2 ≤ lmsCount T + pl.1 := by
      rcases p4 with h | h
      · have := hins h; omega
      · omega
    -- the names are moved
    have hcnt : cnt T.length (fun q => isLMS T q ∧ q / 2 < T.length / 2) = lmsCount T := cnt_congr (fun q _ =>
      ⟨fun a => a.1, fun a => ⟨a, lms_half_lt a⟩⟩)
    obtain ⟨M1, a1, a2, a3, a4⟩ := moveNames_spec (nm := nm) (sa := sa) (base := lmsCount T + pl.1) (t := T.length / 2) (mem := M)
      (Nat.le_refl _) (fun p hp => (hN.range p hp).1) hval hzero hb1 (by omega) (fun r hr => hMs _ (by omega))
      (fun p hp h => by have := lms_half_lt hp; omega)
    rw [hcnt] at a1
    rw [bind_some' a1]
    have hlen1 : ((M1.drop (lmsCount T + pl.1)).take (lmsCount T)).length = lmsCount T := by
      rw [List.length_take, List.length_drop]; omega
    obtain ⟨R, b1, b2⟩ := toNats_spec ((M1.drop (lmsCount T + pl.1)).take (lmsCount T)) (by
      intro v hv
      obtain ⟨i, hi⟩ := List.mem_iff_getElem?.mp hv
      have hil := (List.getElem?_eq_some_iff.mp hi).1
      rw [hlen1] at hil
      rw [get_slice hil] at hi
      obtain ⟨p, hp, e⟩ := idx_surj hil
      rw [← e, a3 p hp] at hi
      injection hi with hi
      have := (hN.range p hp).1
      omega)
    have hRl : R.length = lmsCount T := by
      rw [← hlen1, ← b2, List.length_map]
    have hRv : ∀ p, isLMS T p → R[idx T p]? = some (nm p - 1) := by
      intro p hp
      have hi := idx_lt hp
      have h1 := (hN.range p hp).1
      have h2 : (R.map Int.ofNat)[idx T p]? = some ((nm p : Int) - 1) := by
        rw [b2, get_slice hi, a3 p hp]
      rw [List.getElem?_map] at h2
      rw [List.getElem?_eq_getElem (by omega)] at h2 ⊢
      rw [Option.map_some] at h2
      injection h2 with h2
      congr 1
      have h3 : (Int.ofNat (R[idx T p]'(by omega)) : Int) = ((R[idx T p]'(by omega) : Nat) : Int) := rfl
      omega
    have hR : IsNames T nm R := ⟨hRl, fun p hp => by
      rw [ch_eq (hRv p hp)]
      have := (hN.range p hp).1
      omega⟩
    rw [bind_some' b1]
    obtain ⟨sub, c1, c2, c3⟩ := hrec R (M1.take (lmsCount T + pl.1)) name (by omega) (by omega) (by
      intro c hc
      obtain ⟨i, hi⟩ := List.mem_iff_getElem?.mp hc
      have hil := (List.getElem?_eq_some_iff.mp hi).1
      obtain ⟨p, hp, e⟩ := idx_surj (T := T) (r := i) (by omega)
      rw [← e, hRv p hp] at hi
      injection hi with hi
      have := hN.range p hp
      omega) (by rw [List.length_take]; omega)
    rw [List.length_take] at c2
    rw [bind_some' c1]
    have hM2l : (sub ++ M1.drop (lmsCount T + pl.1)).length = T.length + fs := by
      rw [List.length_append, List.length_drop]; omega
    obtain ⟨M3, d1, d2, d3, d4⟩ := positions_spec (T := T) hn (base := lmsCount T + pl.1) (mem := sub ++ M1.drop (lmsCount T + pl.1)) (by omega)
    rw [bind_some' d1]
    simp only
    obtain ⟨M4, e1, e2, e3, e4⟩ := mapBack_spec hN hR (base := lmsCount T + pl.1) (by omega) (mem := M3) d3 (by
      intro t ht
      have hr := row_lt ht
      rw [d4 _ (by omega), List.getElem?_append_left (by omega)]
      have := c3.2 t ht
      rw [List.getElem?_take_of_lt hr] at this
      exact this)
    rw [bind_some' e1]
    have hout : if 1 < lmsCount T then LmsSorted T (M4.take T.length) else Spread T (M4.take T.length) := by
      rw [if_pos h1m]
      refine ⟨by rw [List.length_take]; omega, fun p hp => ?_⟩
      have := lrow_lt hp
      rw [List.getElem?_take_of_lt (by omega)]
      exact e3 p hp
    by_cases hin : (pl.2.inside && !pl.2.f8) = true
    · rw [if_pos hin]
      rw [Bool.and_eq_true, Bool.not_eq_true', p2] at hin
      have hf8 : f.f8 = false := by
        rcases p6 with h | h
        · rw [← h]; exact hin.2
        · rw [h] at hin; exact absurd hin.2 (by simp)
      have hroom : pl.1 + k ≤ T.length + fs - lmsCount T * 2 := by
        rcases p7 hin.1 with h | h
        · rw [h] at hin; exact absurd hin.2 (by simp)
        · exact h
      have hCk := (hCt hf8).1
      have hkfs := hins hin.1
      have hslice : (M4.drop (T.length + fs - k)).take k = C.map Int.ofNat := by
        have := slice_eq (A := M4) (B := C.map Int.ofNat) (a := T.length + fs - k) (by
          intro i hi
          rw [List.length_map, hCk] at hi
          rw [e4 _ (by omega), d4 _ (by omega), List.getElem?_append_right (by omega), List.getElem?_drop,
            show lmsCount T + pl.1 + (T.length + fs - k + i - sub.length) = T.length + fs - k + i by omega, a4 _ (by omega),
            hMC hin.1 hf8 i hi])
        rw [List.length_map, hCk] at this
        exact this
      rw [hslice, toNats_map]
      exact ⟨pl.2, C, M4, rfl, by omega, Or.inr (hCt hf8), hout⟩
    · rw [if_neg hin]
      refine ⟨pl.2, C, M4, rfl, by omega, ?_, hout⟩
      rcases p6 with h | h
      · rw [h]; exact hC8
      · exact Or.inl h
  · rw [if_neg hnm]
    refine ⟨f, C, M, rfl, by omega, hC8, ?_⟩
    rw [take_eq' hsz (by omega) hMs]
    by_cases h1m : 1 < lmsCount T
    · rw [if_pos h1m]
      have h1 := s2.many h1m
      exact h1.full (by have := h1.le; omega)
    · rw [if_neg h1m]
      exact (s2.few h1m).1

/-! ## The whole of `suffixsort` -/

/-- `suffixsort` yields the suffix array whatever its memory holds. -/
theorem suffixsort_spec (fuel : Nat) (T : List Nat) (mem : List Int) (k : Nat) (hf : T.length ≤ fuel) (hn : 0 < T.length)
    (hk : ∀ c ∈ T, c < k) (hmem : T.length ≤ mem.length) :
    ∃ mem', suffixsort fuel T mem k = some mem' ∧ mem'.length = mem.length ∧ IsSA T (mem'.take T.length) := by
  induction fuel generalizing T mem k with
  | zero => omega
  | succ fuel ih =>
    obtain ⟨f, C, M, h1, h2⟩ := reduce_spec (rec := suffixsort fuel) (T := T)
      (fun R mem k a b c d => ih R mem k (by omega) b c d) hk hn hmem
    obtain ⟨sa, h3, h4⟩ := stage3SA_spec hk hn rfl h2.counts (same := f.same) (recount := f.same) (fun h => h) h2.lms
    refine ⟨sa ++ M.drop T.length, ?_, ?_, ?_⟩
    · unfold suffixsort
      rw [bind_some' h1]
      simp only
      rw [bind_some' h3]
      rfl
    · have := h2.size
      have := h4.1
      rw [List.length_append, List.length_drop]
      omega
    · rw [List.take_append_of_le_length (by have := h4.1; omega), List.take_of_length_le (by have := h4.1; omega)]
      exact h4

/-- `suffixsort` for the transform. -/
theorem suffixsortBWT_spec (hn : 0 < T.length) {k : Nat} (hk : ∀ c ∈ T, c < k) (withLF : Bool) (lf : List Nat)
    (hlf : withLF = true → 0 < lf.length ∧ lf.length ≤ T.length) :
    ∃ sa' lf' pidx, suffixsortBWT T k withLF lf = some (sa', lf', pidx) ∧
      BwtOut T (if withLF then some (T.length / lf.length, T.length - T.length / lf.length * lf.length) else none)
        lf.length sa' lf' pidx := by
  obtain ⟨f, C, M, h1, h2⟩ := reduce_spec (rec := suffixsort T.length) (T := T) (mem := List.replicate T.length 0)
    (fun R mem k a b c d => suffixsort_spec T.length R mem k (by omega) b c d) hk hn (by rw [List.length_replicate]; exact Nat.le_refl _)
  obtain ⟨sa', lf', pidx, h3, h4⟩ := stage3BWT_spec hk hn rfl h2.counts (same := f.same) (recount := f.same) (fun h => h) h2.lms
    withLF lf hlf
  refine ⟨sa', lf', pidx, ?_, h4⟩
  unfold suffixsortBWT
  rw [bind_some' h1]
  exact h3

end Bwtc.Sais
