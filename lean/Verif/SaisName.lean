import Verif.SaisLms

/-!
# `LMSpostproc1`: names of the sorted LMS substrings
-/

set_option autoImplicit false

namespace Bwtc.Induce
open Classical

theorem cnt_bij {n m : Nat} {P Q : Nat → Prop} (f : Nat → Nat) (h1 : ∀ p, p < n → P p → f p < m ∧ Q (f p))
    (h2 : ∀ p q, p < n → q < n → P p → P q → f p = f q → p = q) (h3 : ∀ r, r < m → Q r → ∃ p, p < n ∧ P p ∧ f p = r) :
    cnt n P = cnt m Q := by
  have hP : ∀ p, p ∈ (List.range n).filter (fun q => decide (P q)) ↔ p < n ∧ P p := by intro p; simp
  have hQ : ∀ p, p ∈ (List.range m).filter (fun q => decide (Q q)) ↔ p < m ∧ Q p := by intro p; simp
  have hnd : (((List.range n).filter (fun q => decide (P q))).map f).Nodup := by
    rw [List.Nodup, List.pairwise_map]
    apply List.Pairwise.imp_of_mem _ (List.nodup_range.filter _)
    intro a b ha hb hne e
    obtain ⟨ha1, ha2⟩ := (hP a).mp ha
    obtain ⟨hb1, hb2⟩ := (hP b).mp hb
    exact hne (h2 a b ha1 hb1 ha2 hb2 e)
  have hperm : (((List.range n).filter (fun q => decide (P q))).map f).Perm
      ((List.range m).filter (fun q => decide (Q q))) := by
    rw [List.perm_ext_iff_of_nodup hnd (List.nodup_range.filter _)]
    intro r
    rw [hQ]
    constructor
    · intro h
      obtain ⟨p, hp, rfl⟩ := List.mem_map.mp h
      obtain ⟨a, b⟩ := (hP p).mp hp
      exact h1 p a b
    · rintro ⟨a, b⟩
      obtain ⟨p, c, d, rfl⟩ := h3 r a b
      exact List.mem_map.mpr ⟨p, (hP p).mpr ⟨c, d⟩, rfl⟩
  have := hperm.length_eq
  rw [List.length_map] at this
  unfold cnt
  rw [List.countP_eq_length_filter, List.countP_eq_length_filter, this]

theorem cnt_inj_le {n m : Nat} {P : Nat → Prop} (f : Nat → Nat) (h1 : ∀ p, p < n → P p → f p < m)
    (h2 : ∀ p q, p < n → q < n → P p → P q → f p = f q → p = q) : cnt n P ≤ m := by
  rw [cnt_bij (m := m) (Q := fun r => ∃ p, p < n ∧ P p ∧ f p = r) f (fun p hp a => ⟨h1 p hp a, p, hp, a, rfl⟩) h2
    (fun r _ a => a)]
  exact cnt_le_n _ _

end Bwtc.Induce

namespace Bwtc.Sais
open Induce Suffix Classical

variable {T : List Nat}

/-! ## LMS positions are not adjacent -/

theorem lms_gap {p q : Nat} (hp : isLMS T p) (hq : isLMS T q) (h : p < q) : p + 2 ≤ q := by
  by_cases e : q = p + 1
  · subst e; exact absurd (isLMS_pred hq) (fun a => not_isL_isS a hp.1)
  · omega

theorem lms_half {p q : Nat} (hp : isLMS T p) (hq : isLMS T q) (h : p / 2 = q / 2) : p = q := by
  rcases Nat.lt_trichotomy p q with a | a | a
  · have := lms_gap hp hq a; omega
  · exact a
  · have := lms_gap hq hp a; omega

theorem lms_half_lt {p : Nat} (hp : isLMS T p) : p / 2 < T.length / 2 := by
  have := isS_next hp.1; omega

theorem lmsCount_le : lmsCount T ≤ T.length / 2 :=
  cnt_inj_le (fun p => p / 2) (fun _ _ h => lms_half_lt h) (fun _ _ _ _ hp hq h => lms_half hp hq h)

/-! ## The order of the substrings -/

/-- The rank of an LMS position in the order found by the sorting of stage 1. -/
noncomputable def krank (T : List Nat) (p : Nat) : Nat := cnt T.length (fun q => isLMS T q ∧ keyS T q < keyS T p)

theorem keyS_total {p q : Nat} (hp : isLMS T p) (hq : isLMS T q) : keyS T p < keyS T q ∨ p = q ∨ keyS T q < keyS T p := by
  rcases list_total (keyS T p) (keyS T q) with a | a | a
  · exact Or.inl a
  · exact Or.inr (Or.inl (keyS_inj hp.1.1 hq.1.1 a))
  · exact Or.inr (Or.inr a)

theorem keyS_of_keyX {p q : Nat} (hp : isLMS T p) (hq : isLMS T q) (h : keyX T p < keyX T q) : keyS T p < keyS T q := by
  rcases keyS_total hp hq with a | a | a
  · exact a
  · subst a; exact absurd h (List.lt_irrefl _)
  · rcases keyX_of_keyS hq.1.1 hp.1.1 a with b | b
    · exact absurd (List.lt_trans h b) (List.lt_irrefl _)
    · rw [b] at h; exact absurd h (List.lt_irrefl _)

theorem krank_lt {p : Nat} (hp : isLMS T p) : krank T p < lmsCount T :=
  cnt_lt hp.1.1 (fun a => List.lt_irrefl _ a.2) hp (fun _ _ a => a.1)

theorem krank_mono {p q : Nat} (hp : isLMS T p) (h : keyS T p < keyS T q) : krank T p < krank T q :=
  cnt_lt hp.1.1 (fun a => List.lt_irrefl _ a.2) ⟨hp, h⟩ (fun _ _ a => ⟨a.1, List.lt_trans a.2 h⟩)

theorem krank_iff {p q : Nat} (hp : isLMS T p) (hq : isLMS T q) : krank T p < krank T q ↔ keyS T p < keyS T q := by
  constructor
  · intro h
    rcases keyS_total hp hq with a | a | a
    · exact a
    · subst a; omega
    · have := krank_mono hq a; omega
  · exact krank_mono hp

theorem krank_inj {p q : Nat} (hp : isLMS T p) (hq : isLMS T q) (h : krank T p = krank T q) : p = q := by
  rcases keyS_total hp hq with a | a | a
  · have := krank_mono hp a; omega
  · exact a
  · have := krank_mono hq a; omega

theorem krank_surj {r : Nat} (hr : r < lmsCount T) : ∃ p, isLMS T p ∧ krank T p = r := by
  obtain ⟨p, _, h2, h3⟩ := rank_surj (n := T.length) (P := isLMS T) (lt := fun p q => keyS T p < keyS T q)
    (fun p => List.lt_irrefl _) (fun _ _ _ => List.lt_trans) (fun p q _ _ hp hq => keyS_total hp hq) hr
  exact ⟨p, h2, h3⟩

/-! ## Moving the marked cells to the front -/

/-- A cell with a complement. -/
def negAt (sa : List Int) (x : Nat) : Prop := ∃ v, sa[x]? = some v ∧ v < 0

theorem gather_spec {o : List Int} {m : Nat} (hm : cnt o.length (negAt o) = m) (hle : ∀ (x : Nat) (v : Int), o[x]? = some v → v ≤ 0)
    (f : Nat) (j i : Nat) (A : List Int) (hf : o.length < f + i) (hA : A.length = o.length) (hj : j = cnt i (negAt o)) (hjm : j < m)
    (hji : j < i) (hin : i ≤ o.length)
    (h1 : ∀ (x : Nat) (v : Int), x < i → o[x]? = some v → v < 0 → A[cnt x (negAt o)]? = some (inv v))
    (h2 : ∀ r, j ≤ r → r < i → A[r]? = some 0) (h3 : ∀ r, i ≤ r → A[r]? = o[r]?) :
    ∃ A', gather m f j i A = some A' ∧ A'.length = o.length ∧
      (∀ (x : Nat) (v : Int), o[x]? = some v → v < 0 → A'[cnt x (negAt o)]? = some (inv v)) ∧
      ∀ r, m ≤ r → r < o.length → A'[r]? = some 0 := by
  induction f generalizing j i A with
  | zero => omega
  | succ f ih =>
    have hilt : i < o.length := by
      by_cases e : i = o.length
      · rw [e] at hj; omega
      · omega
    obtain ⟨v, hv⟩ : ∃ v, o[i]? = some v := ⟨_, List.getElem?_eq_getElem hilt⟩
    have hAv : A[i]? = some v := by rw [h3 i (Nat.le_refl _), hv]
    unfold gather
    rw [bind_some' hAv]
    by_cases hneg : v < 0
    · have hset := get_set2 (A := A) (i := j) (b := i) (v := inv v) (w := 0) (by omega) (by omega) (by omega)
      have hc : cnt (i + 1) (negAt o) = j + 1 := by rw [cnt_succ, ← hj, if_pos ⟨v, hv, hneg⟩]
      have g1 : ∀ x w, x < i + 1 → o[x]? = some w → w < 0 →
          ((A.set j (inv v)).set i 0)[cnt x (negAt o)]? = some (inv w) := by
        intro x w hx hxw hw
        by_cases e : x = i
        · subst e
          rw [← hj]
          rw [hv] at hxw
          injection hxw with hxw
          rw [← hxw]; exact hset.1
        · have hcx : cnt (x + 1) (negAt o) ≤ cnt i (negAt o) := by
            have H : ∀ a b, a ≤ b → cnt a (negAt o) ≤ cnt b (negAt o) := by
              intro a b hab
              induction b with
              | zero => rw [show a = 0 by omega]; exact Nat.le_refl _
              | succ b ih =>
                by_cases e : a = b + 1
                · rw [e]; exact Nat.le_refl _
                · have := ih (by omega)
                  rw [cnt_succ]; omega
            exact H _ _ (by omega)
          rw [cnt_succ, if_pos ⟨w, hxw, hw⟩] at hcx
          rw [hset.2.2 _ (by omega) (by omega)]
          exact h1 x w (by omega) hxw hw
      have g2 : ∀ r, j + 1 ≤ r → r < i + 1 → ((A.set j (inv v)).set i 0)[r]? = some 0 := by
        intro r hr1 hr2
        by_cases e : r = i
        · rw [e]; exact hset.2.1
        · rw [hset.2.2 r (by omega) e]; exact h2 r (by omega) (by omega)
      have g3 : ∀ r, i + 1 ≤ r → ((A.set j (inv v)).set i 0)[r]? = o[r]? := by
        intro r hr
        rw [hset.2.2 r (by omega) (by omega)]; exact h3 r (by omega)
      rw [if_pos hneg, bind_some' (put_spec (by omega) _)]
      by_cases hlast : j + 1 = m
      · rw [if_pos hlast]
        have hnone : ∀ x, i + 1 ≤ x → x < o.length → ¬ negAt o x := by
          intro x hx hxl hn
          have H : ∀ b, i + 1 ≤ b → b ≤ o.length → cnt (i + 1) (negAt o) ≤ cnt b (negAt o) ∧
              (∀ x, i + 1 ≤ x → x < b → negAt o x → cnt (i + 1) (negAt o) < cnt b (negAt o)) := by
            intro b hb
            induction b with
            | zero => omega
            | succ b ih =>
              intro hbl
              by_cases e : i + 1 = b + 1
              · rw [e]; exact ⟨Nat.le_refl _, fun x a b' => by omega⟩
              · obtain ⟨i1, i2⟩ := ih (by omega) (by omega)
                rw [cnt_succ (n := b)]
                refine ⟨by omega, ?_⟩
                intro x hx hxb hxn
                by_cases e2 : x = b
                · subst e2; rw [if_pos hxn]; omega
                · have := i2 x hx (by omega) hxn; omega
          have := (H o.length (by omega) (Nat.le_refl _)).2 x hx hxl hn
          omega
        refine ⟨_, rfl, by simp only [List.length_set]; exact hA, ?_, ?_⟩
        · intro x w hxw hw
          have hxl := (List.getElem?_eq_some_iff.mp hxw).1
          by_cases e : x < i + 1
          · exact g1 x w e hxw hw
          · exact absurd ⟨w, hxw, hw⟩ (hnone x (by omega) hxl)
        · intro r hr1 hr2
          by_cases e : r < i + 1
          · exact g2 r (by omega) e
          · rw [g3 r (by omega)]
            obtain ⟨w, hw⟩ : ∃ v, o[r]? = some v := ⟨_, List.getElem?_eq_getElem hr2⟩
            have a := hle r w hw
            by_cases e2 : w < 0
            · exact absurd ⟨w, hw, e2⟩ (hnone r (by omega) hr2)
            · rw [hw]; congr 1; omega
      · rw [if_neg hlast]
        exact ih (j + 1) (i + 1) _ (by omega) (by simp only [List.length_set]; exact hA) hc.symm (by omega) (by omega)
          (by omega) g1 g2 g3
    · rw [if_neg hneg]
      have hv0 : v = 0 := by have := hle i v hv; omega
      have hnn : ¬ negAt o i := by
        rintro ⟨w, a, b⟩
        rw [hv] at a
        injection a with a
        omega
      apply ih j (i + 1) A (by omega) hA (by rw [cnt_succ, if_neg hnn]; exact hj) hjm (by omega) (by omega)
      · intro x w hx hxw hw
        by_cases e : x = i
        · subst e; exact absurd ⟨w, hxw, hw⟩ hnn
        · exact h1 x w (by omega) hxw hw
      · intro r hr1 hr2
        by_cases e : r = i
        · rw [e, hAv, hv0]
        · exact h2 r hr1 (by omega)
      · intro r hr; exact h3 r (by omega)

theorem negRun_spec {o : List Int} (hex : ∃ x, x < o.length ∧ ¬ negAt o x) (f i : Nat) (A : List Int)
    (hf : o.length < f + i) (hA : A.length = o.length) (hin : i ≤ o.length) (hneg : ∀ x, x < i → negAt o x)
    (h1 : ∀ (x : Nat) (v : Int), x < i → o[x]? = some v → A[x]? = some (inv v)) (h3 : ∀ r, i ≤ r → A[r]? = o[r]?) :
    ∃ i' A', negRun f i A = some (i', A') ∧ A'.length = o.length ∧ i' < o.length ∧ (∀ x, x < i' → negAt o x) ∧
      ¬ negAt o i' ∧ (∀ (x : Nat) (v : Int), x < i' → o[x]? = some v → A'[x]? = some (inv v)) ∧ ∀ r, i' ≤ r → A'[r]? = o[r]? := by
  induction f generalizing i A with
  | zero => omega
  | succ f ih =>
    have hilt : i < o.length := by
      obtain ⟨x, a, b⟩ := hex
      by_cases e : i = o.length
      · exact absurd (hneg x (by omega)) b
      · omega
    obtain ⟨v, hv⟩ : ∃ v, o[i]? = some v := ⟨_, List.getElem?_eq_getElem hilt⟩
    have hAv : A[i]? = some v := by rw [h3 i (Nat.le_refl _), hv]
    unfold negRun
    rw [bind_some' hAv]
    by_cases hn : v < 0
    · have hset := get_set1 (A := A) (i := i) (v := inv v) (by omega)
      rw [if_pos hn]
      apply ih (i + 1) _ (by omega) (by rw [List.length_set]; exact hA) (by omega)
      · intro x hx
        by_cases e : x = i
        · rw [e]; exact ⟨v, hv, hn⟩
        · exact hneg x (by omega)
      · intro x w hx hw
        by_cases e : x = i
        · subst e
          rw [hv] at hw
          injection hw with hw
          rw [← hw]; exact hset.1
        · rw [hset.2 x e]; exact h1 x w (by omega) hw
      · intro r hr
        rw [hset.2 r (by omega)]; exact h3 r (by omega)
    · rw [if_neg hn]
      refine ⟨i, A, rfl, hA, hilt, hneg, ?_, h1, h3⟩
      rintro ⟨w, a, b⟩
      rw [hv] at a
      injection a with a
      omega

/-- Lines 119-128 and 223-239. -/
theorem compact_list {o : List Int} {m : Nat} (hm : cnt o.length (negAt o) = m) (hmn : m < o.length)
    (hle : ∀ (x : Nat) (v : Int), o[x]? = some v → v ≤ 0) :
    ∃ A', compact m o = some A' ∧ A'.length = o.length ∧
      (∀ (x : Nat) (v : Int), o[x]? = some v → v < 0 → A'[cnt x (negAt o)]? = some (inv v)) ∧
      ∀ r, m ≤ r → r < o.length → A'[r]? = some 0 := by
  have hex : ∃ x, x < o.length ∧ ¬ negAt o x := by
    apply Classical.byContradiction
    intro h
    have : cnt o.length (negAt o) = o.length := cnt_true (fun q hq => Classical.byContradiction (fun a => h ⟨q, hq, a⟩))
    omega
  obtain ⟨i, A, n1, n2, n3, n4, n5, n6, n7⟩ := negRun_spec hex (o.length + 1) 0 o (by omega) rfl (by omega)
    (fun x hx => by omega) (fun x v hx => by omega) (fun _ _ => rfl)
  have hci : ∀ x, x ≤ i → cnt x (negAt o) = x := fun x hx => cnt_true (fun q hq => n4 q (by omega))
  have hv0 : o[i]? = some 0 := by
    obtain ⟨v, hv⟩ : ∃ v, o[i]? = some v := ⟨_, List.getElem?_eq_getElem n3⟩
    have := hle i v hv
    by_cases e : v < 0
    · exact absurd ⟨v, hv, e⟩ n5
    · rw [hv]; congr 1; omega
  unfold compact
  rw [bind_some' n1]
  simp only
  by_cases him : i < m
  · rw [if_pos him, n2]
    apply gather_spec hm hle (o.length + 1) i (i + 1) A (by omega) n2 _ him (by omega) (by omega)
    · intro x v hx hv hneg
      by_cases e : x = i
      · subst e; exact absurd ⟨v, hv, hneg⟩ n5
      · rw [hci x (by omega)]; exact n6 x v (by omega) hv
    · intro r hr1 hr2
      rw [show r = i by omega, n7 i (Nat.le_refl _)]; exact hv0
    · intro r hr; exact n7 r (by omega)
    · rw [cnt_succ, if_neg n5, hci i (Nat.le_refl _)]; rfl
  · rw [if_neg him]
    have hmono : ∀ b, i ≤ b → cnt i (negAt o) ≤ cnt b (negAt o) ∧
        (∀ x, i ≤ x → x < b → negAt o x → cnt i (negAt o) < cnt b (negAt o)) := by
      intro b hb
      induction b with
      | zero => rw [show i = 0 by omega]; exact ⟨Nat.le_refl _, fun x a b => by omega⟩
      | succ b ih =>
        by_cases e : i = b + 1
        · rw [e]; exact ⟨Nat.le_refl _, fun x a b' => by omega⟩
        · obtain ⟨i1, i2⟩ := ih (by omega)
          rw [cnt_succ (n := b)]
          refine ⟨by omega, ?_⟩
          intro x hx hxb hxn
          by_cases e2 : x = b
          · subst e2; rw [if_pos hxn]; omega
          · have := i2 x hx (by omega) hxn; omega
    obtain ⟨m1, m2⟩ := hmono o.length (by omega)
    have hi := hci i (Nat.le_refl _)
    have hno : ∀ x, i ≤ x → x < o.length → ¬ negAt o x := by
      intro x hx hxl hn
      have := m2 x hx hxl hn
      omega
    refine ⟨A, rfl, n2, ?_, ?_⟩
    · intro x v hv hneg
      have hxl := (List.getElem?_eq_some_iff.mp hv).1
      by_cases e : x < i
      · rw [hci x (by omega)]; exact n6 x v e hv
      · exact absurd ⟨v, hv, hneg⟩ (hno x (by omega) hxl)
    · intro r hr hrl
      rw [n7 r (by omega)]
      obtain ⟨v, hv⟩ : ∃ v, o[r]? = some v := ⟨_, List.getElem?_eq_getElem hrl⟩
      have := hle r v hv
      by_cases e : v < 0
      · exact absurd ⟨v, hv, e⟩ (hno r (by omega) hrl)
      · rw [hv]; congr 1; omega

/-- The sorted LMS positions are moved to the front. -/
theorem compact_spec {fl : Nat → Prop} {sa : List Int} (h : KeySorted T fl sa) (hm : 0 < lmsCount T) :
    ∃ A, compact (lmsCount T) sa = some A ∧ A.length = T.length ∧
      (∀ q, isLMS T q → A[krank T q]? = some ((q + if fl q then T.length else 0 : Nat) : Int)) ∧
      ∀ r, lmsCount T ≤ r → r < T.length → A[r]? = some 0 := by
  obtain ⟨hlen, f, h1, h2, h3⟩ := h
  have hhalf := lmsCount_le (T := T)
  have hfinj : ∀ p q, isLMS T p → isLMS T q → f p = f q → p = q := by
    intro p q hp hq e
    rcases keyS_total hp hq with a | a | a
    · have := (h2 p q hp hq).mpr a; omega
    · exact a
    · have := (h2 q p hq hp).mpr a; omega
  have hneg : ∀ x, x < T.length → (negAt sa x ↔ ∃ q, isLMS T q ∧ f q = x) := by
    intro x hx
    constructor
    · rintro ⟨v, a, b⟩
      apply Classical.byContradiction
      intro hno
      have := h3 x hx (fun q hq e => hno ⟨q, hq, e⟩)
      rw [this] at a
      injection a with a
      omega
    · rintro ⟨q, hq, rfl⟩
      exact ⟨_, (h1 q hq).2, by unfold Sais.inv; omega⟩
  have hcnt : ∀ i, i ≤ T.length → cnt i (negAt sa) = cnt T.length (fun q => isLMS T q ∧ f q < i) := by
    intro i hi
    symm
    apply cnt_bij f
    · rintro p _ ⟨a, b⟩
      exact ⟨b, (hneg (f p) (h1 p a).1).mpr ⟨p, a, rfl⟩⟩
    · rintro p q _ _ ⟨a, _⟩ ⟨c, _⟩ e
      exact hfinj p q a c e
    · intro r hr hn
      obtain ⟨q, hq, e⟩ := (hneg r (by omega)).mp hn
      exact ⟨q, hq.1.1, ⟨hq, by omega⟩, e⟩
  have htot : cnt sa.length (negAt sa) = lmsCount T := by
    rw [hlen, hcnt _ (Nat.le_refl _)]
    exact cnt_congr (fun q _ => ⟨fun a => a.1, fun a => ⟨a, (h1 q a).1⟩⟩)
  have hle : ∀ (x : Nat) (v : Int), sa[x]? = some v → v ≤ 0 := by
    intro x v hv
    have hxl := (List.getElem?_eq_some_iff.mp hv).1
    by_cases e : ∃ q, isLMS T q ∧ f q = x
    · obtain ⟨q, hq, rfl⟩ := e
      rw [(h1 q hq).2] at hv
      injection hv with hv
      unfold Sais.inv at hv
      omega
    · rw [h3 x (by omega) (fun q hq a => e ⟨q, hq, a⟩)] at hv
      injection hv with hv
      omega
  obtain ⟨A, a1, a2, a3, a4⟩ := compact_list htot (by omega) hle
  refine ⟨A, a1, by rw [a2, hlen], ?_, fun r hr hrl => a4 r hr (by omega)⟩
  intro q hq
  have hf := h1 q hq
  have := a3 (f q) _ hf.2 (by unfold Sais.inv; omega)
  rw [hcnt (f q) (by omega), inv_inv] at this
  rw [← this]
  congr 1
  apply cnt_congr
  intro r _
  constructor
  · rintro ⟨a, b⟩; exact ⟨a, (h2 r q a hq).mpr b⟩
  · rintro ⟨a, b⟩; exact ⟨a, (h2 r q a hq).mp b⟩

end Bwtc.Sais
