import Verif.SaisPost2

/-!
# `stage1sort`
-/

set_option autoImplicit false

namespace Bwtc.Sais
open Induce Suffix Classical

variable {T : List Nat}

/-- Lines 415-419 and 424-428, from bucket `c0` on. -/
theorem flagFirst_from {k : Nat} {C B : List Nat} (hC : Counts T k C) (hB : B.length = k) (d c0 : Nat) (hd : c0 + d = k)
    (hin : ∀ c b, B[c]? = some b → cnt T.length (fun q => ch T q < c) ≤ b ∧ b ≤ cnt T.length (fun q => ch T q ≤ c))
    (sa : List Int) (hlen : sa.length = T.length) :
    ∃ sa', flagFirst T.length (C.drop c0) (B.drop c0) (cnt T.length (fun q => ch T q < c0)) sa = some sa' ∧
      sa'.length = T.length ∧
      (∀ c b v, c0 ≤ c → B[c]? = some b → b ≠ cnt T.length (fun q => ch T q ≤ c) → sa[b]? = some v → sa'[b]? = some (v + T.length)) ∧
      ∀ r, (∀ c, c0 ≤ c → B[c]? = some r → r = cnt T.length (fun q => ch T q ≤ c)) → sa'[r]? = sa[r]? := by
  induction d generalizing c0 sa with
  | zero =>
    rw [List.drop_eq_nil_of_le (by have := hC.1; omega), List.drop_eq_nil_of_le (by omega)]
    refine ⟨sa, rfl, hlen, ?_, fun _ _ => rfl⟩
    intro c b v h1 h2
    have := (List.getElem?_eq_some_iff.mp h2).1
    omega
  | succ d ih =>
    have hCl := hC.1
    have hc := hC.2 c0 (by omega)
    obtain ⟨b, hb⟩ : ∃ b, B[c0]? = some b := ⟨_, List.getElem?_eq_getElem (by omega)⟩
    have hbi := hin c0 b hb
    have hstop : cnt T.length (fun q => ch T q < c0) + cnt T.length (fun q => ch T q = c0) = cnt T.length (fun q => ch T q ≤ c0) :=
      (cnt_or (R := fun q => ch T q ≤ c0) (P := fun q => ch T q < c0) (Q := fun q => ch T q = c0)
        (fun q _ => by omega) (fun q _ a b => by omega)).symm
    have hnx : cnt T.length (fun q => ch T q ≤ c0) = cnt T.length (fun q => ch T q < c0 + 1) := cnt_congr (fun q _ => by omega)
    have hle : cnt T.length (fun q => ch T q ≤ c0) ≤ T.length := cnt_le_n _ _
    -- later buckets lie behind
    have hlater : ∀ c b', c0 + 1 ≤ c → B[c]? = some b' → cnt T.length (fun q => ch T q ≤ c0) ≤ b' := by
      intro c b' h1 h2
      have h3 := (hin c b' h2).1
      have : cnt T.length (fun q => ch T q ≤ c0) ≤ cnt T.length (fun q => ch T q < c) := cnt_le (fun q _ a => by omega)
      omega
    rw [List.drop_eq_getElem_cons (show c0 < C.length by omega), List.drop_eq_getElem_cons (show c0 < B.length by omega)]
    rw [List.getElem?_eq_getElem (show c0 < C.length by omega)] at hc
    injection hc with hc
    have hb' := hb
    rw [List.getElem?_eq_getElem (show c0 < B.length by omega)] at hb'
    injection hb' with hb'
    rw [hc, hb']
    unfold flagFirst
    rw [hstop]
    by_cases e : b ≠ cnt T.length (fun q => ch T q ≤ c0)
    · rw [if_pos e]
      obtain ⟨v, hv⟩ : ∃ v, sa[b]? = some v := ⟨_, List.getElem?_eq_getElem (by omega)⟩
      have hset := get_set1 (A := sa) (i := b) (v := v + T.length) (by omega)
      obtain ⟨sa', h1, h2, h3, h4⟩ := ih (c0 + 1) (by omega) (sa.set b (v + T.length)) (by rw [List.length_set]; exact hlen)
      rw [hnx, bind_some' hv, h1]
      refine ⟨sa', rfl, h2, ?_, ?_⟩
      · intro c b2 v2 g1 g2 g3 g4
        by_cases ec : c = c0
        · subst ec
          rw [hb] at g2
          injection g2 with g2
          subst g2
          rw [h4 b, hset.1]
          · rw [hv] at g4
            injection g4 with g4
            rw [g4]
          · intro c g5 g6
            have := hlater c b g5 g6
            omega
        · have hne : b2 ≠ b := by
            have := hlater c b2 (by omega) g2
            omega
          exact h3 c b2 v2 (by omega) g2 g3 (by rw [hset.2 b2 hne]; exact g4)
      · intro r hr
        have hne : r ≠ b := by
          rintro rfl
          exact e (hr c0 (Nat.le_refl _) hb)
        rw [h4 r (fun c g1 g2 => hr c (by omega) g2), hset.2 r hne]
    · rw [if_neg e]
      obtain ⟨sa', h1, h2, h3, h4⟩ := ih (c0 + 1) (by omega) sa hlen
      rw [hnx, h1]
      refine ⟨sa', rfl, h2, ?_, ?_⟩
      · intro c b2 v2 g1 g2 g3 g4
        by_cases ec : c = c0
        · subst ec
          rw [hb] at g2
          injection g2 with g2
          subst g2
          exact absurd g3 e
        · exact h3 c b2 v2 (by omega) g2 g3 g4
      · intro r hr
        exact h4 r (fun c g1 g2 => hr c (by omega) g2)

/-- The LMS positions of a bucket. -/
theorem lms_in_bucket (c : Nat) : cnt T.length (fun q => ch T q < c) + cnt T.length (fun q => isLMS T q ∧ ch T q = c) ≤
    cnt T.length (fun q => ch T q ≤ c) := by
  rw [← cnt_or (R := fun q => ch T q < c ∨ (isLMS T q ∧ ch T q = c)) (P := fun q => ch T q < c)
    (Q := fun q => isLMS T q ∧ ch T q = c) (fun q _ => Iff.rfl) (fun q _ a b => by omega)]
  exact cnt_le (fun q _ a => by rcases a with a | a <;> omega)

/-- The flags set before `LMSsort2`: the first LMS position of each bucket. -/
theorem flL_iff {p0 q : Nat} (hq : isLMS T q) (h : p0 < q) :
    (clsL T p0).fl q ↔ ∀ r, isLMS T r → p0 < r → ch T r = ch T q → ¬ r < q := by
  have hs : (ordL1 T p0).src q := ⟨hq, h⟩
  constructor
  · intro hf r hr hr0 hc hlt
    refine hf r (Or.inl ⟨hr, hr0⟩) ?_ ⟨fun a => absurd (lms_pred_isL hr).2 (fun b => not_isL_isS b a), fun a => absurd (lms_pred_isL hq).2 (fun b => not_isL_isS b a)⟩ ?_
    · show walkX T r = walkX T q
      rw [walkX_lms hr, walkX_lms hq, tc_S hr.1, tc_S hq.1, hc]
    · exact (ordL1 T p0).time_lt (Or.inl ⟨hr, hr0⟩) (Or.inl hs) ((walk_lms_lt hr hq hc.symm).mpr hlt)
  · intro hf r hr hx _ hlt
    have hrn := (ordL1 T p0).bound r hr
    have hx' : walkX T r = walkX T q := hx
    rw [walkX_lms hq] at hx'
    obtain ⟨l, e⟩ := walkX_cons (T := T) hrn
    rw [e, List.cons.injEq] at hx'
    have hS := tc_eq_S hq.1 hrn hx'.1.symm
    have hrl : isLMS T r ∧ p0 < r := by
      rcases hr with a | a
      · exact a
      · exact absurd hS (fun b => not_isL_isS a.1 b)
    have hc := tc_eq_ch hx'.1
    exact hf r hrl.1 hrl.2 hc ((walk_lms_lt hrl.1 hq hc.symm).mp (((ordL1 T p0).time_lt_iff (Or.inl hrl) (Or.inl hs)).mp hlt))

/-- What `stage1sort` leaves. -/
structure Stage1Out (T : List Nat) (k : Nat) (same : Bool) (sa : List Int) (C : List Nat) (name : Nat) : Prop where
  size : sa.length = T.length
  counts : same = false → Counts T k C
  many : 1 < lmsCount T → NamesOut T sa name
  few : ¬ 1 < lmsCount T → Spread T sa ∧ name = lmsCount T

theorem stage1_two {k : Nat} (hk : ∀ c ∈ T, c < k) {C : List Nat} (hC : Counts T k C) {s : Place} (hs : PlaceOut T k s)
    {p0 : Nat} (h0 : FirstLMS T 0 p0) : ∃ x sa, s.B[ch T (s.j + 1)]? = some x ∧
      flagFirst T.length C (s.B.set (ch T (s.j + 1)) (x + 1)) 0 s.sa = some sa ∧ sa.length = T.length ∧
      (∀ q, isLMS T q → p0 < q → sa[lslot T q - 1]? = some (vL T (clsL T p0).fl q : Int)) ∧
      ∀ r, r < T.length → (∀ q, isLMS T q → p0 < q → lslot T q ≠ r + 1) → sa[r]? = some 0 := by
  obtain ⟨e1, e2, e3, e4⟩ := hs.some p0 h0
  have hcp := ch_lt hk h0.1.1.1
  have hbl := hs.blen
  have hx := hs.bval (ch T p0) hcp
  rw [e1]
  -- the pointers after `++B`
  let bv : Nat → Nat := fun c => cnt T.length (fun q => ch T q ≤ c) - cnt T.length (fun q => isLMS T q ∧ ch T q = c ∧ p0 < q)
  have hle : ∀ q, isLMS T q → p0 ≤ q := fun q hq => h0.2.2 q hq (isLMS_pos hq)
  have hins : cnt T.length (fun q => isLMS T q ∧ ch T q = ch T p0) =
      cnt T.length (fun q => isLMS T q ∧ ch T q = ch T p0 ∧ p0 < q) + 1 :=
    cnt_insert (P := fun q => isLMS T q ∧ ch T q = ch T p0 ∧ p0 < q) (Q := fun q => isLMS T q ∧ ch T q = ch T p0)
      h0.1.1.1 (fun a => by have := a.2.2; omega) (fun q _ => by
        constructor
        · rintro ⟨a, b⟩
          have := hle q a
          by_cases e : q = p0
          · exact Or.inr e
          · exact Or.inl ⟨a, b, by omega⟩
        · rintro (⟨a, b, c⟩ | e)
          · exact ⟨a, b⟩
          · rw [e]; exact ⟨h0.1, rfl⟩)
  have hbv : ∀ c, c < k → (s.B.set (ch T p0) (cnt T.length (fun q => ch T q ≤ ch T p0) -
      cnt T.length (fun q => isLMS T q ∧ ch T q = ch T p0) + 1))[c]? = some (bv c) := by
    intro c hc
    by_cases e : c = ch T p0
    · rw [e, List.getElem?_set_self (by omega)]
      have := lms_in_bucket (T := T) (ch T p0)
      show some _ = some (_ - _)
      congr 1
      omega
    · rw [List.getElem?_set_ne (fun a => e a.symm), hs.bval c hc]
      show some _ = some (_ - _)
      congr 2
      apply cnt_congr
      intro q _
      constructor
      · rintro ⟨a, b⟩
        have := hle q a
        refine ⟨a, b, ?_⟩
        by_cases e2 : q = p0
        · rw [e2] at b; exact absurd b.symm e
        · omega
      · rintro ⟨a, b, c⟩; exact ⟨a, b⟩
  have hbr : ∀ c, cnt T.length (fun q => ch T q < c) ≤ bv c ∧ bv c ≤ cnt T.length (fun q => ch T q ≤ c) := by
    intro c
    have h1 := lms_in_bucket (T := T) c
    have h2 : cnt T.length (fun q => isLMS T q ∧ ch T q = c ∧ p0 < q) ≤ cnt T.length (fun q => isLMS T q ∧ ch T q = c) :=
      cnt_le (fun q _ a => ⟨a.1, a.2.1⟩)
    show _ ≤ _ - _ ∧ _ - _ ≤ _
    omega
  obtain ⟨sa, f1, f2, f3, f4⟩ := flagFirst_from hC (B := s.B.set (ch T p0) (cnt T.length (fun q => ch T q ≤ ch T p0) -
      cnt T.length (fun q => isLMS T q ∧ ch T q = ch T p0) + 1)) (by rw [List.length_set]; exact hbl) k 0 (by omega)
    (by
      intro c b hb
      have hc := (List.getElem?_eq_some_iff.mp hb).1
      rw [List.length_set, hbl] at hc
      rw [hbv c hc] at hb
      injection hb with hb
      rw [← hb]
      exact hbr c) s.sa hs.size
  rw [List.drop_zero, List.drop_zero, cnt_false (n := T.length) (P := fun q => ch T q < 0) (fun q _ a => by omega)] at f1
  -- which slot is flagged
  have hslot : ∀ q, isLMS T q → p0 < q → ((clsL T p0).fl q ↔ lslot T q - 1 = bv (ch T q)) ∧
      bv (ch T q) < cnt T.length (fun r => ch T r ≤ ch T q) := by
    intro q hq hlt
    have hpos := lslot_pos hq
    have hb := hbr (ch T q)
    have h1 := lms_in_bucket (T := T) (ch T q)
    have h2 : cnt T.length (fun r => isLMS T r ∧ ch T r = ch T q ∧ p0 < r) ≤ cnt T.length (fun r => isLMS T r ∧ ch T r = ch T q) :=
      cnt_le (fun q _ a => ⟨a.1, a.2.1⟩)
    have h3 : cnt T.length (fun r => isLMS T r ∧ ch T r = ch T q ∧ q < r) < cnt T.length (fun r => isLMS T r ∧ ch T r = ch T q ∧ p0 < r) :=
      cnt_lt hq.1.1 (fun a => by have := a.2.2; omega) ⟨hq, rfl, hlt⟩ (fun r _ a => ⟨a.1, a.2.1, by have := a.2.2; omega⟩)
    have hdef : lslot T q = cnt T.length (fun r => ch T r ≤ ch T q) - cnt T.length (fun r => isLMS T r ∧ ch T r = ch T q ∧ q < r) := rfl
    have hbd : bv (ch T q) = cnt T.length (fun r => ch T r ≤ ch T q) - cnt T.length (fun r => isLMS T r ∧ ch T r = ch T q ∧ p0 < r) := rfl
    refine ⟨?_, by omega⟩
    rw [flL_iff hq hlt]
    constructor
    · intro hf
      have : cnt T.length (fun r => isLMS T r ∧ ch T r = ch T q ∧ p0 < r) = cnt T.length (fun r => isLMS T r ∧ ch T r = ch T q ∧ q < r) + 1 :=
        cnt_insert (P := fun r => isLMS T r ∧ ch T r = ch T q ∧ q < r) (Q := fun r => isLMS T r ∧ ch T r = ch T q ∧ p0 < r)
          hq.1.1 (fun a => by have := a.2.2; omega) (fun r _ => by
            constructor
            · rintro ⟨a, b, c⟩
              have := hf r a c b
              by_cases e : r = q
              · exact Or.inr e
              · exact Or.inl ⟨a, b, by omega⟩
            · rintro (⟨a, b, c⟩ | e)
              · exact ⟨a, b, by omega⟩
              · rw [e]; exact ⟨hq, rfl, hlt⟩)
      omega
    · intro he r hr hr0 hc hrq
      have h4 : cnt T.length (fun u => isLMS T u ∧ ch T u = ch T q ∧ q < u) + 1 =
          cnt T.length (fun u => isLMS T u ∧ ch T u = ch T q ∧ q ≤ u) :=
        (cnt_insert (P := fun u => isLMS T u ∧ ch T u = ch T q ∧ q < u) (Q := fun u => isLMS T u ∧ ch T u = ch T q ∧ q ≤ u)
          hq.1.1 (fun a => by have := a.2.2; omega) (fun u _ => by
            constructor
            · rintro ⟨a, b, c⟩
              by_cases e : u = q
              · exact Or.inr e
              · exact Or.inl ⟨a, b, by omega⟩
            · rintro (⟨a, b, c⟩ | e)
              · exact ⟨a, b, by omega⟩
              · rw [e]; exact ⟨hq, rfl, Nat.le_refl _⟩)).symm
      have h5 : cnt T.length (fun u => isLMS T u ∧ ch T u = ch T q ∧ q ≤ u) <
          cnt T.length (fun u => isLMS T u ∧ ch T u = ch T q ∧ p0 < u) :=
        cnt_lt hr.1.1 (fun a => by have := a.2.2; omega) ⟨hr, hc, hr0⟩ (fun u _ a => ⟨a.1, a.2.1, by have := a.2.2; omega⟩)
      omega
  -- the slot of a bucket that is not at its end belongs to an LMS position
  have hused : ∀ c, c < k → bv c ≠ cnt T.length (fun q => ch T q ≤ c) → ∃ q, isLMS T q ∧ p0 < q ∧ ch T q = c ∧ lslot T q - 1 = bv c := by
    intro c hc hne
    have hex : ∃ q, isLMS T q ∧ ch T q = c ∧ p0 < q := by
      apply Classical.byContradiction
      intro hno
      apply hne
      have := cnt_false (n := T.length) (P := fun q => isLMS T q ∧ ch T q = c ∧ p0 < q) (fun q _ a => hno ⟨q, a⟩)
      show _ - _ = _
      rw [this, Nat.sub_zero]
    have hmin : ∀ d q, q ≤ d → isLMS T q → ch T q = c → p0 < q → ∃ r, isLMS T r ∧ ch T r = c ∧ p0 < r ∧
        ∀ u, isLMS T u → p0 < u → ch T u = ch T r → ¬ u < r := by
      intro d
      induction d with
      | zero => intro q h1 h2 h3 h4; omega
      | succ d ih =>
        intro q h1 h2 h3 h4
        by_cases h : ∃ u, isLMS T u ∧ p0 < u ∧ ch T u = c ∧ u < q
        · obtain ⟨u, u1, u2, u3, u4⟩ := h
          exact ih u (by omega) u1 u3 u2
        · exact ⟨q, h2, h3, h4, fun u u1 u2 u3 u4 => h ⟨u, u1, u2, by omega, u4⟩⟩
    obtain ⟨q, q1, q2, q3⟩ := hex
    obtain ⟨r, r1, r2, r3, r4⟩ := hmin q q (Nat.le_refl _) q1 q2 q3
    refine ⟨r, r1, r3, r2, ?_⟩
    rw [((hslot r r1 r3).1).mp ((flL_iff r1 r3).mpr r4), r2]
  refine ⟨_, sa, hx, f1, f2, ?_, ?_⟩
  · intro q hq hlt
    have hcq := ch_lt hk hq.1.1
    have hv := e3 q hq hlt
    unfold vL
    by_cases hf : (clsL T p0).fl q
    · have hs1 := ((hslot q hq hlt).1).mp hf
      have := f3 (ch T q) (bv (ch T q)) _ (by omega) (hbv _ hcq) (by have := (hslot q hq hlt).2; omega) (by rw [← hs1]; exact hv)
      rw [hs1, this, if_pos hf]
      rfl
    · rw [if_neg hf, f4, hv]
      · rfl
      · intro c _ hc
        have hck := (List.getElem?_eq_some_iff.mp hc).1
        rw [List.length_set, hbl] at hck
        rw [hbv c hck] at hc
        injection hc with hc
        apply Classical.byContradiction
        intro hne
        obtain ⟨r, r1, r2, r3, r4⟩ := hused c hck (by rw [hc]; exact hne)
        have h1 := lslot_pos r1
        have h2 := lslot_pos hq
        have : r = q := lslot_inj r1 hq (by omega)
        subst this
        exact hf (((hslot r r1 r2).1).mpr (by rw [r4, r3]))
  · intro r hr hne
    rw [f4, e4 r hr hne]
    intro c _ hc
    have hck := (List.getElem?_eq_some_iff.mp hc).1
    rw [List.length_set, hbl] at hck
    rw [hbv c hck] at hc
    injection hc with hc
    apply Classical.byContradiction
    intro hne'
    obtain ⟨u, u1, u2, u3, u4⟩ := hused c hck (by rw [hc]; exact hne')
    have h1 := lslot_pos u1
    exact hne u u1 u2 (by omega)

/-- `stage1sort`. -/
theorem stage1_spec {k : Nat} (hk : ∀ c ∈ T, c < k) (hn : 0 < T.length) (same two : Bool)
    (hov : two = true → T.length + T.length < 2 ^ 31) :
    ∃ sa C name, stage1 T k same same two = some (sa, C, lmsCount T, name) ∧ Stage1Out T k same sa C name := by
  obtain ⟨C, hc1, hC⟩ := getCounts_spec T k hk
  obtain ⟨s, hs1, hs⟩ := place_spec hk hn hC
  have hm := hs.num
  unfold stage1
  simp only
  rw [bind_some' hc1, bind_some' hs1, hm]
  by_cases h1 : 1 < lmsCount T
  · rw [if_pos h1]
    obtain ⟨q, hq⟩ : ∃ q, isLMS T q := by
      obtain ⟨p, hp, _⟩ := krank_surj (T := T) (r := 0) (by omega)
      exact ⟨p, hp⟩
    obtain ⟨p0, h0⟩ := firstLMS_ex hq (isLMS_pos hq)
    cases two with
    | true =>
      obtain ⟨x, sa, g1, g2, g3, g4, g5⟩ := stage1_two hk hC hs h0
      have hj := (hs.some p0 h0).1
      obtain ⟨sa2, k1, k2⟩ := lmsSort2_spec (hov rfl) h0 hk hC g3 g4 g5
      obtain ⟨sa3, name, k3, k4⟩ := lmsPost2_spec k2 (by omega)
      refine ⟨sa3, C, name, ?_, k4.size, fun _ => hC, fun _ => k4, fun h => absurd h1 h⟩
      rw [if_pos rfl, bind_some' (get_ch (show s.j + 1 < T.length by rw [hj]; exact h0.1.1.1)), bind_some' g1, bind_some' g2,
        bind_some' k1, bind_some' k3]
      rfl
    | false =>
      obtain ⟨e1, e2, e3, e4⟩ := hs.some p0 h0
      obtain ⟨sa2, C2, k1, k2, k5⟩ := lmsSort1_spec h0 hk (same := same) (recount := same) (C := if same then s.B else C)
        (by
          cases same with
          | true => exact Or.inl rfl
          | false => exact Or.inr ⟨rfl, hC⟩) hs.size e3 e4
      obtain ⟨sa3, name, k3, k4⟩ := lmsPost1_spec k2 (by omega)
      refine ⟨sa3, C2, name, ?_, k4.size, k5, fun _ => k4, fun h => absurd h1 h⟩
      rw [if_neg (by simp), bind_some' k1]
      simp only
      rw [bind_some' k3]
      rfl
  · rw [if_neg h1]
    have hcc : same = false → Counts T k (if same then s.B else C) := by
      rintro rfl; exact hC
    by_cases h2 : lmsCount T = 1
    · rw [if_pos h2]
      obtain ⟨q, hq, _⟩ := krank_surj (T := T) (r := 0) (by omega)
      obtain ⟨p0, h0⟩ := firstLMS_ex hq (isLMS_pos hq)
      have huniq : ∀ r, isLMS T r → r = p0 := by
        intro r hr
        have a := krank_lt hr
        have b := krank_lt h0.1
        exact krank_inj hr h0.1 (by omega)
      obtain ⟨e1, e2, e3, e4⟩ := hs.some p0 h0
      have hsl : lslot T p0 = (ordL T).time p0 := by
        rw [time_lms h0.1]
        unfold lslot
        rw [cnt_false (n := T.length) (P := fun q => isLMS T q ∧ ch T q = ch T p0 ∧ p0 < q) (fun q _ a => by
            have := huniq q a.1
            have := a.2.2
            omega),
          cnt_false (n := T.length) (P := fun q => isLMS T q ∧ ch T q = ch T p0 ∧ sless T p0 q) (fun q _ a => by
            have := huniq q a.1
            rw [this] at a
            exact sless_irrefl p0 a.2.2)]
      have hslt := lslot_lt h0.1
      have hsz := hs.size
      have hset := get_set1 (A := s.sa) (i := s.b) (v := ((s.j + 1 : Nat) : Int)) (by omega)
      rw [bind_some' (put_spec (show s.b < s.sa.length by omega) _)]
      refine ⟨_, _, 1, by rw [h2]; rfl, by rw [List.length_set]; exact hsz, hcc, fun h => absurd h h1, fun _ => ⟨⟨by rw [List.length_set]; exact hsz, ?_, ?_⟩, h2.symm⟩⟩
      · intro p hp
        rw [huniq p hp, ← hsl, show lslot T p0 - 1 = s.b by omega, hset.1, e1]
      · intro r hr hne
        have := hne p0 h0.1
        rw [← hsl] at this
        rw [hset.2 r (by omega)]
        apply e4 r hr
        intro q hq hlt
        have := huniq q hq
        omega
    · rw [if_neg h2]
      have hno : ∀ q, ¬ isLMS T q := by
        intro q hq
        have := krank_lt hq
        omega
      have h0 : lmsCount T = 0 := by omega
      refine ⟨_, _, 0, rfl, hs.size, hcc, fun h => absurd h h1, fun _ => ⟨⟨hs.size, fun p hp => absurd hp (hno p), ?_⟩, h0.symm⟩⟩
      intro r hr _
      exact hs.none hno r hr

end Bwtc.Sais
