import Verif.HuffLookupProof
import Verif.HuffOpt

/-!
# The lookup tables represent the codewords (helper lemmas)
-/

set_option autoImplicit false

namespace Bwtc.HuffLookup
open Huff

/-- Entry `e` covers byte `x` in row `z`. -/
def Hit (e : Nat × Nat × Nat) (z x : Nat) : Prop :=
  e.2.1 ≠ 0 ∧ e.2.2 ≠ 0 ∧ z = e.2.1 - bitLen e.2.2 ∧ e.2.2 <<< (8 - bitLen e.2.2) ≤ x ∧
    x < (e.2.2 <<< (8 - bitLen e.2.2)) + (1 <<< (8 - bitLen e.2.2))

/-- Conditions on the entries: used codes fit a byte and their length, which is at most 50. -/
def Fits (es : List (Nat × Nat × Nat)) : Prop :=
  ∀ e ∈ es, e.2.1 ≠ 0 → e.2.2 < 256 ∧ e.2.2 < 2 ^ e.2.1 ∧ e.2.1 ≤ 50

theorem bitLen_bounds {c : Nat} (h0 : c ≠ 0) (h : c < 256) : 1 ≤ bitLen c ∧ bitLen c ≤ 8 ∧ c < 2 ^ bitLen c ∧
    2 ^ (bitLen c - 1) ≤ c := by
  rw [bitLen_eq c h h0]
  have h1 := Nat.lt_log2_self (n := c)
  have h2 := Nat.log2_self_le h0
  refine ⟨by omega, ?_, h1, by simpa using h2⟩
  apply Decidable.byContradiction
  intro hc
  have := Nat.pow_le_pow_right (show 0 < 2 by omega) (show 8 ≤ c.log2 by omega)
  omega

theorem bitLen_le {c l : Nat} (h0 : c ≠ 0) (h : c < 256) (hl : c < 2 ^ l) : bitLen c ≤ l := by
  obtain ⟨h1, h2, h3, h4⟩ := bitLen_bounds h0 h
  apply Decidable.byContradiction
  intro hc
  have := Nat.pow_le_pow_right (show 0 < 2 by omega) (show l ≤ bitLen c - 1 by omega)
  omega

theorem build_spec (es : List (Nat × Nat × Nat)) (hf : Fits es) : ∀ (tab0 : Table),
    ∃ tab, build es tab0 = some tab ∧ ∀ z x,
      ((∃ e ∈ es, Hit e z x) → ∃ e ∈ es, Hit e z x ∧ tab z x = some (e.1, bitLen e.2.2)) ∧
      ((∀ e ∈ es, ¬ Hit e z x) → tab z x = tab0 z x) := by
  induction es with
  | nil =>
    intro tab0
    exact ⟨tab0, rfl, fun z x => ⟨by rintro ⟨e, he, _⟩; simp at he, fun _ => rfl⟩⟩
  | cons e es ih =>
    intro tab0
    obtain ⟨k, l, c⟩ := e
    by_cases h : l ≠ 0 ∧ c ≠ 0
    · obtain ⟨f1, f2, f3⟩ := hf (k, l, c) (by simp) h.1
      simp only at f1 f2 f3
      obtain ⟨g1, g2, g3, g4⟩ := bitLen_bounds h.2 f1
      have g5 := bitLen_le h.2 f1 f2
      have hsum : (c <<< (8 - bitLen c)) + (1 <<< (8 - bitLen c)) ≤ 256 := by
        rw [Nat.shiftLeft_eq, Nat.shiftLeft_eq, ← Nat.add_mul]
        have := Nat.mul_le_mul_right (2 ^ (8 - bitLen c)) (show c + 1 ≤ 2 ^ bitLen c by omega)
        rw [← Nat.pow_add, show bitLen c + (8 - bitLen c) = 8 by omega] at this
        exact this
      obtain ⟨tab, t1, t2⟩ := ih (fun e he => hf e (by simp [he]))
        (fill (l - bitLen c) (c <<< (8 - bitLen c)) (1 <<< (8 - bitLen c)) k (bitLen c) tab0)
      refine ⟨tab, ?_, ?_⟩
      · rw [build, if_pos h, if_pos ⟨g5, by omega, g2, hsum⟩, t1]
      · intro z x
        obtain ⟨u1, u2⟩ := t2 z x
        by_cases hex : ∃ e ∈ es, Hit e z x
        · refine ⟨fun _ => ?_, ?_⟩
          · obtain ⟨e, he, h1, h2⟩ := u1 hex
            exact ⟨e, by simp [he], h1, h2⟩
          · intro hall
            obtain ⟨e, he, h1⟩ := hex
            exact absurd h1 (hall e (by simp [he]))
        · have hnone : ∀ e ∈ es, ¬ Hit e z x := fun e he hh => hex ⟨e, he, hh⟩
          have hv := u2 hnone
          rw [fill] at hv
          by_cases hh : Hit (k, l, c) z x
          · rw [if_pos ⟨hh.2.2.1, hh.2.2.2.1, hh.2.2.2.2⟩] at hv
            refine ⟨fun _ => ⟨(k, l, c), by simp, hh, hv⟩, ?_⟩
            intro hall
            exact absurd hh (hall _ (by simp))
          · rw [if_neg (fun hc => hh ⟨h.1, h.2, hc.1, hc.2.1, hc.2.2⟩)] at hv
            refine ⟨?_, fun _ => hv⟩
            rintro ⟨e, he, h1⟩
            rcases List.mem_cons.mp he with rfl | he
            · exact absurd h1 hh
            · exact absurd h1 (hnone e he)
    · obtain ⟨tab, t1, t2⟩ := ih (fun e he => hf e (by simp [he])) tab0
      refine ⟨tab, by rw [build, if_neg h, t1], ?_⟩
      intro z x
      obtain ⟨u1, u2⟩ := t2 z x
      refine ⟨?_, fun hall => u2 (fun e he => hall e (by simp [he]))⟩
      rintro ⟨e, he, h1⟩
      rcases List.mem_cons.mp he with rfl | he
      · exact absurd ⟨h1.1, h1.2.1⟩ h
      · obtain ⟨e', he', h2⟩ := u1 ⟨e, he, h1⟩
        exact ⟨e', by simp [he'], h2⟩

/-- Shape of a nonzero code. -/
theorem word_shape {l c : Nat} (h0 : c ≠ 0) (h : c < 256) (hl : c < 2 ^ l) :
    bitsOf l c = List.replicate (l - bitLen c) false ++ bitsOf (bitLen c) c ∧
      ∃ t, bitsOf (bitLen c) c = true :: t ∧ t.length = bitLen c - 1 := by
  obtain ⟨g1, g2, g3, g4⟩ := bitLen_bounds h0 h
  have g5 := bitLen_le h0 h hl
  constructor
  · conv => lhs; rw [show l = (l - bitLen c) + bitLen c by omega, bitsOf_add]
    rw [Nat.div_eq_of_lt g3]
    congr 1
    generalize l - bitLen c = k
    induction k with
    | zero => rfl
    | succ k ih => simp [bitsOf, List.replicate_succ, ih]
  · obtain ⟨b, hb⟩ : ∃ b, bitLen c = b + 1 := ⟨bitLen c - 1, by omega⟩
    rw [hb] at g3 g4 ⊢
    rw [Nat.add_sub_cancel] at g4
    rw [bitsOf]
    have : c / 2 ^ b = 1 := by
      rw [Nat.div_eq_iff (Nat.pow_pos (by omega))]
      rw [Nat.pow_succ] at g3
      omega
    rw [this]
    exact ⟨bitsOf b c, rfl, by simp⟩

/-- A byte is covered exactly when it starts with the significant bits of the code. -/
theorem cover_iff {c x : Nat} (h0 : c ≠ 0) (h : c < 256) (hx : x < 256) :
    (c <<< (8 - bitLen c) ≤ x ∧ x < (c <<< (8 - bitLen c)) + (1 <<< (8 - bitLen c))) ↔
      (bitsOf 8 x).take (bitLen c) = bitsOf (bitLen c) c := by
  obtain ⟨g1, g2, g3, g4⟩ := bitLen_bounds h0 h
  have hpos : 0 < 2 ^ (8 - bitLen c) := Nat.pow_pos (by omega)
  have hsplit : bitsOf 8 x = bitsOf (bitLen c) (x / 2 ^ (8 - bitLen c)) ++ bitsOf (8 - bitLen c) x := by
    rw [← bitsOf_add]
    congr 1
    omega
  rw [hsplit, List.take_append_of_le_length (by rw [bitsOf_length]; omega),
    List.take_of_length_le (by rw [bitsOf_length]; omega), Nat.shiftLeft_eq, Nat.shiftLeft_eq, Nat.one_mul]
  have hdlt : x / 2 ^ (8 - bitLen c) < 2 ^ bitLen c := by
    rw [Nat.div_lt_iff_lt_mul hpos, ← Nat.pow_add, show bitLen c + (8 - bitLen c) = 8 by omega]
    exact hx
  constructor
  · rintro ⟨h1, h2⟩
    congr 1
    rw [Nat.div_eq_iff hpos]
    omega
  · intro he
    have h1 := congrArg natOf he
    rw [natOf_bitsOf_of_lt hdlt, natOf_bitsOf_of_lt g3] at h1
    rw [Nat.div_eq_iff hpos] at h1
    omega

theorem zeros_bitsOf (l : Nat) : bitsOf l 0 = List.replicate l false := by
  induction l with
  | zero => rfl
  | succ k ih => simp [bitsOf, List.replicate_succ, ih]

/-- The words of a list of entries. -/
def wordsOf (es : List (Nat × Nat × Nat)) : List (Nat × List Bool) :=
  (es.filter fun e => 0 < e.2.1).map fun e => (e.1, bitsOf e.2.1 e.2.2)

theorem mem_wordsOf {es : List (Nat × Nat × Nat)} {p : Nat × List Bool} :
    p ∈ wordsOf es ↔ ∃ e ∈ es, 0 < e.2.1 ∧ p = (e.1, bitsOf e.2.1 e.2.2) := by
  simp only [wordsOf, List.mem_map, List.mem_filter, decide_eq_true_eq]
  constructor
  · rintro ⟨e, ⟨h1, h2⟩, h3⟩
    exact ⟨e, h1, h2, h3.symm⟩
  · rintro ⟨e, h1, h2, h3⟩
    exact ⟨e, ⟨h1, h2⟩, h3.symm⟩

theorem hit_word {es : List (Nat × Nat × Nat)} (hf : Fits es) {e : Nat × Nat × Nat} (he : e ∈ es) {z x : Nat}
    (hx : x < 256) (h : Hit e z x) :
    bitsOf e.2.1 e.2.2 = List.replicate z false ++ (bitsOf 8 x).take (bitLen e.2.2) ∧
      (bitsOf 8 x).head? = some true ∧ 1 ≤ bitLen e.2.2 ∧ bitLen e.2.2 ≤ 8 := by
  obtain ⟨h1, h2, h3, h4, h5⟩ := h
  obtain ⟨f1, f2, f3⟩ := hf e he h1
  obtain ⟨w1, t, w2, w3⟩ := word_shape h2 f1 f2
  have hc := (cover_iff h2 f1 hx).mp ⟨h4, h5⟩
  obtain ⟨g1, g2, _, _⟩ := bitLen_bounds h2 f1
  refine ⟨by rw [w1, h3, hc], ?_, g1, g2⟩
  rw [w2] at hc
  have := congrArg List.head? hc
  rw [List.head?_take, if_neg (by omega)] at this
  simpa using this

theorem zeroCode_spec (es : List (Nat × Nat × Nat)) (h : ∃ e ∈ es, 0 < e.2.1 ∧ e.2.2 = 0) :
    ∃ e ∈ es, 0 < e.2.1 ∧ e.2.2 = 0 ∧ zeroCode es = (e.2.1, e.1) := by
  have gen : ∀ (es : List (Nat × Nat × Nat)) (r : Nat × Nat),
      (es.foldl (fun r e => if 0 < e.2.1 ∧ e.2.2 = 0 then (e.2.1, e.1) else r) r = r ∧
        (∀ e ∈ es, ¬ (0 < e.2.1 ∧ e.2.2 = 0))) ∨
      ∃ e ∈ es, 0 < e.2.1 ∧ e.2.2 = 0 ∧
        es.foldl (fun r e => if 0 < e.2.1 ∧ e.2.2 = 0 then (e.2.1, e.1) else r) r = (e.2.1, e.1) := by
    intro es
    induction es with
    | nil => intro r; left; exact ⟨rfl, by simp⟩
    | cons a es ih =>
      intro r
      rw [List.foldl_cons]
      by_cases ha : 0 < a.2.1 ∧ a.2.2 = 0
      · rw [if_pos ha]
        right
        rcases ih (a.2.1, a.1) with ⟨h1, _⟩ | ⟨e, h1, h2⟩
        · exact ⟨a, by simp, ha.1, ha.2, h1⟩
        · exact ⟨e, by simp [h1], h2⟩
      · rw [if_neg ha]
        rcases ih r with ⟨h1, h3⟩ | ⟨e, h1, h2⟩
        · left
          refine ⟨h1, ?_⟩
          intro e he
          rcases List.mem_cons.mp he with rfl | he
          · exact ha
          · exact h3 e he
        · right
          exact ⟨e, by simp [h1], h2⟩
  rcases gen es (0, 0) with ⟨_, h2⟩ | h2
  · obtain ⟨e, he, h3⟩ := h
    exact absurd h3 (h2 e he)
  · exact h2

/-- The tables built from fitting, prefix-free codes are correct. -/
theorem build_ok (es : List (Nat × Nat × Nat)) (hf : Fits es) (hpf : PF (wordsOf es))
    (hz : ∃ e ∈ es, 0 < e.2.1 ∧ e.2.2 = 0) :
    ∃ tab, build es (fun _ _ => none) = some tab ∧
      Ok (wordsOf es) tab (zeroCode es).1 (zeroCode es).2 := by
  obtain ⟨tab, t1, t2⟩ := build_spec es hf (fun _ _ => none)
  refine ⟨tab, t1, ?_⟩
  obtain ⟨e0, he0, z1, z2, z3⟩ := zeroCode_spec es hz
  refine ⟨hpf, ?_, ?_, ?_, ?_, ?_⟩
  · intro z x k len hz50 hx ht
    obtain ⟨u1, u2⟩ := t2 z x
    have hex : ∃ e ∈ es, Hit e z x := by
      apply Classical.byContradiction
      intro hc
      have := u2 (fun e he hh => hc ⟨e, he, hh⟩)
      rw [this] at ht
      exact absurd ht (by simp)
    obtain ⟨e, he, h1, h2⟩ := u1 hex
    rw [h2] at ht
    simp at ht
    obtain ⟨w1, w2, w3, w4⟩ := hit_word hf he hx h1
    rw [← ht.1, ← ht.2]
    refine ⟨w3, w4, ?_, w2⟩
    rw [← w1]
    exact mem_wordsOf.mpr ⟨e, he, by have := h1.1; omega, rfl⟩
  · intro z x k len hx hl1 hl2 hhead hw
    obtain ⟨e, he, h1, h2⟩ := mem_wordsOf.mp hw
    simp only [Prod.mk.injEq] at h2
    obtain ⟨f1, f2, f3⟩ := hf e he (by omega)
    obtain ⟨T, hT⟩ : ∃ T, (bitsOf 8 x).take len = true :: T := by
      cases hb : bitsOf 8 x with
      | nil => rw [hb] at hhead; simp at hhead
      | cons a B =>
        rw [hb] at hhead
        simp at hhead
        obtain ⟨l', rfl⟩ : ∃ l', len = l' + 1 := ⟨len - 1, by omega⟩
        exact ⟨B.take l', by rw [List.take_succ_cons, hhead]⟩
    have hc0 : e.2.2 ≠ 0 := by
      intro h0
      rw [h0, zeros_bitsOf, hT] at h2
      have : true ∈ List.replicate e.2.1 false := by rw [← h2.2]; simp
      rw [List.mem_replicate] at this
      exact absurd this.2 (by simp)
    obtain ⟨w1, t, w2, w3⟩ := word_shape hc0 f1 f2
    have hee := h2.2
    rw [w1, hT, w2] at hee
    obtain ⟨q1, q2⟩ := prefix_zeros_one (T := true :: t) (Or.inr rfl) (by rw [hee]; exact List.prefix_refl _)
    have q3 : true :: T = true :: t := by
      rw [q1] at hee
      exact List.append_cancel_left hee
    have hlen : len = bitLen e.2.2 := by
      have a1 := congrArg List.length hT
      have a2 := congrArg List.length q3
      have g1 := (bitLen_bounds hc0 f1).1
      rw [List.length_take, bitsOf_length] at a1
      simp only [List.length_cons] at a1 a2
      omega
    have hhit : Hit e z x := by
      refine ⟨by omega, hc0, q1, ?_⟩
      apply (cover_iff hc0 f1 hx).mpr
      rw [← hlen, hT, q3, hlen, ← w2]
    obtain ⟨e', he', h3, h4⟩ := (t2 z x).1 ⟨e, he, hhit⟩
    rw [h4]
    -- both entries have words that are prefixes of the same string
    obtain ⟨v1, v2, v3, v4⟩ := hit_word hf he hx hhit
    obtain ⟨v1', v2', v3', v4'⟩ := hit_word hf he' hx h3
    have hm : (e.1, bitsOf e.2.1 e.2.2) ∈ wordsOf es := mem_wordsOf.mpr ⟨e, he, h1, rfl⟩
    have hm' : (e'.1, bitsOf e'.2.1 e'.2.2) ∈ wordsOf es :=
      mem_wordsOf.mpr ⟨e', he', by have := h3.1; omega, rfl⟩
    have hp1 : bitsOf e.2.1 e.2.2 <+: List.replicate z false ++ bitsOf 8 x := by
      rw [v1]
      exact (List.prefix_append_right_inj _).mpr (List.take_prefix _ _)
    have hp2 : bitsOf e'.2.1 e'.2.2 <+: List.replicate z false ++ bitsOf 8 x := by
      rw [v1']
      exact (List.prefix_append_right_inj _).mpr (List.take_prefix _ _)
    have heq : (e.1, bitsOf e.2.1 e.2.2) = (e'.1, bitsOf e'.2.1 e'.2.2) := by
      rcases List.prefix_or_prefix_of_prefix hp1 hp2 with hq | hq
      · exact hpf.1 _ hm _ hm' hq
      · exact (hpf.1 _ hm' _ hm hq).symm
    rw [Prod.mk.injEq] at heq
    have hll := congrArg List.length heq.2
    rw [v1, v1'] at hll
    simp only [List.length_append, List.length_take, bitsOf_length, List.length_replicate] at hll
    rw [← heq.1, h2.1]
    congr 2
    omega
  · rw [z3]
    exact mem_wordsOf.mpr ⟨e0, he0, z1, by rw [z2, zeros_bitsOf]⟩
  · rw [z3]
    exact (hf e0 he0 (by omega)).2.2
  · intro p hp
    obtain ⟨e, he, h1, h2⟩ := mem_wordsOf.mp hp
    obtain ⟨f1, f2, f3⟩ := hf e he (by omega)
    rw [h2]
    simp only
    by_cases h0 : e.2.2 = 0
    · left
      rw [h0, zeros_bitsOf, List.length_replicate]
    · right
      obtain ⟨w1, t, w2, w3⟩ := word_shape h0 f1 f2
      have := bitLen_bounds h0 f1
      exact ⟨_, t, by rw [w1, w2], by omega⟩

/-- Kraft's equality makes the code complete. -/
theorem complete_of_kraft {es : List (Nat × Nat × Nat)} {tab : Table} {len0 code0 : Nat}
    (h : Ok (wordsOf es) tab len0 code0) (m : Nat) (hall : ∀ s : List Bool, m ≤ s.length → ∃ p ∈ wordsOf es, p.2 <+: s) :
    Complete (wordsOf es) len0 := by
  intro z t hz ht
  obtain ⟨p, hp, hpre⟩ := hall (List.replicate z false ++ (true :: t ++ List.replicate m false)) (by simp; omega)
  refine ⟨p, hp, ?_⟩
  rcases h.prefix_cases hp (Or.inr rfl) hpre with g | ⟨len, g1, g2, g3, g4⟩
  · omega
  · rw [g4]
    apply (List.prefix_append_right_inj _).mpr
    rw [List.take_append_of_le_length (by simp; omega)]
    exact List.take_prefix _ _

theorem mem_entries {clen code : List Nat} {e : Nat × Nat × Nat} :
    e ∈ entries clen code ↔ clen[e.1]? = some e.2.1 ∧ code[e.1]? = some e.2.2 := by
  obtain ⟨k, l, c⟩ := e
  simp only [entries, List.mem_map, Prod.mk.injEq]
  constructor
  · rintro ⟨⟨⟨l', c'⟩, k'⟩, h1, h2, h3, h4⟩
    rw [List.mem_zipIdx_iff_getElem?] at h1
    simp only at h1 h2 h3 h4
    rw [List.getElem?_zip_eq_some] at h1
    subst h2 h3 h4
    exact h1
  · rintro ⟨h1, h2⟩
    refine ⟨((l, c), k), ?_, rfl, rfl, rfl⟩
    rw [List.mem_zipIdx_iff_getElem?]
    simp only
    rw [List.getElem?_zip_eq_some]
    exact ⟨h1, h2⟩

theorem entries_fst (clen code : List Nat) : (entries clen code).Pairwise fun e e' => e.1 ≠ e'.1 := by
  have : ((entries clen code).map (·.1)).Pairwise (· ≠ ·) := by
    rw [entries, List.map_map]
    have e : ∀ (l : List (Nat × Nat)) (k : Nat), (l.zipIdx k).map ((·.1) ∘ fun e : (Nat × Nat) × Nat => (e.2, e.1.1, e.1.2)) = List.range' k l.length := by
      intro l
      induction l with
      | nil => intro k; rfl
      | cons a l ih => intro k; rw [List.zipIdx_cons, List.map_cons, ih]; rfl
    rw [e]
    exact List.nodup_range'
  rwa [List.pairwise_map] at this

theorem words_lengths (clen code : List Nat) (h : code.length = clen.length) :
    ((words clen code).map (·.2)).map List.length = clen.filter fun l => 0 < l := by
  have gen : ∀ (clen code : List Nat) (k : Nat), code.length = clen.length →
      (((((clen.zip code).zipIdx k).map fun e : (Nat × Nat) × Nat => (e.2, e.1.1, e.1.2)).filter fun e => decide (0 < e.2.1)).map
        fun e => e.2.1) = clen.filter fun l => decide (0 < l) := by
    intro clen
    induction clen with
    | nil => intro code k _; rfl
    | cons l ls ih =>
      intro code k hl
      cases code with
      | nil => simp at hl
      | cons c cs =>
        simp only [List.length_cons, Nat.add_right_cancel_iff] at hl
        rw [List.zip_cons_cons, List.zipIdx_cons, List.map_cons, List.filter_cons, List.filter_cons]
        have := ih cs (k + 1) hl
        by_cases h0 : 0 < l
        · simp only [h0, decide_true, if_true, List.map_cons]
          rw [this]
        · simp only [h0, decide_false, Bool.false_eq_true, if_false]
          exact this
  rw [words, List.map_map, List.map_map, ← gen clen code 0 h]
  apply List.map_congr_left
  intro e he
  simp

/-- Prefix-freeness as a property of pairs of symbols. -/
theorem pf_words {clen code : List Nat}
    (h : ∀ (i j li lj ci cj : Nat), i ≠ j → clen[i]? = some li → clen[j]? = some lj → 0 < li → 0 < lj →
        code[i]? = some ci → code[j]? = some cj → ¬ bitsOf li ci <+: bitsOf lj cj) :
    PF (words clen code) ∧ PrefixFree ((words clen code).map (·.2)) := by
  refine ⟨⟨?_, ?_⟩, ?_⟩
  · intro p hp q hq hpre
    obtain ⟨e, he, h1, h2⟩ := mem_wordsOf.mp hp
    obtain ⟨e', he', h1', h2'⟩ := mem_wordsOf.mp hq
    have m := mem_entries.mp he
    have m' := mem_entries.mp he'
    by_cases hk : e.1 = e'.1
    · rw [hk] at m
      have a1 := m.1.symm.trans m'.1
      have a2 := m.2.symm.trans m'.2
      simp only [Option.some.injEq] at a1 a2
      rw [h2, h2', hk, a1, a2]
    · rw [h2, h2'] at hpre
      exact absurd hpre (h _ _ _ _ _ _ hk m.1 m'.1 h1 h1' m.2 m'.2)
  · intro p hp hnil
    obtain ⟨e, he, h1, h2⟩ := mem_wordsOf.mp hp
    rw [h2] at hnil
    have := congrArg List.length hnil
    simp at this
    omega
  · unfold PrefixFree words
    rw [List.pairwise_map, List.pairwise_map]
    refine List.Pairwise.imp_of_mem ?_ ((entries_fst clen code).filter _)
    intro e e' he he' hne
    simp only [List.mem_filter, decide_eq_true_eq] at he he'
    have m := mem_entries.mp he.1
    have m' := mem_entries.mp he'.1
    exact ⟨h _ _ _ _ _ _ hne m.1 m'.1 he.2 he'.2 m.2 m'.2,
      h _ _ _ _ _ _ (Ne.symm hne) m'.1 m.1 he'.2 he.2 m'.2 m.2⟩

/-- Decoding with the tables equals bit-by-bit decoding. -/
theorem decode_eq {clen code : List Nat} (hf : Fits (entries clen code)) (hpf : PF (words clen code))
    (hz : ∃ e ∈ entries clen code, 0 < e.2.1 ∧ e.2.2 = 0) (n : Nat) (bs : List UInt8)
    (hc : (∃ m, ∀ s : List Bool, m ≤ s.length → ∃ p ∈ words clen code, p.2 <+: s) ∨
      bitDecode (words clen code) n (bytesBits bs) ≠ none) :
    decode clen code n (bytesBits bs) =
      (bitDecode (words clen code) n (bytesBits bs)).map fun x => (x.1, alignIn x.2) := by
  obtain ⟨tab, t1, t2⟩ := build_ok (entries clen code) hf hpf hz
  have hP : pend ⟨0, 0, 0⟩ = [] := rfl
  have hd := decodeLoop_spec t2 bs.length bs rfl n ⟨0, 0, 0⟩ ⟨by simp, by simp, by simp⟩ (by
    right
    rw [hP]
    intro p hp hpre
    exact hpf.2 p hp (List.prefix_nil.mp hpre)) (by intro _; rw [hP]; simp) (by
    rcases hc with ⟨m, hc⟩ | hc
    · exact Or.inl (complete_of_kraft t2 m hc)
    · right
      rw [hP]
      exact hc)
  rw [hP, List.nil_append] at hd
  rw [decode, t1]
  simp only
  rw [hd]
  rw [show wordsOf (entries clen code) = words clen code from rfl]
  cases bitDecode (words clen code) n (bytesBits bs) with
  | none => rfl
  | some x =>
    simp only [Option.map_some]
    rw [alignIn_aligned]
    unfold alignIn
    rw [List.length_drop]
    omega

end Bwtc.HuffLookup
