import Verif.FastInv
import Verif.InvBWTProof
import Mathlib.Data.List.Perm.Subperm

/-!
# The fast inverse transform follows the LF mapping

Lemmas for `Verif.Props.FastInv`.
-/

set_option autoImplicit false

namespace Bwtc.FastInv

open Bwtc.InvBWT

/-- The number of rows before `p`, without row `e`, with character `c`. -/
def occ (b : List UInt8) (e : Nat) (c : UInt8) (p : Nat) : Nat :=
  (b.take p).zipIdx.countP fun x => decide (x.2 ≠ e) && decide (x.1 = c)

/-- The number of rows, without row `e`, with a character below `k`. -/
def less (b : List UInt8) (e : Nat) (k : Nat) : Nat :=
  b.zipIdx.countP fun x => decide (x.2 ≠ e) && decide (x.1.toNat < k)

theorem occ_zero (b : List UInt8) (e : Nat) (c : UInt8) : occ b e c 0 = 0 := by simp [occ]

theorem occ_succ {b : List UInt8} {p : Nat} {x : UInt8} (hp : b[p]? = some x) (e : Nat) (c : UInt8) :
    occ b e c (p + 1) = occ b e c p + if p ≠ e ∧ x = c then 1 else 0 := by
  have hlt := (List.getElem?_eq_some_iff.mp hp).1
  rw [occ, occ, List.take_add_one, hp, Option.toList_some, List.zipIdx_append, List.countP_append, List.length_take,
    Nat.min_eq_left (by omega)]
  simp only [List.zipIdx_cons, List.zipIdx_nil, List.countP_cons, List.countP_nil, Nat.zero_add, Bool.and_eq_true, decide_eq_true_eq]

theorem occ_mono (b : List UInt8) (e : Nat) (c : UInt8) {p q : Nat} (h : p ≤ q) (hq : q ≤ b.length) : occ b e c p ≤ occ b e c q := by
  obtain ⟨d, rfl⟩ : ∃ d, q = p + d := ⟨q - p, by omega⟩
  induction d with
  | zero => exact Nat.le_refl _
  | succ d ih =>
    have := ih (by omega) (by omega)
    have := occ_succ (List.getElem?_eq_getElem (show p + d < b.length by omega)) e c
    rw [← Nat.add_assoc]
    omega

theorem occ_le (b : List UInt8) (e : Nat) (c : UInt8) (p : Nat) : occ b e c p ≤ p := by
  rw [occ]
  refine Nat.le_trans List.countP_le_length ?_
  rw [List.length_zipIdx, List.length_take]
  omega

theorem occ_all (b : List UInt8) (e : Nat) (c : UInt8) : occ b e c b.length = b.zipIdx.countP fun x => decide (x.2 ≠ e) && decide (x.1 = c) := by
  rw [occ, List.take_length]

theorem less_succ (b : List UInt8) (e : Nat) (c : UInt8) : less b e (c.toNat + 1) = less b e c.toNat + occ b e c b.length := by
  rw [occ_all, less, less]
  apply BWT.countP_add
  · intro a _
    rw [Bool.eq_iff_iff]
    simp only [Bool.and_eq_true, Bool.or_eq_true, decide_eq_true_eq, ← UInt8.toNat_inj]
    omega
  · intro a _
    simp only [Bool.and_eq_true, decide_eq_true_eq, ← UInt8.toNat_inj]
    omega

theorem less_mono (b : List UInt8) (e : Nat) {j k : Nat} (h : j ≤ k) : less b e j ≤ less b e k := by
  apply List.countP_mono_left
  intro x _ hx
  simp only [Bool.and_eq_true, decide_eq_true_eq] at *
  omega

theorem less_zero (b : List UInt8) (e : Nat) : less b e 0 = 0 := by simp [less]

theorem skip_one (b : List UInt8) (e n : Nat) (he : n ≤ e) (h : e < n + b.length) :
    (b.zipIdx n).countP (fun x => decide (x.2 ≠ e)) + 1 = b.length := by
  induction b generalizing n with
  | nil => simp at h; omega
  | cons a b ih =>
    rw [List.zipIdx_cons, List.countP_cons, List.length_cons]
    by_cases hn : n = e
    · subst hn
      have : (b.zipIdx (n + 1)).countP (fun x => decide (x.2 ≠ n)) = b.length := by
        rw [← List.length_zipIdx (l := b) (i := n + 1), List.countP_eq_length]
        intro x hx
        have := List.le_snd_of_mem_zipIdx hx
        simp only [ne_eq, decide_eq_true_eq]
        omega
      rw [this]
      simp
    · have := ih (n + 1) (by omega) (by rw [List.length_cons] at h; omega)
      simp only [ne_eq, hn, not_false_eq_true, decide_true, if_true] at this ⊢
      omega

theorem less_top (b : List UInt8) (e : Nat) (he : e < b.length) : less b e 256 + 1 = b.length := by
  rw [← skip_one b e 0 (by omega) (by omega), less]
  congr 1
  apply List.countP_congr
  intro x _
  have := x.1.toNat_lt
  simp [this]

/-! ## The scan -/

/-- The milestones of character `c` among the first `p` rows: the rows whose rank is a multiple of 2^24. -/
def milestones (b : List UInt8) (e : Nat) (c : UInt8) (p : Nat) : List Nat :=
  (List.range p).filter fun i => decide (i ≠ e) && decide (b[i]? = some c) && decide (occ b e c i % 2 ^ 24 = 0)

structure ScanInv (b : List UInt8) (e p : Nat) (st : Scan) : Prop where
  len : st.ranks.length = p
  ranks : ∀ (i : Nat) (c : UInt8), i < p → i ≠ e → b[i]? = some c → st.ranks[i]? = some (c.toNat * 2 ^ 24 + occ b e c i % 2 ^ 24)
  miles : ∀ c : UInt8, st.miles c.toNat = milestones b e c p
  zero : st.count 0 = 1
  count : ∀ c : UInt8, st.count (c.toNat + 1) = occ b e c p

theorem milestones_succ (b : List UInt8) (e : Nat) (c : UInt8) (p : Nat) :
    milestones b e c (p + 1) = milestones b e c p ++
      if p ≠ e ∧ b[p]? = some c ∧ occ b e c p % 2 ^ 24 = 0 then [p] else [] := by
  rw [milestones, List.range_succ, List.filter_append, ← milestones]
  congr 1
  by_cases h : p ≠ e ∧ b[p]? = some c ∧ occ b e c p % 2 ^ 24 = 0
  · rw [if_pos h, List.filter_cons_of_pos (by simp [h])]
    rfl
  · rw [if_neg h, List.filter_cons_of_neg (by
      simp only [Bool.and_eq_true, decide_eq_true_eq]
      rintro ⟨⟨h1, h2⟩, h3⟩
      exact h ⟨h1, h2, h3⟩)]
    rfl

theorem scanRow_inv {b : List UInt8} {e p : Nat} (hb : b.length < 2 ^ 32) (hp : p < b.length) {st : Scan} (inv : ScanInv b e p st) :
    ∃ st', scanRow b e st p = some st' ∧ ScanInv b e (p + 1) st' := by
  obtain ⟨x, hx⟩ : ∃ x, b[p]? = some x := ⟨_, List.getElem?_eq_getElem hp⟩
  rw [scanRow]
  by_cases hpe : p ≠ e
  · rw [if_pos hpe, hx]
    refine ⟨_, rfl, ?_⟩
    have h24 : st.count (x.toNat + 1) = occ b e x p := inv.count x
    have hxl := x.toNat_lt
    refine ⟨?_, ?_, ?_, ?_, ?_⟩
    · simp only [List.length_append, List.length_cons, List.length_nil, inv.len]
    · intro i c hi hie hc
      by_cases hip : i < p
      · simp only
        rw [List.getElem?_append_left (by rw [inv.len]; exact hip)]
        exact inv.ranks i c hip hie hc
      · have : i = p := by omega
        subst this
        rw [hx] at hc
        cases hc
        simp only
        rw [List.getElem?_append_right (by rw [inv.len]; omega), inv.len, Nat.sub_self, List.getElem?_cons_zero, h24]
        congr 1
        omega
    · intro c
      simp only
      rw [milestones_succ, inv.miles c, h24, hx]
      by_cases hc : c = x
      · subst hc
        simp only [true_and, hpe, not_false_eq_true, ne_eq]
        split <;> simp
      · have h1 : ¬ c.toNat = x.toNat := fun h => hc (UInt8.toNat_inj.mp h)
        have h2 : ¬ (some x = some c) := by
          intro h
          cases h
          exact hc rfl
        rw [if_neg (fun h => h1 h.1), if_neg (fun h => h2 h.2.1), List.append_nil]
    · simp only
      rw [if_neg (by omega)]
      exact inv.zero
    · intro c
      simp only
      rw [occ_succ hx, inv.count c]
      by_cases hc : c = x
      · subst hc
        rw [if_pos rfl, if_pos ⟨hpe, rfl⟩]
        have := occ_le b e c p
        omega
      · have h1 : ¬ c.toNat + 1 = x.toNat + 1 := fun h => hc (UInt8.toNat_inj.mp (by omega))
        rw [if_neg h1, if_neg (fun h => hc h.2.symm)]
        rfl
  · rw [if_neg hpe]
    refine ⟨_, rfl, ?_⟩
    refine ⟨?_, ?_, ?_, inv.zero, ?_⟩
    · simp only [List.length_append, List.length_cons, List.length_nil, inv.len]
    · intro i c hi hie hc
      simp only
      rw [List.getElem?_append_left (by rw [inv.len]; omega)]
      exact inv.ranks i c (by omega) hie hc
    · intro c
      simp only
      rw [milestones_succ, if_neg (fun h => hpe h.1), List.append_nil, inv.miles c]
    · intro c
      simp only
      rw [occ_succ hx, if_neg (fun h => hpe h.1), inv.count c]
      rfl

theorem scan_spec {b : List UInt8} (e : Nat) (hb : b.length < 2 ^ 32) :
    ∃ st, (List.range b.length).foldlM (scanRow b e) ⟨[], fun _ => [], fun k => if k = 0 then 1 else 0⟩ = some st ∧
      ScanInv b e b.length st := by
  apply foldlM_range_inv _ (ScanInv b e)
  · intro p st hp inv
    exact scanRow_inv hb hp inv
  · refine ⟨rfl, ?_, ?_, rfl, ?_⟩
    · intro i c h
      omega
    · intro c
      rfl
    · intro c
      rw [occ_zero]
      rfl

theorem psum32_eq {b : List UInt8} {e : Nat} (hb : b.length < 2 ^ 32) (he : e < b.length) {st : Scan}
    (inv : ScanInv b e b.length st) : ∀ k, k ≤ 256 → psum32 st.count k = 1 + less b e k := by
  intro k
  induction k with
  | zero =>
    intro _
    rw [psum32, inv.zero, less_zero]
  | succ k ih =>
    intro hk
    obtain ⟨c, hc⟩ : ∃ c : UInt8, c.toNat = k := ⟨UInt8.ofNat k, by simp; omega⟩
    subst hc
    rw [psum32, ih (by omega), inv.count c, less_succ]
    have h1 := less_mono b e (show c.toNat + 1 ≤ 256 by omega)
    rw [less_succ] at h1
    have h2 := less_top b e he
    omega

/-! ## The milestones give the upper bits of a rank -/

theorem hiRank_eq {l : List Nat} {p k : Nat} (hk : k + 1 < l.length) (hle : ∀ i (hi : i < l.length), i ≤ k → l[i] ≤ p)
    (hgt : p < l[k + 1]) : ∀ d hi, hi + d = k → hiRank l p hi = some k := by
  intro d
  induction d with
  | zero =>
    intro hi h
    have : hi = k := by omega
    subst this
    rw [hiRank, dif_pos hk, if_neg (by omega)]
  | succ d ih =>
    intro hi h
    rw [hiRank, dif_pos (by omega), if_pos (hle _ (by omega) (by omega)), ih (hi + 1) (by omega)]

theorem ceil_step {W n : Nat} (hW : 0 < W) : (n + 1 + (W - 1)) / W = (n + (W - 1)) / W + if n % W = 0 then 1 else 0 := by
  have h1 : n + 1 + (W - 1) = n + W := by omega
  rw [h1, Nat.add_div_right _ hW]
  have hd := Nat.div_add_mod n W
  split
  · rename_i h0
    have : (n + (W - 1)) / W = n / W := by
      rw [Nat.div_eq_iff hW]
      rw [h0, Nat.add_zero] at hd
      rw [Nat.mul_comm] at hd
      omega
    omega
  · rename_i h0
    have hm := Nat.mod_lt n hW
    have : (n + (W - 1)) / W = n / W + 1 := by
      rw [Nat.div_eq_iff hW, Nat.add_mul]
      rw [Nat.mul_comm] at hd
      omega
    omega

theorem filter_length {W : Nat} (hW : 0 < W) (b : List UInt8) (e : Nat) (c : UInt8) : ∀ p, p ≤ b.length →
    ((List.range p).filter fun i => decide (i ≠ e) && decide (b[i]? = some c) && decide (occ b e c i % W = 0)).length =
      (occ b e c p + (W - 1)) / W := by
  intro p
  induction p with
  | zero =>
    intro _
    rw [occ_zero, List.range_zero, List.filter_nil, List.length_nil]
    exact (Nat.div_eq_of_lt (by omega)).symm
  | succ p ih =>
    intro hp
    obtain ⟨x, hx⟩ : ∃ x, b[p]? = some x := ⟨_, List.getElem?_eq_getElem (show p < b.length by omega)⟩
    rw [List.range_succ, List.filter_append, List.length_append, ih (by omega), occ_succ hx, List.filter_cons, hx]
    by_cases h1 : p ≠ e ∧ x = c
    · rw [if_pos h1, ceil_step hW]
      obtain ⟨h3, rfl⟩ := h1
      by_cases h2 : occ b e x p % W = 0
      · simp [h2, h3]
      · simp [h2]
    · rw [if_neg h1, Nat.add_zero, if_neg]
      · simp
      · simp only [Bool.and_eq_true, decide_eq_true_eq, Option.some.injEq]
        rintro ⟨⟨h2, h3⟩, _⟩
        exact h1 ⟨h2, h3⟩

theorem milestones_length (b : List UInt8) (e : Nat) (c : UInt8) (p : Nat) (hp : p ≤ b.length) :
    (milestones b e c p).length = (occ b e c p + (2 ^ 24 - 1)) / 2 ^ 24 :=
  filter_length (Nat.two_pow_pos 24) b e c p hp

theorem milestones_lt {b : List UInt8} {e : Nat} {c : UInt8} {p i : Nat} (h : i ∈ milestones b e c p) : i < p :=
  List.mem_range.mp (List.mem_filter.mp h).1

theorem milestones_prefix (b : List UInt8) (e : Nat) (c : UInt8) (p : Nat) : ∀ d,
    ∃ t, milestones b e c (p + d) = milestones b e c p ++ t ∧ ∀ i ∈ t, p ≤ i := by
  intro d
  induction d with
  | zero => exact ⟨[], by simp, by simp⟩
  | succ d ih =>
    obtain ⟨t, h1, h2⟩ := ih
    rw [← Nat.add_assoc, milestones_succ, h1, List.append_assoc]
    refine ⟨_, rfl, ?_⟩
    intro i hi
    rcases List.mem_append.mp hi with hi | hi
    · exact h2 i hi
    · split at hi
      · rw [List.mem_singleton] at hi
        omega
      · simp at hi

theorem hiRank_spec {b : List UInt8} {e p : Nat} {c : UInt8} (hp : b[p]? = some c) (hpe : p ≠ e) :
    hiRank (milestones b e c b.length ++ [b.length]) p 0 = some (occ b e c p / 2 ^ 24) := by
  have hlt := (List.getElem?_eq_some_iff.mp hp).1
  obtain ⟨t, h1, h2⟩ := milestones_prefix b e c (p + 1) (b.length - (p + 1))
  rw [show p + 1 + (b.length - (p + 1)) = b.length by omega] at h1
  have hl := milestones_length b e c (p + 1) (by omega)
  rw [occ_succ hp, if_pos ⟨hpe, rfl⟩] at hl
  have hl' : (milestones b e c (p + 1)).length = occ b e c p / 2 ^ 24 + 1 := by omega
  rw [h1, List.append_assoc]
  refine hiRank_eq (by simp only [List.length_append, List.length_cons, hl']; omega) ?_ ?_ _ 0 (by rw [Nat.zero_add])
  · intro i hi hik
    rw [List.getElem_append_left (by omega)]
    have := milestones_lt (List.getElem_mem (l := milestones b e c (p + 1)) (n := i) (by omega))
    omega
  · rw [List.getElem_append_right (by omega)]
    have : ∀ x ∈ t ++ [b.length], p < x := by
      intro x hx
      rcases List.mem_append.mp hx with hx | hx
      · have := h2 x hx
        omega
      · rw [List.mem_singleton] at hx
        omega
    exact this _ (List.getElem_mem _)

/-! ## The output loop follows the LF mapping -/

/-- One step of the LF mapping from row `p` with character `c`. -/
def lf (b : List UInt8) (e : Nat) (c : UInt8) (p : Nat) : Nat := 1 + less b e c.toNat + occ b e c p

/-- Following the LF mapping from a row to the row `e`, and the characters met. -/
inductive Path (b : List UInt8) (e : Nat) : Nat → List UInt8 → Prop
  | stop : Path b e e []
  | step {p : Nat} {c : UInt8} {cs : List UInt8} (hpe : p ≠ e) (hp : b[p]? = some c) (h : Path b e (lf b e c p) cs) : Path b e p (c :: cs)

theorem lf_range {b : List UInt8} {e p : Nat} {c : UInt8} (he : e < b.length) (hp : b[p]? = some c) (hpe : p ≠ e) :
    1 ≤ lf b e c p ∧ lf b e c p < 1 + less b e (c.toNat + 1) ∧ lf b e c p < b.length := by
  have hlt := (List.getElem?_eq_some_iff.mp hp).1
  have h1 := occ_succ hp e c
  rw [if_pos ⟨hpe, rfl⟩] at h1
  have h2 := occ_mono b e c (show p + 1 ≤ b.length by omega) (Nat.le_refl _)
  have h3 := less_succ b e c
  have hc := c.toNat_lt
  have h4 := less_mono b e (show c.toNat + 1 ≤ 256 by omega)
  have h5 := less_top b e he
  unfold lf
  omega

theorem lf_inj {b : List UInt8} {e p q : Nat} {c d : UInt8} (he : e < b.length) (hp : b[p]? = some c) (hpe : p ≠ e) (hq : b[q]? = some d)
    (hqe : q ≠ e) (h : lf b e c p = lf b e d q) : p = q := by
  obtain ⟨_, p2, _⟩ := lf_range he hp hpe
  obtain ⟨_, q2, _⟩ := lf_range he hq hqe
  have hcd : c = d := by
    apply UInt8.toNat_inj.mp
    rcases Nat.lt_trichotomy c.toNat d.toNat with hl | hl | hl
    · have := less_mono b e (show c.toNat + 1 ≤ d.toNat by omega)
      unfold lf at *
      omega
    · exact hl
    · have := less_mono b e (show d.toNat + 1 ≤ c.toNat by omega)
      unfold lf at *
      omega
  subst hcd
  have ho : occ b e c p = occ b e c q := by
    unfold lf at h
    omega
  have lp := (List.getElem?_eq_some_iff.mp hp).1
  have lq := (List.getElem?_eq_some_iff.mp hq).1
  have hp1 := occ_succ hp e c
  rw [if_pos ⟨hpe, rfl⟩] at hp1
  have hq1 := occ_succ hq e c
  rw [if_pos ⟨hqe, rfl⟩] at hq1
  rcases Nat.lt_trichotomy p q with hl | hl | hl
  · have := occ_mono b e c (show p + 1 ≤ q by omega) (by omega)
    omega
  · exact hl
  · have := occ_mono b e c (show q + 1 ≤ p by omega) (by omega)
    omega

/-- From row 0 the row `e` is reached, whatever the characters are. -/
theorem path_exists {b : List UInt8} {e : Nat} (he : e < b.length) : ∀ (d p : Nat) (V : List Nat), d + V.length = b.length →
    (p :: V).Nodup → (∀ v ∈ p :: V, v < b.length) → (∀ v ∈ V, v ≠ e) →
    (∀ v ∈ p :: V, v = 0 ∨ ∃ u ∈ V, ∃ c, b[u]? = some c ∧ v = lf b e c u) →
    ∃ cs, Path b e p cs ∧ V.length + cs.length < b.length := by
  intro d
  induction d with
  | zero =>
    intro p V hd hn hlt _ _
    have := (List.subperm_of_subset hn (l₂ := List.range b.length) fun x hx => List.mem_range.mpr (hlt x hx)).length_le
    rw [List.length_range, List.length_cons] at this
    omega
  | succ d ih =>
    intro p V hd hn hlt hne hpre
    by_cases hpe : p = e
    · subst hpe
      exact ⟨[], .stop, by simp; omega⟩
    · have hpl := hlt p (by simp)
      have hb : b[p]? = some b[p] := List.getElem?_eq_getElem hpl
      obtain ⟨r1, _, r3⟩ := lf_range he hb hpe
      obtain ⟨cs, h1, h2⟩ := ih (lf b e b[p] p) (p :: V) (by rw [List.length_cons]; omega) (by
          rw [List.nodup_cons]
          refine ⟨?_, hn⟩
          intro hm
          rcases hpre _ hm with h0 | ⟨u, hu, c, hc, hl⟩
          · omega
          · have := lf_inj he hb hpe hc (hne u hu) hl
            subst this
            exact (List.nodup_cons.mp hn).1 hu) (by
          intro v hv
          rcases List.mem_cons.mp hv with rfl | hv
          · exact r3
          · exact hlt v hv) (by
          intro v hv
          rcases List.mem_cons.mp hv with rfl | hv
          · exact hpe
          · exact hne v hv) (by
          intro v hv
          rcases List.mem_cons.mp hv with rfl | hv
          · exact .inr ⟨p, by simp, _, hb, rfl⟩
          · rcases hpre v hv with h0 | ⟨u, hu, hc⟩
            · exact .inl h0
            · exact .inr ⟨u, by simp [hu], hc⟩)
      refine ⟨b[p] :: cs, .step hpe hb h1, ?_⟩
      rw [List.length_cons] at *
      omega

theorem path_unique {b : List UInt8} {e p : Nat} {cs ds : List UInt8} (h : Path b e p cs) (h' : Path b e p ds) : cs = ds := by
  induction h generalizing ds with
  | stop =>
    cases h' with
    | stop => rfl
    | step hpe => exact absurd rfl hpe
  | step hpe hp _ ih =>
    cases h' with
    | stop => exact absurd rfl hpe
    | step hpe' hp' h' =>
      rw [hp] at hp'
      cases hp'
      rw [ih h']

theorem walk_path {b : List UInt8} {e : Nat} (hb : b.length < 2 ^ 32) (he : e < b.length) {st : Scan} (inv : ScanInv b e b.length st)
    {p : Nat} {cs : List UInt8} (h : Path b e p cs) : ∀ (fuel index : Nat) (buf : List UInt8), cs.length < fuel → index + cs.length ≤ buf.length →
    walk st.ranks (fun k => st.miles k ++ [b.length]) (psum32 st.count) e fuel p index buf =
      some (buf.take index ++ cs ++ buf.drop (index + cs.length)) := by
  induction h with
  | stop =>
    intro fuel index buf hf hl
    cases fuel with
    | zero => simp at hf
    | succ fuel =>
      rw [walk, if_neg (by simp)]
      simp
  | @step p c cs hpe hp _ ih =>
    intro fuel index buf hf hl
    rw [List.length_cons] at hf hl
    cases fuel with
    | zero => omega
    | succ fuel =>
      have hlt := (List.getElem?_eq_some_iff.mp hp).1
      have hc := c.toNat_lt
      obtain ⟨_, _, r3⟩ := lf_range he hp hpe
      rw [walk, if_pos hpe, inv.ranks p c hlt hpe hp]
      simp only [Option.bind_eq_bind, Option.bind_some]
      have hlo : occ b e c p % 2 ^ 24 < 2 ^ 24 := Nat.mod_lt _ (Nat.two_pow_pos 24)
      have e1 : (c.toNat * 2 ^ 24 + occ b e c p % 2 ^ 24) / 2 ^ 24 = c.toNat := by omega
      have e2 : (c.toNat * 2 ^ 24 + occ b e c p % 2 ^ 24) % 2 ^ 24 = occ b e c p % 2 ^ 24 := by omega
      rw [e1, e2, UInt8.ofNat_toNat, put, if_pos (by omega)]
      simp only [Option.bind_some]
      rw [inv.miles c, hiRank_spec hp hpe]
      simp only [Option.bind_some]
      rw [psum32_eq hb he inv c.toNat (by omega)]
      have e3 : (1 + less b e c.toNat + occ b e c p / 2 ^ 24 * 2 ^ 24 + occ b e c p % 2 ^ 24) % 2 ^ 32 = lf b e c p := by
        unfold lf at *
        omega
      rw [e3, ih fuel (index + 1) (buf.set index c) (by omega) (by rw [List.length_set]; omega)]
      congr 1
      rw [List.drop_set_of_lt (by omega), List.length_cons, show index + 1 + cs.length = index + (cs.length + 1) by omega]
      congr 1
      rw [List.take_add_one, List.take_set_of_le (Nat.le_refl _), List.getElem?_set_self (by omega)]
      simp

/-- The inverse transform writes the characters met on the way from row 0 to the end-of-block row. -/
theorem inverse_path {b : List UInt8} {e : Nat} (hb : b.length < 2 ^ 32) (he : e < b.length) {cs : List UInt8} (h : Path b e 0 cs) (more : List Nat) :
    inverse b (e :: more) = some (cs ++ b.drop cs.length) := by
  obtain ⟨st, h1, inv⟩ := scan_spec e hb
  obtain ⟨ds, h2, h3⟩ := path_exists he b.length 0 [] (by simp) (by simp) (by simp; omega) (by simp) (by simp)
  have := path_unique h h2
  subst this
  rw [List.length_nil, Nat.zero_add] at h3
  rw [inverse, List.getElem?_cons_zero]
  simp only [Option.bind_eq_bind, Option.bind_some]
  rw [if_neg (by omega), h1]
  simp only [Option.bind_some]
  rw [psum32_eq hb he inv 256 (Nat.le_refl _)]
  have ht := less_top b e he
  rw [if_neg (by omega), walk_path hb he inv h _ _ _ h3 (by omega)]
  simp

end Bwtc.FastInv
