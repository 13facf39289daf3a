import Mathlib.Data.List.Perm.Subperm
import Verif.Sais
import Verif.Suffix

/-!
# Buckets, pointers and loops of `sais.hxx`
-/

set_option autoImplicit false

namespace Bwtc.Sais
open Induce Suffix

variable {T : List Nat}

/-! ## Counts and buckets -/

/-- `C` holds the numbers of occurrences of the characters below `k`. -/
def Counts (T : List Nat) (k : Nat) (C : List Nat) : Prop :=
  C.length = k ∧ ∀ c, c < k → C[c]? = some (cnt T.length (fun q => ch T q = c))

theorem cnt_count (T : List Nat) (c : Nat) : cnt T.length (fun q => ch T q = c) = T.count c := by
  have H : ∀ m, m ≤ T.length → cnt m (fun q => ch T q = c) = (T.take m).count c := by
    intro m
    induction m with
    | zero => intro _; simp [cnt_zero]
    | succ m ih =>
      intro hm
      rw [cnt_succ, ih (by omega), List.take_add_one, List.count_append, get_ch (by omega)]
      by_cases h : ch T m = c <;> simp [h]
  rw [H _ (Nat.le_refl _), List.take_length]

theorem count_fold (U : List Nat) (k : Nat) (C : List Nat) (hC : C.length = k) (hk : ∀ c ∈ U, c < k) :
    ∃ D, U.foldlM (fun C c => if c < C.length then some (C.modify c (· + 1)) else none) C = some D ∧ D.length = k ∧
      ∀ c x, C[c]? = some x → D[c]? = some (x + U.count c) := by
  induction U generalizing C with
  | nil => exact ⟨C, rfl, hC, fun c x h => by simpa using h⟩
  | cons a U ih =>
    have ha : a < C.length := by rw [hC]; exact hk a (by simp)
    obtain ⟨D, h1, h2, h3⟩ := ih (C.modify a (· + 1)) (by rw [List.length_modify, hC]) (fun c hc => hk c (by simp [hc]))
    refine ⟨D, ?_, h2, ?_⟩
    · rw [List.foldlM_cons, if_pos ha]; exact h1
    · intro c x hx
      by_cases e : a = c
      · subst e
        have := h3 a (x + 1) (by rw [List.getElem?_modify_eq, hx]; rfl)
        rw [this, List.count_cons_self]; congr 1; omega
      · have := h3 c x (by rw [List.getElem?_modify, hx]; simp [e])
        rw [this, List.count_cons_of_ne e]

theorem getCounts_spec (T : List Nat) (k : Nat) (hk : ∀ c ∈ T, c < k) : ∃ C, getCounts T k = some C ∧ Counts T k C := by
  obtain ⟨D, h1, h2, h3⟩ := count_fold T k (List.replicate k 0) List.length_replicate hk
  refine ⟨D, h1, h2, ?_⟩
  intro c hc
  have := h3 c 0 (by rw [List.getElem?_replicate, if_pos hc])
  rw [this, cnt_count]; simp

theorem recounted_spec (T : List Nat) (k : Nat) (hk : ∀ c ∈ T, c < k) (recount : Bool) (C : List Nat)
    (h : recount = true ∨ Counts T k C) : ∃ C', recounted recount T k C = some C' ∧ Counts T k C' := by
  unfold recounted
  cases recount with
  | true => exact getCounts_spec T k hk
  | false =>
    rcases h with h | h
    · exact absurd h (by decide)
    · exact ⟨C, rfl, h⟩

theorem bucketsFrom_spec (stop : Bool) (C : List Nat) (s c x : Nat) (h : C[c]? = some x) :
    (bucketsFrom stop s C)[c]? = some (s + (C.take c).sum + if stop then x else 0) := by
  induction C generalizing s c with
  | nil => simp at h
  | cons a C ih =>
    cases c with
    | zero =>
      simp only [List.getElem?_cons_zero, Option.some.injEq] at h
      subst h
      unfold bucketsFrom
      cases stop <;> simp
    | succ c =>
      simp only [List.getElem?_cons_succ] at h
      unfold bucketsFrom
      rw [List.getElem?_cons_succ, ih (s + a) c h, List.take_succ_cons, List.sum_cons]
      congr 1; omega

theorem bucketsFrom_length (stop : Bool) (C : List Nat) (s : Nat) : (bucketsFrom stop s C).length = C.length := by
  induction C generalizing s with
  | nil => rfl
  | cons a C ih => unfold bucketsFrom; rw [List.length_cons, List.length_cons, ih]

theorem counts_sum {k : Nat} {C : List Nat} (h : Counts T k C) (c : Nat) (hc : c ≤ k) :
    (C.take c).sum = cnt T.length (fun q => ch T q < c) := by
  induction c with
  | zero => simp only [List.take_zero, List.sum_nil]; exact (cnt_false (fun q _ h => by omega)).symm
  | succ c ih =>
    rw [List.take_add_one, h.2 c (by omega), List.sum_append, ih (by omega)]
    rw [cnt_or (R := fun q => ch T q < c + 1) (P := fun q => ch T q < c) (Q := fun q => ch T q = c)
      (fun q _ => by omega) (fun q _ a b => by omega)]
    simp

theorem getBuckets_start {k : Nat} {C : List Nat} (h : Counts T k C) (c : Nat) (hc : c < k) :
    (getBuckets C false)[c]? = some (cnt T.length (fun q => ch T q < c)) := by
  unfold getBuckets
  rw [bucketsFrom_spec false C 0 c _ (h.2 c hc), counts_sum h c (by omega)]
  simp

theorem getBuckets_stop {k : Nat} {C : List Nat} (h : Counts T k C) (c : Nat) (hc : c < k) :
    (getBuckets C true)[c]? = some (cnt T.length (fun q => ch T q ≤ c)) := by
  unfold getBuckets
  rw [bucketsFrom_spec true C 0 c _ (h.2 c hc), counts_sum h c (by omega)]
  rw [cnt_or (R := fun q => ch T q ≤ c) (P := fun q => ch T q < c) (Q := fun q => ch T q = c)
      (fun q _ => by omega) (fun q _ a b => by omega)]
  simp

theorem getBuckets_length (C : List Nat) (stop : Bool) : (getBuckets C stop).length = C.length :=
  bucketsFrom_length _ _ _

theorem ch_lt {k : Nat} (hk : ∀ c ∈ T, c < k) {p : Nat} (h : p < T.length) : ch T p < k := by
  have := List.mem_of_getElem? (get_ch h)
  exact hk _ this

/-! ## Pointers -/

/-- The pointers of all buckets; that of bucket `c1` is kept in `b`. -/
structure Ptrs (k : Nat) (B : List Nat) (c1 b : Nat) (bp : Nat → Nat) : Prop where
  len : B.length = k
  cur : c1 < k
  val : ∀ c, c < k → (B.set c1 b)[c]? = some (bp c)

theorem switch_spec {k : Nat} {B : List Nat} {c1 b : Nat} {bp : Nat → Nat} (h : Ptrs k B c1 b bp) {c0 : Nat}
    (hc : c0 < k) : ∃ B', switch B c1 b c0 = some (B', bp c0) ∧
      ∀ v, Ptrs k B' c0 v (fun c => if c = c0 then v else bp c) := by
  unfold switch
  by_cases e : c0 = c1
  · subst e
    have := h.val c0 hc
    rw [List.getElem?_set, if_pos rfl, if_pos (by rw [h.len]; exact hc)] at this
    injection this with hb
    refine ⟨B, by rw [if_pos rfl, hb], fun v => ⟨h.len, hc, ?_⟩⟩
    intro c hck
    by_cases e2 : c = c0
    · rw [if_pos e2, e2, List.getElem?_set, if_pos rfl, if_pos (by rw [h.len]; exact hc)]
    · rw [if_neg e2, List.getElem?_set_ne (fun e => e2 e.symm)]
      have := h.val c hck
      rwa [List.getElem?_set_ne (fun e => e2 e.symm)] at this
  · rw [if_neg e, if_pos (by rw [h.len]; exact h.cur), h.val c0 hc]
    refine ⟨B.set c1 b, rfl, fun v => ⟨by rw [List.length_set]; exact h.len, hc, ?_⟩⟩
    intro c hck
    by_cases e2 : c = c0
    · rw [if_pos e2, e2, List.getElem?_set, if_pos rfl, if_pos (by rw [List.length_set, h.len]; exact hc)]
    · rw [if_neg e2, List.getElem?_set_ne (fun e => e2 e.symm)]
      exact h.val c hck

/-- Freshly computed buckets. -/
theorem Ptrs.init {k : Nat} {B : List Nat} {c1 : Nat} {bp : Nat → Nat} (hl : B.length = k) (hc : c1 < k)
    (h : ∀ c, c < k → B[c]? = some (bp c)) (v : Nat) : Ptrs k B c1 v (fun c => if c = c1 then v else bp c) := by
  refine ⟨hl, hc, ?_⟩
  intro c hck
  by_cases e2 : c = c1
  · rw [if_pos e2, e2, List.getElem?_set, if_pos rfl, if_pos (by rw [hl]; exact hc)]
  · rw [if_neg e2, List.getElem?_set_ne (fun e => e2 e.symm)]
    exact h c hck

theorem Ptrs.init' {k : Nat} {B : List Nat} {c1 : Nat} {bp : Nat → Nat} (hl : B.length = k) (hc : c1 < k)
    (h : ∀ c, c < k → B[c]? = some (bp c)) : Ptrs k B c1 (bp c1) bp := by
  have := Ptrs.init hl hc h (bp c1)
  refine ⟨this.len, this.cur, ?_⟩
  intro c hck
  rw [this.val c hck]
  by_cases e : c = c1
  · rw [if_pos e, e]
  · rw [if_neg e]

theorem put_spec {A : List Int} {i : Nat} (h : i < A.length) (v : Int) : put A i v = some (A.set i v) := if_pos h

/-! ## Loops -/

theorem loopUp_spec {σ : Type} {f : σ → Nat → Option σ} (P : Nat → σ → Prop) (m i : Nat) (s : σ)
    (hstep : ∀ j s, i ≤ j → j < i + m → P j s → ∃ s', f s j = some s' ∧ P (j + 1) s') (h : P i s) :
    ∃ s', loopUp f m i s = some s' ∧ P (i + m) s' := by
  induction m generalizing i s with
  | zero => exact ⟨s, rfl, h⟩
  | succ m ih =>
    obtain ⟨s1, h1, h2⟩ := hstep i s (by omega) (by omega) h
    obtain ⟨s2, h3, h4⟩ := ih (i + 1) s1 (fun j s hj hj' => hstep j s (by omega) (by omega)) h2
    refine ⟨s2, ?_, by rw [show i + (m + 1) = i + 1 + m by omega]; exact h4⟩
    show (f s i).bind _ = _
    rw [h1]; exact h3

theorem loopDown_spec {σ : Type} {f : σ → Nat → Option σ} (n : Nat) (P : Nat → σ → Prop) (m : Nat) (hm : m ≤ n) (s : σ)
    (hstep : ∀ t s, t < n → P t s → ∃ s', f s (n - 1 - t) = some s' ∧ P (t + 1) s') (h : P (n - m) s) :
    ∃ s', loopDown f m s = some s' ∧ P n s' := by
  induction m generalizing s with
  | zero => exact ⟨s, rfl, h⟩
  | succ m ih =>
    obtain ⟨s1, h1, h2⟩ := hstep (n - (m + 1)) s (by omega) h
    obtain ⟨s2, h3, h4⟩ := ih (by omega) s1 (by rw [show n - m = n - (m + 1) + 1 by omega]; exact h2)
    refine ⟨s2, ?_, h4⟩
    show (f s m).bind _ = _
    rw [show m = n - 1 - (n - (m + 1)) by omega, h1]
    rw [show n - 1 - (n - (m + 1)) = m by omega]
    exact h3

/-! ## Starting points -/

/-- The two numbers fit the text and the vector of starting points. -/
def XYok (n len : Nat) : Option (Nat × Nat) → Prop
  | none => True
  | some (x, y) => 0 < x ∧ 0 < len ∧ n = x * len + y

/-- The starting point that belongs to `j`, if there is one, is `r`. -/
def Noted (n : Nat) (xy : Option (Nat × Nat)) (lf : List Nat) (j r : Nat) : Prop :=
  match xy with
  | none => True
  | some (x, y) => (n - j) % x = 0 → y + 1 ≤ j → lf[(n - j) / x]? = some r

theorem note_spec {n : Nat} {xy : Option (Nat × Nat)} {lf : List Nat} (h : XYok n lf.length xy) {j : Nat} (hj : 0 < j)
    (hjn : j < n) (r : Nat) : ∃ lf', note n xy lf r j = some lf' ∧ lf'.length = lf.length ∧ lf'[0]? = lf[0]? ∧
      Noted n xy lf' j r ∧ ∀ j' r', j' < n → j' ≠ j → Noted n xy lf j' r' → Noted n xy lf' j' r' := by
  unfold note Noted
  cases xy with
  | none => exact ⟨lf, rfl, rfl, rfl, trivial, fun _ _ _ _ _ => trivial⟩
  | some p =>
    obtain ⟨x, y⟩ := p
    obtain ⟨hx, hl, hn⟩ := h
    simp only
    unfold FwdBWT.record
    by_cases hc : 0 < j ∧ (n - j) % x = 0 ∧ y + 1 ≤ j
    · have hlt : (n - j) / x < lf.length := by
        rw [Nat.div_lt_iff_lt_mul hx, Nat.mul_comm]; omega
      have hpos : 0 < (n - j) / x := by
        apply Nat.div_pos _ hx
        have := Nat.div_add_mod (n - j) x
        rcases Nat.eq_zero_or_pos ((n - j) / x) with e | e
        · rw [e] at this; omega
        · have := Nat.mul_le_mul_left x e; omega
      rw [if_pos hc, if_pos hlt]
      refine ⟨_, rfl, List.length_set .., ?_, ?_, ?_⟩
      · rw [List.getElem?_set_ne (by omega)]
      · intro _ _
        rw [List.getElem?_set, if_pos rfl, if_pos hlt]
      · intro j' r' hjn' hne h1 h2 h3
        rw [List.getElem?_set_ne]
        · exact h1 h2 h3
        · intro e
          have a := Nat.div_add_mod (n - j) x
          have b := Nat.div_add_mod (n - j') x
          rw [e] at a
          omega
    · rw [if_neg hc]
      refine ⟨lf, rfl, rfl, rfl, ?_, fun _ _ _ _ h => h⟩
      intro h1 h2
      exact absurd ⟨hj, h1, h2⟩ hc

end Bwtc.Sais

namespace Bwtc.Suffix

/-- Every row belongs to a suffix. -/
theorem row_surj {T : List Nat} {r : Nat} (h : r < T.length) : ∃ p, p < T.length ∧ row T p = r := by
  have hnd : ((List.range T.length).map (row T)).Nodup := by
    rw [List.Nodup, List.pairwise_map]
    apply List.Pairwise.imp_of_mem _ List.nodup_range
    intro a b ha hb hne e
    exact hne (row_inj (List.mem_range.mp ha) (List.mem_range.mp hb) e)
  have hsub : ((List.range T.length).map (row T)) ⊆ List.range T.length := by
    intro x hx
    obtain ⟨p, hp, rfl⟩ := List.mem_map.mp hx
    exact List.mem_range.mpr (row_lt (List.mem_range.mp hp))
  have hperm := (hnd.subperm hsub).perm_of_length_le (by simp)
  have := hperm.mem_iff (a := r)
  rw [List.mem_range] at this
  obtain ⟨p, hp, e⟩ := List.mem_map.mp (this.mpr h)
  exact ⟨p, List.mem_range.mp hp, e⟩

end Bwtc.Suffix
