/-!
# Induced sorting: the common argument

All passes of `sais.hxx` and `divsufsort.c` that induce the order of suffixes have the same shape.  An
array is scanned from one end to the other.  When the scan meets the entry of a position `r`, the position `r - 1` is
written to the next free slot of a bucket further on in the array.  This file states the invariant of such a
scan (`Inv`) once, over abstract positions, and shows how a scan in the order of some comparison of positions fits it.
Nothing here models code.
-/

set_option autoImplicit false

namespace Bwtc.Induce
open Classical

/-! ## Counting -/

/-- The number of positions below `n` with `P`. -/
noncomputable def cnt (n : Nat) (P : Nat → Prop) : Nat := (List.range n).countP (fun q => decide (P q))

theorem cnt_congr {n : Nat} {P Q : Nat → Prop} (h : ∀ q, q < n → (P q ↔ Q q)) : cnt n P = cnt n Q := by
  unfold cnt
  apply List.countP_congr
  intro q hq
  have := h q (List.mem_range.mp hq)
  simp [this]

theorem cnt_le {n : Nat} {P Q : Nat → Prop} (h : ∀ q, q < n → P q → Q q) : cnt n P ≤ cnt n Q := by
  unfold cnt
  apply List.countP_mono_left
  intro q hq
  simp only [decide_eq_true_eq]
  exact h q (List.mem_range.mp hq)

theorem cnt_succ (n : Nat) (P : Nat → Prop) : cnt (n + 1) P = cnt n P + if P n then 1 else 0 := by
  unfold cnt
  rw [List.range_succ, List.countP_append]
  by_cases h : P n <;> simp [h]

theorem cnt_zero (P : Nat → Prop) : cnt 0 P = 0 := rfl

theorem cnt_or {n : Nat} {P Q R : Nat → Prop} (h : ∀ q, q < n → (R q ↔ P q ∨ Q q))
    (hd : ∀ q, q < n → P q → ¬ Q q) : cnt n R = cnt n P + cnt n Q := by
  induction n with
  | zero => rfl
  | succ n ih =>
    rw [cnt_succ, cnt_succ, cnt_succ, ih (fun q hq => h q (by omega)) (fun q hq => hd q (by omega))]
    have h1 := h n (by omega)
    have h2 := hd n (by omega)
    by_cases hp : P n
    · have hq := h2 hp
      simp only [h1, hp, hq, true_or, ↓reduceIte]; omega
    · by_cases hq : Q n
      · simp only [h1, hp, hq, or_true, ↓reduceIte]; omega
      · simp only [h1, hp, hq, or_self, ↓reduceIte]; omega

theorem cnt_false {n : Nat} {P : Nat → Prop} (h : ∀ q, q < n → ¬ P q) : cnt n P = 0 := by
  induction n with
  | zero => rfl
  | succ n ih =>
    rw [cnt_succ, ih (fun q hq => h q (by omega)), if_neg (h n (by omega))]

theorem cnt_one {n : Nat} {P : Nat → Prop} {a : Nat} (ha : a < n) (h : ∀ q, q < n → (P q ↔ q = a)) :
    cnt n P = 1 := by
  induction n with
  | zero => omega
  | succ n ih =>
    rw [cnt_succ]
    by_cases e : a = n
    · subst e
      rw [cnt_false (fun q hq hp => by have := (h q (by omega)).mp hp; omega), if_pos ((h a (by omega)).mpr rfl)]
    · rw [ih (by omega) (fun q hq => h q (by omega)), if_neg (fun hp => e ((h n (by omega)).mp hp).symm)]

/-- One position more. -/
theorem cnt_insert {n : Nat} {P Q : Nat → Prop} {a : Nat} (ha : a < n) (hP : ¬ P a)
    (h : ∀ q, q < n → (Q q ↔ P q ∨ q = a)) : cnt n Q = cnt n P + 1 := by
  rw [cnt_or (P := P) (Q := fun q => q = a) h (fun q _ hp e => hP (e ▸ hp)), cnt_one ha (fun _ _ => Iff.rfl)]

theorem cnt_lt {n : Nat} {P Q : Nat → Prop} {a : Nat} (ha : a < n) (hP : ¬ P a) (hQ : Q a)
    (h : ∀ q, q < n → P q → Q q) : cnt n P < cnt n Q := by
  have h1 := cnt_insert (n := n) (P := P) (Q := fun q => P q ∨ q = a) ha hP (fun _ _ => Iff.rfl)
  have h2 : cnt n (fun q => P q ∨ q = a) ≤ cnt n Q := cnt_le (fun q hq hp => by
    rcases hp with hp | rfl
    · exact h q hq hp
    · exact hQ)
  omega

theorem cnt_le_n (n : Nat) (P : Nat → Prop) : cnt n P ≤ n := by
  induction n with
  | zero => exact Nat.le_refl _
  | succ n ih => rw [cnt_succ]; split <;> omega

theorem cnt_true {n : Nat} {P : Nat → Prop} (h : ∀ q, q < n → P q) : cnt n P = n := by
  induction n with
  | zero => rfl
  | succ n ih => rw [cnt_succ, ih (fun q hq => h q (by omega)), if_pos (h n (by omega))]

theorem cnt_pos {n : Nat} {P : Nat → Prop} {a : Nat} (ha : a < n) (h : P a) : 0 < cnt n P := by
  have := cnt_lt (n := n) (P := fun _ => False) (Q := P) ha (fun h => h) h (fun _ _ h => h.elim)
  omega

/-! ## Schedules and the invariant of a scan -/

/-- When which position is met.  `src`: positions that are in the array from the beginning, `tgt`: positions
that are induced from the next one, `key`: the bucket of a position, `start`: the first slot of a
bucket, `time`: one more than the number of the slot in the order of the scan (0 for the position `n` behind the text).  -/
structure Sched (n : Nat) (K : Type) where
  src : Nat → Prop
  tgt : Nat → Prop
  key : Nat → K
  start : K → Nat
  time : Nat → Nat
  disj : ∀ p, src p → ¬ tgt p
  bound : ∀ p, src p ∨ tgt p → p < n
  range : ∀ p, src p ∨ tgt p → 0 < time p ∧ time p ≤ n
  zero : time n = 0
  inj : ∀ p q, src p ∨ tgt p → src q ∨ tgt q → time p = time q → p = q
  slot : ∀ p, tgt p → time p = start (key p) + 1 +
    cnt n (fun q => tgt q ∧ key q = key p ∧ time (q + 1) < time (p + 1))
  next : ∀ p, tgt p → time (p + 1) < time p ∧ (src (p + 1) ∨ tgt (p + 1) ∨ p + 1 = n)

namespace Sched
variable {n : Nat} {K : Type} (S : Sched n K)

/-- Already in the array when `i` slots have been scanned. -/
def placed (i p : Nat) : Prop := S.src p ∨ (S.tgt p ∧ S.time (p + 1) ≤ i)

/-- The invariant: the contents `A` of the slots in the order of the scan and the next free slots `ptr` of the
buckets, after `i` steps.  `st p`: what is written for `p`, `fin p`: what the scan leaves there; `nst`, `nfin`:
the same for slots that belong to no position. -/
structure Inv (st fin nst nfin : Nat → Int) (i : Nat) (A : Nat → Option Int) (ptr : K → Nat) : Prop where
  free : ∀ p, S.tgt p → ptr (S.key p) = S.start (S.key p) +
    cnt n (fun q => S.tgt q ∧ S.key q = S.key p ∧ S.time (q + 1) ≤ i)
  full : ∀ p, S.placed i p → A (S.time p - 1) = some (if S.time p ≤ i then fin p else st p)
  other : ∀ r, r < n → (∀ p, S.src p ∨ S.tgt p → S.time p ≠ r + 1) → A r = some (if r < i then nfin r else nst r)
  dom : ∀ r, r < n → A r ≠ none

variable {S}
variable {st fin nst nfin : Nat → Int} {i : Nat} {A : Nat → Option Int} {ptr : K → Nat}

/-- The slot at which the scan has arrived. -/
theorem Inv.here (h : S.Inv st fin nst nfin i A ptr) (hi : i < n) :
    (∃ r, S.placed i r ∧ (S.src r ∨ S.tgt r) ∧ S.time r = i + 1 ∧ A i = some (st r)) ∨
    ((∀ p, S.src p ∨ S.tgt p → S.time p ≠ i + 1) ∧ A i = some (nst i)) := by
  by_cases hex : ∃ r, (S.src r ∨ S.tgt r) ∧ S.time r = i + 1
  · obtain ⟨r, hr, ht⟩ := hex
    left
    have hp : S.placed i r := by
      rcases hr with hr | hr
      · exact Or.inl hr
      · exact Or.inr ⟨hr, by have := (S.next r hr).1; omega⟩
    refine ⟨r, hp, hr, ht, ?_⟩
    have := h.full r hp
    rw [ht, if_neg (by omega)] at this
    simpa using this
  · right
    have hne : ∀ p, S.src p ∨ S.tgt p → S.time p ≠ i + 1 := fun p hp e => hex ⟨p, hp, e⟩
    refine ⟨hne, ?_⟩
    have := h.other i hi hne
    rwa [if_neg (by omega)] at this

/-- Meeting a position whose predecessor is induced: the pointer shows the right slot, and writing there keeps the
invariant. -/
theorem Inv.place (h : S.Inv st fin nst nfin i A ptr) (hi : i < n) {q : Nat} (hq : S.tgt q)
    (ht : S.time (q + 1) = i + 1) :
    ptr (S.key q) + 1 = S.time q ∧ i < ptr (S.key q) ∧ ptr (S.key q) < n ∧
    ∀ (A' : Nat → Option Int) (ptr' : K → Nat), A' i = some (fin (q + 1)) → A' (ptr (S.key q)) = some (st q) →
      (∀ r, r ≠ i → r ≠ ptr (S.key q) → A' r = A r) → ptr' (S.key q) = ptr (S.key q) + 1 →
      (∀ c, c ≠ S.key q → ptr' c = ptr c) → S.Inv st fin nst nfin (i + 1) A' ptr' := by
  have hact : S.src (q + 1) ∨ S.tgt (q + 1) := by
    rcases (S.next q hq).2 with h1 | h1 | h1
    · exact Or.inl h1
    · exact Or.inr h1
    · rw [h1, S.zero] at ht; omega
  have hf := h.free q hq
  have hs := S.slot q hq
  have hr := S.range q (Or.inr hq)
  have hn := S.next q hq
  have hc : cnt n (fun r => S.tgt r ∧ S.key r = S.key q ∧ S.time (r + 1) ≤ i) =
      cnt n (fun r => S.tgt r ∧ S.key r = S.key q ∧ S.time (r + 1) < S.time (q + 1)) :=
    cnt_congr (fun r _ => by rw [ht]; constructor <;> rintro ⟨a, b, c⟩ <;> exact ⟨a, b, by omega⟩)
  have hptr : ptr (S.key q) + 1 = S.time q := by omega
  refine ⟨hptr, by omega, by omega, ?_⟩
  intro A' ptr' h1 h2 h3 h4 h5
  have huniq : ∀ r, S.tgt r → S.time (r + 1) = i + 1 → r = q := by
    intro r hr' ht'
    have hact' : S.src (r + 1) ∨ S.tgt (r + 1) := by
      rcases (S.next r hr').2 with h1 | h1 | h1
      · exact Or.inl h1
      · exact Or.inr h1
      · rw [h1, S.zero] at ht'; omega
    have := S.inj _ _ hact' hact (by rw [ht, ht'])
    omega
  constructor
  · intro p hp
    by_cases hk : S.key p = S.key q
    · have hins := cnt_insert (n := n) (a := q)
        (P := fun r => S.tgt r ∧ S.key r = S.key q ∧ S.time (r + 1) ≤ i)
        (Q := fun r => S.tgt r ∧ S.key r = S.key q ∧ S.time (r + 1) ≤ i + 1) (S.bound q (Or.inr hq))
        (by rintro ⟨_, _, hx⟩; omega) (by
          intro r _
          constructor
          · rintro ⟨a, b, c⟩
            by_cases e : S.time (r + 1) ≤ i
            · exact Or.inl ⟨a, b, e⟩
            · exact Or.inr (huniq r a (by omega))
          · rintro (⟨a, b, c⟩ | rfl)
            · exact ⟨a, b, by omega⟩
            · exact ⟨hq, rfl, by omega⟩)
      rw [hk, h4, hf, hins]
      omega
    · rw [h5 _ hk, h.free p hp]
      congr 1
      apply cnt_congr
      intro r _
      constructor
      · rintro ⟨a, b, c⟩; exact ⟨a, b, by omega⟩
      · rintro ⟨a, b, c⟩
        refine ⟨a, b, ?_⟩
        by_cases e : S.time (r + 1) ≤ i
        · exact e
        · have := huniq r a (by omega)
          rw [this] at b
          exact absurd b.symm hk
  · intro p hp
    by_cases hpq : p = q
    · subst hpq
      rw [show S.time p - 1 = ptr (S.key p) by omega, h2, if_neg (by omega)]
    · have hp' : S.src p ∨ S.tgt p := by
        rcases hp with hp | hp
        · exact Or.inl hp
        · exact Or.inr hp.1
      have hpr := S.range p hp'
      have hne : S.time p ≠ S.time q := fun e => hpq (S.inj p q hp' (Or.inr hq) e)
      have hpl : S.placed i p := by
        rcases hp with hp | ⟨a, b⟩
        · exact Or.inl hp
        · refine Or.inr ⟨a, ?_⟩
          by_cases e : S.time (p + 1) ≤ i
          · exact e
          · exact absurd (huniq p a (by omega)) hpq
      by_cases hpi : S.time p = i + 1
      · have : p = q + 1 := S.inj p (q + 1) hp' hact (by omega)
        subst this
        rw [hpi, show i + 1 - 1 = i by omega, h1, if_pos (by omega)]
      · rw [h3 _ (by omega) (by omega), h.full p hpl]
        by_cases hle : S.time p ≤ i
        · rw [if_pos hle, if_pos (by omega)]
        · rw [if_neg hle, if_neg (by omega)]
  · intro r hr' hne
    have hrq := hne q (Or.inr hq)
    have hrq1 := hne (q + 1) hact
    rw [h3 r (by omega) (by omega), h.other r hr' hne]
    by_cases hle : r < i
    · rw [if_pos hle, if_pos (by omega)]
    · rw [if_neg hle, if_neg (by omega)]
  · intro r hr'
    by_cases e1 : r = i
    · rw [e1, h1]; exact Option.some_ne_none _
    · by_cases e2 : r = ptr (S.key q)
      · rw [e2, h2]; exact Option.some_ne_none _
      · rw [h3 r e1 e2]; exact h.dom r hr'

/-- Meeting a position that induces nothing. -/
theorem Inv.skip (h : S.Inv st fin nst nfin i A ptr) {r : Nat} (hr : S.src r ∨ S.tgt r)
    (ht : S.time r = i + 1) (hno : ∀ q, S.tgt q → q + 1 ≠ r) (A' : Nat → Option Int)
    (h1 : A' i = some (fin r)) (h2 : ∀ t, t ≠ i → A' t = A t) : S.Inv st fin nst nfin (i + 1) A' ptr := by
  have hno' : ∀ q, S.tgt q → S.time (q + 1) ≠ i + 1 := by
    intro q hq e
    rcases (S.next q hq).2 with h3 | h3 | h3
    · exact hno q hq (S.inj _ _ (Or.inl h3) hr (by omega))
    · exact hno q hq (S.inj _ _ (Or.inr h3) hr (by omega))
    · rw [h3, S.zero] at e; omega
  constructor
  · intro p hp
    rw [h.free p hp]
    congr 1
    apply cnt_congr
    intro q _
    constructor
    · rintro ⟨a, b, c⟩; exact ⟨a, b, by omega⟩
    · rintro ⟨a, b, c⟩; exact ⟨a, b, by have := hno' q a; omega⟩
  · intro p hp
    have hp' : S.src p ∨ S.tgt p := by
      rcases hp with hp | hp
      · exact Or.inl hp
      · exact Or.inr hp.1
    have hpr := S.range p hp'
    have hpl : S.placed i p := by
      rcases hp with hp | ⟨a, b⟩
      · exact Or.inl hp
      · exact Or.inr ⟨a, by have := hno' p a; omega⟩
    by_cases hpi : S.time p = i + 1
    · have : p = r := S.inj p r hp' hr (by omega)
      subst this
      rw [hpi, show i + 1 - 1 = i by omega, h1, if_pos (by omega)]
    · rw [h2 _ (by omega), h.full p hpl]
      by_cases hle : S.time p ≤ i
      · rw [if_pos hle, if_pos (by omega)]
      · rw [if_neg hle, if_neg (by omega)]
  · intro t ht' hne
    have hrq := hne r hr
    rw [h2 t (by omega), h.other t ht' hne]
    by_cases hle : t < i
    · rw [if_pos hle, if_pos (by omega)]
    · rw [if_neg hle, if_neg (by omega)]
  · intro t ht'
    by_cases e1 : t = i
    · rw [e1, h1]; exact Option.some_ne_none _
    · rw [h2 t e1]; exact h.dom t ht'

/-- Meeting a slot that belongs to no position. -/
theorem Inv.pass (h : S.Inv st fin nst nfin i A ptr) (hne : ∀ p, S.src p ∨ S.tgt p → S.time p ≠ i + 1)
    (A' : Nat → Option Int) (h1 : A' i = some (nfin i)) (h2 : ∀ t, t ≠ i → A' t = A t) :
    S.Inv st fin nst nfin (i + 1) A' ptr := by
  have hno' : ∀ q, S.tgt q → S.time (q + 1) ≠ i + 1 := by
    intro q hq e
    rcases (S.next q hq).2 with h3 | h3 | h3
    · exact hne _ (Or.inl h3) e
    · exact hne _ (Or.inr h3) e
    · rw [h3, S.zero] at e; omega
  constructor
  · intro p hp
    rw [h.free p hp]
    congr 1
    apply cnt_congr
    intro q _
    constructor
    · rintro ⟨a, b, c⟩; exact ⟨a, b, by omega⟩
    · rintro ⟨a, b, c⟩; exact ⟨a, b, by have := hno' q a; omega⟩
  · intro p hp
    have hp' : S.src p ∨ S.tgt p := by
      rcases hp with hp | hp
      · exact Or.inl hp
      · exact Or.inr hp.1
    have hpr := S.range p hp'
    have hpl : S.placed i p := by
      rcases hp with hp | ⟨a, b⟩
      · exact Or.inl hp
      · exact Or.inr ⟨a, by have := hno' p a; omega⟩
    have hpi := hne p hp'
    rw [h2 _ (by omega), h.full p hpl]
    by_cases hle : S.time p ≤ i
    · rw [if_pos hle, if_pos (by omega)]
    · rw [if_neg hle, if_neg (by omega)]
  · intro t ht' hne'
    by_cases e : t = i
    · rw [e, h1, if_pos (by omega)]
    · rw [h2 t e, h.other t ht' hne']
      by_cases hle : t < i
      · rw [if_pos hle, if_pos (by omega)]
      · rw [if_neg hle, if_neg (by omega)]
  · intro t ht'
    by_cases e1 : t = i
    · rw [e1, h1]; exact Option.some_ne_none _
    · rw [h2 t e1]; exact h.dom t ht'

/-- After the whole scan. -/
theorem Inv.done (h : S.Inv st fin nst nfin n A ptr) {p : Nat} (hp : S.src p ∨ S.tgt p) :
    A (S.time p - 1) = some (fin p) := by
  have hr := S.range p hp
  have hpl : S.placed n p := by
    rcases hp with hp | hp
    · exact Or.inl hp
    · exact Or.inr ⟨hp, by have := (S.next p hp).1; omega⟩
  rw [h.full p hpl, if_pos hr.2]

end Sched

/-! ## Schedules from a comparison of positions -/

/-- A comparison of positions that fits induced sorting: positions to be induced compare like
their successors when they are in the same bucket, and stand in front of the given ones. -/
structure Order (n : Nat) where
  src : Nat → Prop
  tgt : Nat → Prop
  ch : Nat → Nat
  lt : Nat → Nat → Prop
  disj : ∀ p, src p → ¬ tgt p
  bound : ∀ p, src p ∨ tgt p → p < n
  irrefl : ∀ p, ¬ lt p p
  trans : ∀ p q r, lt p q → lt q r → lt p r
  total : ∀ p q, src p ∨ tgt p → src q ∨ tgt q → lt p q ∨ p = q ∨ lt q p
  char : ∀ p q, src p ∨ tgt p → src q ∨ tgt q → ch p < ch q → lt p q
  front : ∀ p q, tgt p → src q → ch p = ch q → lt p q
  ind : ∀ p q, tgt p → tgt q → ch p = ch q → p + 1 ≠ n → q + 1 ≠ n → (lt p q ↔ lt (p + 1) (q + 1))
  last : ∀ p q, tgt p → tgt q → ch p = ch q → p + 1 = n → p ≠ q → lt p q
  next : ∀ p, tgt p → p + 1 = n ∨ ((src (p + 1) ∨ tgt (p + 1)) ∧ lt (p + 1) p)

namespace Order
variable {n : Nat} (O : Order n)

/-- The slots before the bucket of `c`. -/
noncomputable def start (c : Nat) : Nat := cnt n (fun q => O.ch q < c)

/-- The slots up to the end of the bucket of `c`. -/
noncomputable def stop (c : Nat) : Nat := cnt n (fun q => O.ch q ≤ c)

/-- Induced positions fill their bucket from the front, the given ones stand at its end. -/
noncomputable def time (p : Nat) : Nat :=
  if p = n then 0
  else if O.tgt p then O.start (O.ch p) + 1 + cnt n (fun q => O.tgt q ∧ O.ch q = O.ch p ∧ O.lt q p)
  else O.stop (O.ch p) - cnt n (fun q => O.src q ∧ O.ch q = O.ch p ∧ O.lt p q)

theorem stop_eq (c : Nat) : O.stop c = O.start c + cnt n (fun q => O.ch q = c) :=
  cnt_or (fun q _ => by omega) (fun q _ a b => by omega)

theorem start_mono {c d : Nat} (h : c < d) : O.stop c ≤ O.start d := cnt_le (fun q _ a => by omega)

theorem stop_le (c : Nat) : O.stop c ≤ n := cnt_le_n _ _

theorem room (c : Nat) : cnt n (fun q => O.tgt q ∧ O.ch q = c) + cnt n (fun q => O.src q ∧ O.ch q = c) ≤
    cnt n (fun q => O.ch q = c) := by
  rw [← cnt_or (R := fun q => (O.tgt q ∧ O.ch q = c) ∨ (O.src q ∧ O.ch q = c)) (fun q _ => Iff.rfl)
    (fun q _ a b => O.disj q b.1 a.1)]
  exact cnt_le (fun q _ a => by rcases a with a | a <;> exact a.2)

theorem time_tgt {p : Nat} (hp : O.tgt p) :
    O.time p = O.start (O.ch p) + 1 + cnt n (fun q => O.tgt q ∧ O.ch q = O.ch p ∧ O.lt q p) := by
  have := O.bound p (Or.inr hp)
  unfold time
  rw [if_neg (by omega), if_pos hp]

theorem time_src {p : Nat} (hp : O.src p) :
    O.time p = O.stop (O.ch p) - cnt n (fun q => O.src q ∧ O.ch q = O.ch p ∧ O.lt p q) := by
  have := O.bound p (Or.inl hp)
  unfold time
  rw [if_neg (by omega), if_neg (O.disj p hp)]

/-- A target lies in the front part of its bucket. -/
theorem tgt_range {p : Nat} (hp : O.tgt p) : O.start (O.ch p) < O.time p ∧
    O.time p + cnt n (fun q => O.src q ∧ O.ch q = O.ch p) ≤ O.stop (O.ch p) := by
  rw [O.time_tgt hp, O.stop_eq]
  have h1 := O.room (O.ch p)
  have h2 : cnt n (fun q => O.tgt q ∧ O.ch q = O.ch p ∧ O.lt q p) < cnt n (fun q => O.tgt q ∧ O.ch q = O.ch p) :=
    cnt_lt (O.bound p (Or.inr hp)) (fun h => O.irrefl p h.2.2) ⟨hp, rfl⟩ (fun q _ h => ⟨h.1, h.2.1⟩)
  omega

/-- A source lies in the back part of its bucket. -/
theorem src_range {p : Nat} (hp : O.src p) :
    O.start (O.ch p) + cnt n (fun q => O.tgt q ∧ O.ch q = O.ch p) < O.time p ∧ O.time p ≤ O.stop (O.ch p) ∧
    O.time p + cnt n (fun q => O.src q ∧ O.ch q = O.ch p ∧ O.lt p q) = O.stop (O.ch p) := by
  rw [O.time_src hp, O.stop_eq]
  have h1 := O.room (O.ch p)
  have h2 : cnt n (fun q => O.src q ∧ O.ch q = O.ch p ∧ O.lt p q) < cnt n (fun q => O.src q ∧ O.ch q = O.ch p) :=
    cnt_lt (O.bound p (Or.inl hp)) (fun h => O.irrefl p h.2.2) ⟨hp, rfl⟩ (fun q _ h => ⟨h.1, h.2.1⟩)
  omega

theorem act_range {p : Nat} (hp : O.src p ∨ O.tgt p) : O.start (O.ch p) < O.time p ∧ O.time p ≤ O.stop (O.ch p) := by
  rcases hp with hp | hp
  · have := O.src_range hp; omega
  · have := O.tgt_range hp; omega

/-- The slots are in the order of the comparison. -/
theorem time_lt {p q : Nat} (hp : O.src p ∨ O.tgt p) (hq : O.src q ∨ O.tgt q) (h : O.lt p q) :
    O.time p < O.time q := by
  have hcpq : O.ch p ≤ O.ch q := by
    by_cases hc : O.ch q < O.ch p
    · exact absurd (O.trans _ _ _ h (O.char q p hq hp hc)) (O.irrefl p)
    · omega
  have ap := O.act_range hp
  have aq := O.act_range hq
  by_cases hc : O.ch p < O.ch q
  · have := O.start_mono hc; omega
  · have hc : O.ch p = O.ch q := by omega
    rcases hp with hp | hp
    · rcases hq with hq | hq
      · have a := (O.src_range hp).2.2
        have b := (O.src_range hq).2.2
        have : cnt n (fun r => O.src r ∧ O.ch r = O.ch q ∧ O.lt q r) <
            cnt n (fun r => O.src r ∧ O.ch r = O.ch p ∧ O.lt p r) :=
          cnt_lt (O.bound q (Or.inl hq)) (fun h => O.irrefl q h.2.2) ⟨hq, hc.symm, h⟩
            (fun r _ hr => ⟨hr.1, by rw [hr.2.1, hc], O.trans _ _ _ h hr.2.2⟩)
        rw [hc] at a this
        omega
      · exact absurd (O.trans _ _ _ h (O.front q p hq hp hc.symm)) (O.irrefl p)
    · rcases hq with hq | hq
      · have a := (O.tgt_range hp).2
        have b := (O.src_range hq).1
        have hr := O.stop_eq (O.ch q)
        rw [O.time_tgt hp]
        have : cnt n (fun r => O.tgt r ∧ O.ch r = O.ch p ∧ O.lt r p) <
            cnt n (fun r => O.tgt r ∧ O.ch r = O.ch p) :=
          cnt_lt (O.bound p (Or.inr hp)) (fun h => O.irrefl p h.2.2) ⟨hp, rfl⟩ (fun r _ h => ⟨h.1, h.2.1⟩)
        rw [hc] at this ⊢
        omega
      · rw [O.time_tgt hp, O.time_tgt hq]
        have : cnt n (fun r => O.tgt r ∧ O.ch r = O.ch p ∧ O.lt r p) <
            cnt n (fun r => O.tgt r ∧ O.ch r = O.ch q ∧ O.lt r q) :=
          cnt_lt (O.bound p (Or.inr hp)) (fun h => O.irrefl p h.2.2) ⟨hp, hc, h⟩
            (fun r _ hr => ⟨hr.1, by rw [hr.2.1, hc], O.trans _ _ _ hr.2.2 h⟩)
        rw [hc] at this ⊢
        omega

theorem time_lt_iff {p q : Nat} (hp : O.src p ∨ O.tgt p) (hq : O.src q ∨ O.tgt q) :
    O.time p < O.time q ↔ O.lt p q := by
  constructor
  · intro h
    rcases O.total p q hp hq with a | a | a
    · exact a
    · subst a; omega
    · have := O.time_lt hq hp a; omega
  · exact O.time_lt hp hq

theorem time_inj {p q : Nat} (hp : O.src p ∨ O.tgt p) (hq : O.src q ∨ O.tgt q) (h : O.time p = O.time q) :
    p = q := by
  rcases O.total p q hp hq with a | a | a
  · have := O.time_lt hp hq a; omega
  · exact a
  · have := O.time_lt hq hp a; omega

theorem time_n : O.time n = 0 := by unfold time; rw [if_pos rfl]

/-- The schedule of a comparison. -/
noncomputable def sched : Sched n Nat where
  src := O.src
  tgt := O.tgt
  key := O.ch
  start := O.start
  time := O.time
  disj := O.disj
  bound := O.bound
  range p hp := by
    have := O.act_range hp
    have := O.stop_le (O.ch p)
    omega
  zero := O.time_n
  inj p q hp hq h := O.time_inj hp hq h
  slot p hp := by
    rw [O.time_tgt hp]
    congr 1
    apply cnt_congr
    intro q hq
    constructor
    · rintro ⟨a, b, c⟩
      refine ⟨a, b, ?_⟩
      rcases O.next q a with h1 | h1
      · rw [h1, O.time_n]
        rcases O.next p hp with h2 | h2
        · have : p = q := by omega
          subst this
          exact absurd c (O.irrefl p)
        · have := O.act_range h2.1; omega
      · rcases O.next p hp with h2 | h2
        · have hne : p ≠ q := fun e => O.irrefl p (by rw [← e] at c; exact c)
          exact absurd (O.trans _ _ _ c (O.last p q hp a b.symm h2 hne)) (O.irrefl q)
        · apply O.time_lt h1.1 h2.1
          have b1 := O.bound _ h1.1
          have b2 := O.bound _ h2.1
          exact (O.ind q p a hp b (by omega) (by omega)).mp c
    · rintro ⟨a, b, c⟩
      refine ⟨a, b, ?_⟩
      rcases O.next q a with h1 | h1
      · apply O.last q p a hp b h1
        intro e
        subst e
        omega
      · rcases O.next p hp with h2 | h2
        · rw [h2, O.time_n] at c; omega
        · have b1 := O.bound _ h1.1
          have b2 := O.bound _ h2.1
          exact (O.ind q p a hp b (by omega) (by omega)).mpr ((O.time_lt_iff h1.1 h2.1).mp c)
  next p hp := by
    rcases O.next p hp with h1 | h1
    · refine ⟨?_, Or.inr (Or.inr h1)⟩
      rw [h1, O.time_n]
      have := O.act_range (Or.inr hp); omega
    · refine ⟨O.time_lt h1.1 (Or.inr hp) h1.2, ?_⟩
      rcases h1.1 with a | a
      · exact Or.inl a
      · exact Or.inr (Or.inl a)

end Order
end Bwtc.Induce
