import Verif.Divsuf
import Verif.SaisLast

/-!
# The first pass of `construct_BWT`: the type B suffixes

Given the sorted B* suffixes at their rows, the scan from right to left writes every type B suffix to its row.
-/

set_option autoImplicit false

namespace Bwtc.Divsuf
open Induce Suffix Classical
open Sais (inv put rev rev_set1 rev_set2 bind_some' put_spec XYok Noted loopDown_spec loopUp_spec inv_inv)

variable {T : List Nat}

/-- Type B*: type S (B in the words of divsufsort.c), in front of a position of type L (A). -/
def isBs (T : List Nat) (p : Nat) : Prop := isS T p ∧ isL T (p + 1)

/-- Type B but not B*. -/
def isB (T : List Nat) (p : Nat) : Prop := isS T p ∧ isS T (p + 1)

theorem S_cases {p : Nat} (h : isS T p) : isBs T p ∨ isB T p := by
  rcases type_total (isS_next h) with a | a
  · exact Or.inl ⟨h, a⟩
  · exact Or.inr ⟨h, a⟩

/-- The end of the bucket of the type B suffixes that start with the two characters. -/
noncomputable def stopB (T : List Nat) (key : Nat × Nat) : Nat :=
  cnt T.length (fun q => ch T q < key.1 ∨ (ch T q = key.1 ∧ (isL T q ∨ ch T (q + 1) ≤ key.2)))

theorem S_ch {p : Nat} (h : isS T p) : ch T p ≤ ch T (p + 1) := by
  rcases (isS_iff (isS_next h)).mp h with a | a <;> omega

theorem Bs_ch {p : Nat} (h : isBs T p) : ch T p < ch T (p + 1) := by
  rcases (isS_iff (isS_next h.1)).mp h.1 with a | a
  · exact a
  · exact (not_isL_isS h.2 a.2).elim

/-- What is at most at the end of the bucket of `p`. -/
theorem region {p q : Nat} (hp : isB T p) (hq : q < T.length) :
    (ch T q < ch T p ∨ (ch T q = ch T p ∧ (isL T q ∨ ch T (q + 1) ≤ ch T (p + 1)))) ↔
    (sless T q p ∨ q = p) ∨ (isB T q ∧ (ch T q, ch T (q + 1)) = (ch T p, ch T (p + 1)) ∧ sless T p q) := by
  have hpn := hp.1.1
  constructor
  · intro h
    rcases sless_total (T := T) (p := q) (q := p) (by omega) (by omega) with a | a | a
    · exact Or.inl (Or.inl a)
    · exact Or.inl (Or.inr a)
    · right
      rcases (sless_step hpn hq).mp a with b | b
      · omega
      · have hqS := same_above_S hp.1 hq b.1.symm a
        rcases h with h | ⟨_, h | h⟩
        · omega
        · exact (not_isL_isS h hqS).elim
        · have hq1 := isS_next hqS
          rcases (sless_step (isS_next hp.1) hq1).mp b.2 with c | c
          · omega
          · exact ⟨⟨hqS, same_above_S hp.2 hq1 c.1.symm b.2⟩, by rw [b.1, c.1], a⟩
  · rintro ((a | a) | a)
    · rcases (sless_step hq hpn).mp a with b | b
      · exact Or.inl b
      · right
        refine ⟨b.1, ?_⟩
        rcases type_total hq with c | c
        · exact Or.inl c
        · right
          rcases (sless_step (isS_next c) (isS_next hp.1)).mp b.2 with d | d <;> omega
    · subst a
      exact Or.inr ⟨rfl, Or.inr (Nat.le_refl _)⟩
    · have := a.2.1
      simp only [Prod.mk.injEq] at this
      exact Or.inr ⟨this.1, Or.inr (by omega)⟩

theorem stopB_eq {p : Nat} (hp : isB T p) : stopB T (ch T p, ch T (p + 1)) = row T p + 1 +
    cnt T.length (fun q => isB T q ∧ (ch T q, ch T (q + 1)) = (ch T p, ch T (p + 1)) ∧ sless T p q) := by
  unfold stopB
  rw [cnt_or (P := fun q => sless T q p ∨ q = p)
    (Q := fun q => isB T q ∧ (ch T q, ch T (q + 1)) = (ch T p, ch T (p + 1)) ∧ sless T p q)
    (fun q hq => region hp hq) (fun q _ a b => by
      rcases a with a | a
      · exact sless_irrefl p (sless_trans b.2.2 a)
      · rw [a] at b; exact sless_irrefl p b.2.2)]
  rw [cnt_insert (P := fun q => sless T q p) (Q := fun q => sless T q p ∨ q = p) hp.1.1 (sless_irrefl p)
    (fun _ _ => Iff.rfl)]
  rfl

/-- The schedule of the first pass: rows from the last to the first, B* given, B induced. -/
noncomputable def schedB (T : List Nat) : Sched T.length (Nat × Nat) where
  src := isBs T
  tgt := isB T
  key p := (ch T p, ch T (p + 1))
  start key := T.length - stopB T key
  time p := if p < T.length then T.length - row T p else 0
  disj p h1 h2 := not_isL_isS h1.2 h2.2
  bound p h := by exact h.elim (fun h => h.1.1) (fun h => h.1.1)
  range p h := by
    have hp : p < T.length := by exact h.elim (fun h => h.1.1) (fun h => h.1.1)
    have := row_lt hp
    rw [if_pos hp]; omega
  zero := by rw [if_neg (by omega)]
  inj p q h1 h2 h := by
    have hp : p < T.length := by exact h1.elim (fun h => h.1.1) (fun h => h.1.1)
    have hq : q < T.length := by exact h2.elim (fun h => h.1.1) (fun h => h.1.1)
    have a := row_lt hp
    have b := row_lt hq
    rw [if_pos hp, if_pos hq] at h
    exact row_inj hp hq (by omega)
  slot p hp := by
    have hpn := hp.1.1
    have hc : cnt T.length (fun q => isB T q ∧ (ch T q, ch T (q + 1)) = (ch T p, ch T (p + 1)) ∧
        (if q + 1 < T.length then T.length - row T (q + 1) else 0) <
          (if p + 1 < T.length then T.length - row T (p + 1) else 0)) =
        cnt T.length (fun q => isB T q ∧ (ch T q, ch T (q + 1)) = (ch T p, ch T (p + 1)) ∧ sless T p q) := by
      apply cnt_congr
      intro q hq
      have hp1 := isS_next hp.1
      constructor
      · rintro ⟨a, b, c⟩
        refine ⟨a, b, ?_⟩
        have hq1 := isS_next a.1
        rw [if_pos hp1, if_pos hq1] at c
        have e : ch T q = ch T p := by simp only [Prod.mk.injEq] at b; exact b.1
        rw [sless_step hpn hq]
        refine Or.inr ⟨e.symm, ?_⟩
        rcases sless_total (T := T) (p := p + 1) (q := q + 1) (by omega) (by omega) with d | d | d
        · exact d
        · have : p = q := by omega
          subst this; omega
        · have := row_mono hq1 d; omega
      · rintro ⟨a, b, c⟩
        refine ⟨a, b, ?_⟩
        have hq1 := isS_next a.1
        have e : ch T q = ch T p := by simp only [Prod.mk.injEq] at b; exact b.1
        rw [if_pos hp1, if_pos hq1]
        rcases (sless_step hpn hq).mp c with d | d
        · omega
        · have := row_mono hp1 d.2
          have := row_lt hq1
          omega
    have h1 := stopB_eq hp
    have h2 : stopB T (ch T p, ch T (p + 1)) ≤ T.length := cnt_le_n _ _
    rw [if_pos hpn, hc]
    omega
  next p hp := by
    have hp1 := isS_next hp.1
    refine ⟨?_, S_cases hp.2 |>.elim Or.inl (fun h => Or.inr (Or.inl h))⟩
    rw [if_pos hp1, if_pos hp.1.1]
    have := row_mono hp.1.1 hp.1.2
    have := row_lt hp1
    omega

theorem timeB {p : Nat} (hp : p < T.length) : (schedB T).time p = T.length - row T p := if_pos hp

theorem actB {p : Nat} : (schedB T).src p ∨ (schedB T).tgt p ↔ isS T p :=
  ⟨fun h => by exact h.elim (fun h => h.1) (fun h => h.1), S_cases⟩

/-- What the first pass finds for `p`. -/
noncomputable def stB (T : List Nat) (p : Nat) : Int :=
  if p = 0 then 0 else if isS T (p - 1) then p else inv p

/-- What the first pass leaves in the cell of `p`. -/
noncomputable def finB (T : List Nat) (p : Nat) : Int :=
  if p = 0 then 0 else if isS T (p - 1) then inv (ch T (p - 1)) else p

theorem note_spec {n : Nat} {xy : Option (Nat × Nat)} {lf : List Nat} (h : XYok n lf.length xy) {j : Nat} (hj : 0 < j)
    (hjn : j < n) (r : Nat) : ∃ lf', note n xy lf r j = some lf' ∧ lf'.length = lf.length ∧ lf'[0]? = lf[0]? ∧
      Noted n xy lf' j r ∧ ∀ j' r', j' < n → j' ≠ j → Noted n xy lf j' r' → Noted n xy lf' j' r' := by
  have := Sais.note_spec h hj hjn r
  have e : note n xy lf r j = Sais.note n xy lf r j := by
    cases xy with
    | none => rfl
    | some z =>
      obtain ⟨x, y⟩ := z
      unfold note Sais.note
      simp only
      rw [if_neg (by have := h.1; omega)]
  rw [e]
  exact this

/-- The pointer that is used for a bucket. -/
def eff (s : PassB) (c1 : Nat) (key : Nat × Nat) : Int :=
  if key.2 = c1 ∧ s.c2 = some key.1 then s.k else s.bk.b key.1 key.2

/-- After `i` steps of the first pass, inside row `c1`.  `nst`: what stands in the other cells, `A0`, `S0`: the parts of the
tables that do not change. -/
structure DoneB (T : List Nat) (xy : Option (Nat × Nat)) (len : Nat) (nst : Nat → Int) (A0 S0 : Nat → Int) (c1 i : Nat) (s : PassB) :
    Prop where
  size : s.sa.length = T.length
  inv : ∃ ptr, (schedB T).Inv (stB T) (finB T) nst nst i (rev T.length s.sa) ptr ∧
    ∀ p, isB T p → ch T (p + 1) ≤ c1 → eff s c1 (ch T p, ch T (p + 1)) = (T.length : Int) - 1 - ptr (ch T p, ch T (p + 1))
  bkA : ∀ c, s.bk.A c = A0 c
  bkS : ∀ c, s.bk.star c (c + 1) = S0 c
  small : ∀ c, s.c2 = some c → c ≤ c1
  lf : s.lf.length = len
  noted : ∀ p, isS T p → 0 < p → isS T (p - 1) → (schedB T).time p ≤ i → Noted T.length xy s.lf p (row T p)

theorem getI_nat {A : List Int} {i : Nat} : getI A (i : Int) = A[i]? := by
  unfold getI; rw [if_pos (by omega), Int.toNat_natCast]

theorem putI_nat {A : List Int} {i : Nat} {v : Int} : putI A (i : Int) v = put A i v := by
  unfold putI; rw [if_pos (by omega), Int.toNat_natCast]

theorem assert_true {b : Bool} (h : b = true) : assert b = some () := by rw [h]; rfl

theorem markB_spec {q : Nat} (h : isS T q) : markB T q (ch T q) = some (stB T q) := by
  unfold markB stB
  by_cases e : q = 0
  · subst e; rfl
  · have h1 := h.1
    rw [if_pos (by omega), get_ch (show q - 1 < T.length by omega), if_neg e]
    simp only [Option.bind_eq_bind, Option.bind_some, Option.pure_def, Option.some.injEq]
    have hS : isS T (q - 1) ↔ ch T (q - 1) ≤ ch T q := by
      obtain ⟨u, rfl⟩ : ∃ u, q = u + 1 := ⟨q - 1, by omega⟩
      exact S_pred h
    by_cases hl : ch T q < ch T (q - 1)
    · rw [if_pos hl, if_neg (fun a => by have := hS.mp a; omega)]
    · rw [if_neg hl, if_pos (hS.mpr (by omega))]

theorem switchB_spec {bk : Buckets} {c2 : Option Nat} {k : Int} {c0 c1 : Nat} (hc : ∀ c, c2 = some c → c ≤ c1) (h0 : c0 ≤ c1) {sa lf} :
    (switchB bk c2 k c0 c1).2 = eff ⟨sa, bk, c2, k, lf⟩ c1 (c0, c1) ∧
    (∀ c, (switchB bk c2 k c0 c1).1.A c = bk.A c) ∧
    (∀ c, (switchB bk c2 k c0 c1).1.star c (c + 1) = bk.star c (c + 1)) ∧
    ∀ (k' : Int) (sa' : List Int) (lf' : List Nat) (key : Nat × Nat), key ≠ (c0, c1) →
      eff ⟨sa', (switchB bk c2 k c0 c1).1, some c0, k', lf'⟩ c1 key = eff ⟨sa, bk, c2, k, lf⟩ c1 key := by
  unfold switchB
  cases c2 with
  | none =>
    refine ⟨?_, fun _ => rfl, fun _ => rfl, ?_⟩
    · unfold eff; rw [if_neg (by simp)]
    · intro k' sa' lf' key hne
      unfold eff
      have hno : ¬ (key.2 = c1 ∧ some c0 = some key.1) := by
        rintro ⟨a, b⟩
        simp only [Option.some.injEq] at b
        exact hne (by rw [← a, b])
      rw [if_neg hno, if_neg (by simp)]
  | some c =>
    have hcc := hc c rfl
    simp only
    by_cases e : c0 = c
    · subst e
      rw [if_pos (c := c0 = c0) rfl]
      refine ⟨?_, fun _ => rfl, fun _ => rfl, ?_⟩
      · unfold eff; rw [if_pos ⟨rfl, rfl⟩]
      · intro k' sa' lf' key hne
        unfold eff
        have hno : ¬ (key.2 = c1 ∧ some c0 = some key.1) := by
          rintro ⟨a, b⟩
          simp only [Option.some.injEq] at b
          exact hne (by rw [← a, b])
        rw [if_neg hno, if_neg hno]
    · rw [if_neg e]
      refine ⟨?_, fun _ => rfl, ?_, ?_⟩
      · unfold eff Buckets.setB Buckets.set Buckets.b
        simp only
        rw [if_neg (by rintro ⟨_, a⟩; exact e a), if_neg (by rintro ⟨_, a⟩; simp only [Option.some.injEq] at a; exact e a.symm)]
      · intro x
        unfold Buckets.setB Buckets.set Buckets.star
        simp only
        rw [if_neg (by omega)]
      · intro k' sa' lf' key hne
        unfold eff Buckets.setB Buckets.set Buckets.b
        simp only [Option.some.injEq]
        have hno : ¬ (key.2 = c1 ∧ c0 = key.1) := by
          rintro ⟨a, b⟩
          exact hne (by rw [← a, b])
        rw [if_neg hno]
        by_cases h : key.2 = c1 ∧ key.1 = c
        · rw [if_pos h, if_pos ⟨h.1, h.2.symm⟩]
        · rw [if_neg h, if_neg (fun a => h ⟨a.1, a.2.symm⟩)]

/-- One step of the first pass, at a type B position with character `c1`. -/
theorem stepB_spec {xy : Option (Nat × Nat)} {len : Nat} (hxy : XYok T.length len xy) {nst : Nat → Int} {A0 S0 : Nat → Int}
    {c1 i : Nat} (hi : i < T.length) {r : Nat} (hr : isS T r) (hrc : ch T r = c1) (hrow : row T r = T.length - 1 - i)
    {s : PassB} (h : DoneB T xy len nst A0 S0 c1 i s) :
    ∃ s', stepB T xy c1 s ((T.length : Int) - 1 - i) = some s' ∧ DoneB T xy len nst A0 S0 c1 (i + 1) s' := by
  obtain ⟨ptr, hI, hP⟩ := h.inv
  have hsz := h.size
  have hrn := hr.1
  have hrt : (schedB T).time r = i + 1 := by rw [timeB hrn, hrow]; omega
  have hj : ((T.length : Int) - 1 - i) = ((T.length - 1 - i : Nat) : Int) := by omega
  rw [hj]
  have hget : s.sa[T.length - 1 - i]? = some (stB T r) := by
    rcases hI.here hi with ⟨r', _, hr', ht', hA⟩ | ⟨hno, _⟩
    · have := (schedB T).inj r' r hr' (actB.mpr hr) (by rw [ht', hrt])
      subst this
      unfold rev at hA; rwa [if_pos hi] at hA
    · exact absurd hrt (hno r (actB.mpr hr))
  have huniq : ∀ p, isS T p → (schedB T).time p ≤ i + 1 → p = r ∨ (schedB T).time p ≤ i := by
    intro p hp hpt
    by_cases e : (schedB T).time p ≤ i
    · exact Or.inr e
    · exact Or.inl ((schedB T).inj p r (actB.mpr hp) (actB.mpr hr) (by omega))
  by_cases e : r = 0
  · subst e
    have hst : stB T 0 = 0 := if_pos rfl
    rw [hst] at hget
    refine ⟨s, ?_, ⟨hsz, ⟨ptr, ?_, hP⟩, h.bkA, h.bkS, h.small, h.lf, ?_⟩⟩
    · unfold stepB
      rw [getI_nat, bind_some' hget, if_neg (by omega), if_neg (by simp), bind_some' (get_ch hrn),
        bind_some' (assert_true (by simpa using hrc))]
      rfl
    · apply hI.skip (actB.mpr hr) hrt (fun q _ => by omega)
      · unfold rev; rw [if_pos hi]; exact hget
      · intro u _; rfl
    · intro p hp hp0 hpl hpt
      rcases huniq p hp hpt with a | a
      · omega
      · exact h.noted p hp hp0 hpl a
  · obtain ⟨q, rfl⟩ : ∃ q, r = q + 1 := ⟨r - 1, by omega⟩
    have hqn : q < T.length := by omega
    rcases type_total hqn with hl | hs
    · -- nothing is induced
      have hst : stB T (q + 1) = inv ((q + 1 : Nat) : Int) := by
        unfold stB; rw [if_neg (by omega), show q + 1 - 1 = q by omega, if_neg ((not_isS hqn).mpr hl)]
      have hfin : finB T (q + 1) = ((q + 1 : Nat) : Int) := by
        unfold finB; rw [if_neg (by omega), show q + 1 - 1 = q by omega, if_neg ((not_isS hqn).mpr hl)]
      rw [hst] at hget
      have hset := rev_set1 (v := ((q + 1 : Nat) : Int)) hsz hi
      refine ⟨{ s with sa := s.sa.set (T.length - 1 - i) ((q + 1 : Nat) : Int) }, ?_,
        ⟨?_, ⟨ptr, ?_, hP⟩, h.bkA, h.bkS, h.small, h.lf, ?_⟩⟩
      · unfold stepB
        rw [getI_nat, bind_some' hget, if_neg (by unfold Sais.inv; omega), if_pos (by unfold Sais.inv; omega), inv_inv,
          putI_nat, bind_some' (put_spec (by omega) _)]
        rfl
      · simp only [List.length_set]; exact hsz
      · apply hI.skip (actB.mpr hr) hrt
        · intro q' hq' e'
          have : q' = q := by omega
          subst this
          exact not_isL_isS hl hq'.1
        · rw [hfin]; exact hset.1
        · exact hset.2
      · intro p hp hp0 hpl hpt
        rcases huniq p hp hpt with a | a
        · subst a
          exact (not_isL_isS hl hpl).elim
        · exact h.noted p hp hp0 hpl a
    · -- the predecessor is induced
      have hB : isB T q := ⟨hs, hr⟩
      have hst : stB T (q + 1) = ((q + 1 : Nat) : Int) := by
        unfold stB; rw [if_neg (by omega), show q + 1 - 1 = q by omega, if_pos hs]
      have hfin : finB T (q + 1) = inv (ch T q : Int) := by
        unfold finB; rw [if_neg (by omega), show q + 1 - 1 = q by omega, if_pos hs]
      rw [hst] at hget
      obtain ⟨h1, h2, h3, h4⟩ := hI.place hi (q := q) hB hrt
      have hkey : (schedB T).key q = (ch T q, ch T (q + 1)) := rfl
      rw [hkey, hrc] at h1 h2 h3 h4
      have hle : ch T q ≤ c1 := by rw [← hrc]; exact S_ch hs
      obtain ⟨w1, w2, w3, w4⟩ := switchB_spec (bk := s.bk) (k := s.k) (sa := s.sa) (lf := s.lf) h.small hle
      have hk : (switchB s.bk s.c2 s.k (ch T q) c1).2 = ((T.length - 1 - ptr (ch T q, c1) : Nat) : Int) := by
        rw [w1]
        have := hP q hB (by omega)
        rw [hrc] at this
        rw [show (⟨s.sa, s.bk, s.c2, s.k, s.lf⟩ : PassB) = s from rfl, this]
        omega
      obtain ⟨lf1, n1, n2, _, n4, n5⟩ := note_spec (n := T.length) (xy := xy) (lf := s.lf) (by rw [h.lf]; exact hxy)
        (j := q + 1) (by omega) hrn (T.length - 1 - i)
      have hset := rev_set2 (v := inv (ch T q : Int)) (w := stB T q) hsz hi h3 (by omega)
      have hput1 : put s.sa (T.length - 1 - i) (inv (ch T q : Int)) = some (s.sa.set (T.length - 1 - i) (inv (ch T q : Int))) :=
        put_spec (by omega) _
      have hput2 : put (s.sa.set (T.length - 1 - i) (inv (ch T q : Int))) (T.length - 1 - ptr (ch T q, c1)) (stB T q) =
          some ((s.sa.set (T.length - 1 - i) (inv (ch T q : Int))).set (T.length - 1 - ptr (ch T q, c1)) (stB T q)) :=
        put_spec (by rw [List.length_set]; omega) _
      refine ⟨⟨(s.sa.set (T.length - 1 - i) (inv (ch T q : Int))).set (T.length - 1 - ptr (ch T q, c1)) (stB T q),
        (switchB s.bk s.c2 s.k (ch T q) c1).1, some (ch T q), ((T.length - 1 - ptr (ch T q, c1) : Nat) : Int) - 1, lf1⟩, ?_,
        ⟨?_, ⟨fun key => if key = (ch T q, c1) then ptr (ch T q, c1) + 1 else ptr key, ?_, ?_⟩, ?_, ?_, ?_, ?_, ?_⟩⟩
      · unfold stepB
        rw [getI_nat, bind_some' hget, if_pos (by omega)]
        simp only [Int.toNat_natCast]
        rw [bind_some' n1, bind_some' (get_ch hrn), bind_some' (assert_true (by simpa using hrc)),
          bind_some' (get_ch (isS_next hr)), bind_some' (assert_true (by simpa using S_ch hr)),
          show q + 1 - 1 = q by omega, bind_some' (get_ch hqn), bind_some' (assert_true (by simpa using S_ch hs)),
          putI_nat, bind_some' hput1, bind_some' (markB_spec hs), hk, bind_some' (assert_true (by simp only [decide_eq_true_eq]; omega)),
          putI_nat, bind_some' hput2]
        rfl
      · simp only [List.length_set]; exact hsz
      · apply h4
        · rw [hfin]; exact hset.1
        · exact hset.2.1
        · exact hset.2.2
        · exact if_pos rfl
        · intro c hc; exact if_neg hc
      · intro p hp hpc
        show _ = (T.length : Int) - 1 -
          ((if (ch T p, ch T (p + 1)) = (ch T q, c1) then ptr (ch T q, c1) + 1 else ptr (ch T p, ch T (p + 1)) : Nat) : Int)
        by_cases ek : (ch T p, ch T (p + 1)) = (ch T q, c1)
        · rw [if_pos ek, ek]
          unfold eff
          rw [if_pos ⟨rfl, rfl⟩]
          simp only
          omega
        · rw [if_neg ek, w4 _ _ _ _ ek]
          exact hP p hp hpc
      · intro c; rw [w2]; exact h.bkA c
      · intro c; rw [w3]; exact h.bkS c
      · intro c hc
        simp only [Option.some.injEq] at hc
        omega
      · rw [← h.lf]; exact n2
      · intro p hp hp0 hpl hpt
        rcases huniq p hp hpt with a | a
        · subst a; rw [hrow]; exact n4
        · by_cases epr : p = q + 1
          · subst epr; omega
          · exact n5 p _ hp.1 epr (h.noted p hp hp0 hpl a)

/-- A run of steps at type B positions with character `c1`. -/
theorem loopB_spec {xy : Option (Nat × Nat)} {len : Nat} (hxy : XYok T.length len xy) {nst : Nat → Int} {A0 S0 : Nat → Int}
    {c1 : Nat} (d i : Nat) (hd : i + d ≤ T.length)
    (hS : ∀ r, r < T.length → T.length - i - d ≤ row T r → row T r < T.length - i → isS T r ∧ ch T r = c1)
    {s : PassB} (h : DoneB T xy len nst A0 S0 c1 i s) :
    ∃ s', loopB T xy c1 d ((T.length : Int) - 1 - i) s = some s' ∧ DoneB T xy len nst A0 S0 c1 (i + d) s' := by
  induction d generalizing i s with
  | zero => exact ⟨s, rfl, h⟩
  | succ d ih =>
    obtain ⟨r, hr, hrow⟩ := row_surj (T := T) (r := T.length - 1 - i) (by omega)
    obtain ⟨a, b⟩ := hS r hr (by omega) (by omega)
    obtain ⟨s1, h1, h2⟩ := stepB_spec hxy (by omega) a b hrow h
    obtain ⟨s2, h3, h4⟩ := ih (i + 1) (by omega) (fun r hr h5 h6 => hS r hr (by omega) (by omega)) h2
    refine ⟨s2, ?_, by rw [show i + (d + 1) = i + 1 + d by omega]; exact h4⟩
    unfold loopB
    rw [bind_some' h1, show (T.length : Int) - 1 - i - 1 = (T.length : Int) - 1 - (i + 1 : Nat) by omega]
    exact h3

/-- Slots of other suffixes are passed over. -/
theorem pass_over {xy : Option (Nat × Nat)} {len : Nat} {nst : Nat → Int} {A0 S0 : Nat → Int} {c1 : Nat} (d i : Nat)
    (hd : i + d ≤ T.length)
    (hL : ∀ r, r < T.length → T.length - i - d ≤ row T r → row T r < T.length - i → isL T r)
    {s : PassB} (h : DoneB T xy len nst A0 S0 c1 i s) : DoneB T xy len nst A0 S0 c1 (i + d) s := by
  induction d generalizing i with
  | zero => exact h
  | succ d ih =>
    have hno : ∀ p, (schedB T).src p ∨ (schedB T).tgt p → (schedB T).time p ≠ i + 1 := by
      intro p hp e
      have hpS := actB.mp hp
      have hr := row_lt hpS.1
      rw [timeB hpS.1] at e
      exact not_isL_isS (hL p hpS.1 (by omega) (by omega)) hpS
    have h1 : DoneB T xy len nst A0 S0 c1 (i + 1) s := by
      obtain ⟨ptr, hI, hP⟩ := h.inv
      refine ⟨h.size, ⟨ptr, ?_, hP⟩, h.bkA, h.bkS, h.small, h.lf, ?_⟩
      · rcases hI.here (show i < T.length by omega) with ⟨r, _, hr, ht, _⟩ | ⟨_, hA⟩
        · exact absurd ht (hno r hr)
        · exact hI.pass hno _ hA (fun _ _ => rfl)
      · intro p hp hp0 hpl hpt
        apply h.noted p hp hp0 hpl
        have := hno p (actB.mpr hp)
        omega
    have := ih (i + 1) (by omega) (fun r hr h5 h6 => hL r hr (by omega) (by omega)) h1
    rw [show i + (d + 1) = i + 1 + d by omega]
    exact this

/-! ## Where the types are -/

/-- The first row of character `c`. -/
noncomputable def startA (T : List Nat) (c : Nat) : Nat := cnt T.length (fun q => ch T q < c)

/-- The first row of the type B suffixes with character `c`. -/
noncomputable def startS (T : List Nat) (c : Nat) : Nat := cnt T.length (fun q => ch T q < c ∨ (ch T q = c ∧ isL T q))

theorem startA_le_S (c : Nat) : startA T c ≤ startS T c := cnt_le (fun _ _ h => Or.inl h)

theorem startS_le_A (c : Nat) : startS T c ≤ startA T (c + 1) :=
  cnt_le (fun q _ h => by rcases h with h | h <;> omega)

theorem startA_le (c : Nat) : startA T c ≤ T.length := cnt_le_n _ _

theorem row_ge_startA {p : Nat} (hp : p < T.length) : startA T (ch T p) ≤ row T p := by
  rw [row_eq hp]
  unfold startA
  omega

theorem row_lt_startA {p : Nat} (hp : p < T.length) : row T p < startA T (ch T p + 1) := by
  unfold row startA
  apply cnt_lt (P := fun q => sless T q p) hp (sless_irrefl p) (by omega)
  intro q hq h
  rcases (sless_step hq hp).mp h with a | a <;> omega

theorem L_row {p : Nat} (hp : isL T p) : row T p < startS T (ch T p) := by
  unfold row startS
  apply cnt_lt (P := fun q => sless T q p) hp.1 (sless_irrefl p) (Or.inr ⟨rfl, hp⟩)
  intro q hq h
  rcases (sless_step hq hp.1).mp h with a | a
  · exact Or.inl a
  · exact Or.inr ⟨a.1, same_below_L hp hq a.1 h⟩

theorem S_row {p : Nat} (hp : isS T p) : startS T (ch T p) ≤ row T p := by
  unfold row startS
  apply cnt_le
  rintro q hq (h | h)
  · exact (sless_step hq hp.1).mpr (Or.inl h)
  · exact L_lt_S h.2 hp h.1

theorem startA_mono {c d : Nat} (h : c ≤ d) : startA T c ≤ startA T d := cnt_le (fun q _ a => by omega)

theorem ch_of_row {p c : Nat} (hp : p < T.length) (h1 : startA T c ≤ row T p) (h2 : row T p < startA T (c + 1)) : ch T p = c := by
  have a := row_ge_startA hp
  have b := row_lt_startA hp
  rcases Nat.lt_trichotomy (ch T p) c with h | h | h
  · have := startA_mono (T := T) (show ch T p + 1 ≤ c by omega); omega
  · exact h
  · have := startA_mono (T := T) (show c + 1 ≤ ch T p by omega); omega

theorem S_of_row {p c : Nat} (hp : p < T.length) (h1 : startS T c ≤ row T p) (h2 : row T p < startA T (c + 1)) :
    isS T p ∧ ch T p = c := by
  have hc := ch_of_row hp (by have := startA_le_S (T := T) c; omega) h2
  refine ⟨?_, hc⟩
  apply (not_isL hp).mp
  intro a
  have := L_row a
  rw [hc] at this
  omega

theorem L_of_row {p c : Nat} (hp : p < T.length) (h1 : startA T c ≤ row T p) (h2 : row T p < startS T c) : isL T p := by
  have hc := ch_of_row hp h1 (by have := startS_le_A (T := T) c; omega)
  apply (not_isS hp).mp
  intro a
  have := S_row a
  rw [hc] at this
  omega

/-- The largest character occurs in no type B suffix. -/
theorem top_L {k : Nat} (hk : ∀ p, p < T.length → ch T p < k) {p : Nat} (hp : p < T.length) (h : ch T p + 1 = k) : isL T p := by
  suffices H : ∀ d p, T.length - p ≤ d → p < T.length → ch T p + 1 = k → isL T p from H _ p (Nat.le_refl _) hp h
  intro d
  induction d with
  | zero => intro p hd hp; omega
  | succ d ih =>
    intro p hd hp h
    by_cases e : p + 1 = T.length
    · exact isL_last e
    · have hp1 : p + 1 < T.length := by omega
      rw [isL_iff hp1]
      have := hk (p + 1) hp1
      by_cases e2 : ch T (p + 1) = ch T p
      · exact Or.inr ⟨e2, ih (p + 1) (by omega) hp1 (by omega)⟩
      · exact Or.inl (by omega)

/-! ## The whole first pass -/

/-- The sorted B* suffixes are at their rows and the buckets are set up. -/
structure Ready (T : List Nat) (k : Nat) (sa : List Int) (bk : Buckets) : Prop where
  size : sa.length = T.length
  star : ∀ p, isBs T p → sa[row T p]? = some (stB T p)
  A : ∀ c, c < k → bk.A c = startA T c
  S : ∀ c, c + 1 < k → bk.star c (c + 1) = startS T c
  B : ∀ p, isB T p → bk.b (ch T p) (ch T (p + 1)) = (stopB T (ch T p, ch T (p + 1)) : Int) - 1

/-- Between two rows the pointer belongs to none of the buckets that are still to be used. -/
theorem next_row {xy : Option (Nat × Nat)} {len : Nat} {nst : Nat → Int} {A0 S0 : Nat → Int} {c1 i : Nat} {s : PassB}
    (h : DoneB T xy len nst A0 S0 (c1 + 1) i s) : DoneB T xy len nst A0 S0 c1 i { s with c2 := none, k := 0 } := by
  obtain ⟨ptr, hI, hP⟩ := h.inv
  refine ⟨h.size, ⟨ptr, hI, ?_⟩, h.bkA, h.bkS, fun c hc => by simp at hc, h.lf, h.noted⟩
  intro p hp hpc
  have := hP p hp (by omega)
  unfold eff at this ⊢
  rw [if_neg (by simp only; omega)] at this
  rw [if_neg (by simp)]
  exact this

theorem rowB_spec {xy : Option (Nat × Nat)} {len k : Nat} (hxy : XYok T.length len xy) {nst : Nat → Int} {A0 S0 : Nat → Int} {c1 : Nat}
    (hc : c1 + 1 < k) (hA : ∀ c, c < k → A0 c = startA T c) (hS : ∀ c, c + 1 < k → S0 c = startS T c) {s : PassB}
    (h : DoneB T xy len nst A0 S0 (c1 + 1) (T.length - startA T (c1 + 1)) s) :
    ∃ s', rowB T xy s c1 = some s' ∧ DoneB T xy len nst A0 S0 c1 (T.length - startA T c1) s' := by
  have h' := next_row h
  have l1 := startA_le_S (T := T) c1
  have l2 := startS_le_A (T := T) c1
  have l3 := startA_le (T := T) (c1 + 1)
  obtain ⟨s1, g1, g2⟩ := loopB_spec hxy (startA T (c1 + 1) - startS T c1) (T.length - startA T (c1 + 1)) (by omega)
    (fun r hr a b => S_of_row hr (by omega) (by omega)) h'
  refine ⟨s1, ?_, ?_⟩
  · unfold rowB
    simp only
    rw [h.bkA, h.bkS, hA _ hc, hS _ hc,
      show ((startA T (c1 + 1) : Int) - 1 - startS T c1 + 1).toNat = startA T (c1 + 1) - startS T c1 by omega,
      show (startA T (c1 + 1) : Int) - 1 = (T.length : Int) - 1 - (T.length - startA T (c1 + 1) : Nat) by omega]
    exact g1
  · have := pass_over (startS T c1 - startA T c1) (T.length - startA T (c1 + 1) + (startA T (c1 + 1) - startS T c1)) (by omega)
      (fun r hr a b => L_of_row (c := c1) hr (by omega) (by omega)) g2
    rw [show T.length - startA T c1 = T.length - startA T (c1 + 1) + (startA T (c1 + 1) - startS T c1) + (startS T c1 - startA T c1) by omega]
    exact this

theorem initB {k : Nat} {xy : Option (Nat × Nat)} {sa : List Int} {bk : Buckets} {lf : List Nat}
    (h : Ready T k sa bk) : DoneB T xy lf.length (fun r => (rev T.length sa r).getD 0) bk.A (fun c => bk.star c (c + 1)) (k - 1) 0
      ⟨sa, bk, none, 0, lf⟩ := by
  have hz : ∀ q, q < T.length → ¬ (schedB T).time q ≤ 0 := by
    intro q hq a
    have := row_lt hq
    rw [timeB hq] at a
    omega
  refine ⟨h.size, ⟨fun key => T.length - stopB T key, ⟨?_, ?_, ?_, ?_⟩, ?_⟩, fun _ => rfl, fun _ => rfl, fun c hc => by simp at hc, rfl, ?_⟩
  · intro p hp
    rw [cnt_false (fun q _ a => hz (q + 1) (isS_next a.1.1) a.2.2)]
    rfl
  · intro p hp
    rcases hp with hp | hp
    · have hr := row_lt hp.1.1
      rw [timeB hp.1.1, if_neg (by omega)]
      unfold rev
      rw [if_pos (by omega), show T.length - 1 - (T.length - row T p - 1) = row T p by omega]
      exact h.star p hp
    · exact absurd hp.2 (hz _ (isS_next hp.1.1))
  · intro r hr _
    have : rev T.length sa r = some (sa[T.length - 1 - r]'(by have := h.size; omega)) := by
      unfold rev
      rw [if_pos hr, List.getElem?_eq_getElem]
    rw [if_neg (by omega), this]
    rfl
  · exact Sais.rev_dom h.size
  · intro p hp _
    have h1 := h.B p hp
    have h2 : stopB T (ch T p, ch T (p + 1)) ≤ T.length := cnt_le_n _ _
    unfold eff
    rw [if_neg (by simp)]
    simp only
    rw [h1]
    omega
  · intro p hp _ _ a
    exact absurd a (hz p hp.1)

/-- After the first pass all type B suffixes are at their rows. -/
theorem passB_spec {k : Nat} (hk : ∀ p, p < T.length → ch T p < k) (hk0 : 0 < k) {xy : Option (Nat × Nat)} {sa : List Int} {bk : Buckets}
    {lf : List Nat} (hxy : XYok T.length lf.length xy) (h : Ready T k sa bk) :
    ∃ s, Sais.loopDown (rowB T xy) (k - 1) ⟨sa, bk, none, 0, lf⟩ = some s ∧ s.sa.length = T.length ∧
      (∀ p, isS T p → s.sa[row T p]? = some (finB T p)) ∧ (∀ c, s.bk.A c = bk.A c) ∧ s.lf.length = lf.length ∧
      ∀ p, isS T p → 0 < p → isS T (p - 1) → Noted T.length xy s.lf p (row T p) := by
  have h0 := initB (xy := xy) (lf := lf) h
  have htop : ∀ r, r < T.length → startA T (k - 1) ≤ row T r → isL T r := by
    intro r hr a
    have hc := hk r hr
    have := row_lt_startA hr
    apply top_L hk hr
    by_cases e : ch T r + 1 = k
    · exact e
    · have := startA_mono (T := T) (show ch T r + 1 ≤ k - 1 by omega); omega
  have hle := startA_le (T := T) (k - 1)
  have h1 := pass_over (T.length - startA T (k - 1)) 0 (by omega) (fun r hr a b => htop r hr (by omega)) h0
  rw [Nat.zero_add] at h1
  obtain ⟨s, g1, g2⟩ := loopDown_spec (f := rowB T xy) (k - 1)
    (fun t => DoneB T xy lf.length (fun r => (rev T.length sa r).getD 0) bk.A (fun c => bk.star c (c + 1)) (k - 1 - t)
      (T.length - startA T (k - 1 - t))) (k - 1) (Nat.le_refl _) _ (fun t s ht hs => by
        have := rowB_spec (c1 := k - 1 - 1 - t) hxy (by omega) h.A h.S (s := s) (by
          rw [show k - 1 - 1 - t + 1 = k - 1 - t by omega]; exact hs)
        obtain ⟨s', a, b⟩ := this
        exact ⟨s', a, by rw [show k - 1 - (t + 1) = k - 1 - 1 - t by omega]; exact b⟩)
    (by rw [Nat.sub_self]; exact h1)
  rw [Nat.sub_self] at g2
  have hz : startA T 0 = 0 := cnt_false (fun q _ a => by omega)
  rw [hz, Nat.sub_zero] at g2
  obtain ⟨ptr, hI, _⟩ := g2.inv
  refine ⟨s, g1, g2.size, ?_, g2.bkA, g2.lf, ?_⟩
  · intro p hp
    have := hI.done (actB.mpr hp)
    have hr := row_lt hp.1
    rw [timeB hp.1] at this
    unfold rev at this
    rw [if_pos (by omega), show T.length - 1 - (T.length - row T p - 1) = row T p by omega] at this
    exact this
  · intro p hp hp0 hpl
    exact g2.noted p hp hp0 hpl (by rw [timeB hp.1]; omega)

end Bwtc.Divsuf
