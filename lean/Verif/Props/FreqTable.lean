import Verif.FreqTable

/-!
# C33: the frequency table stays sorted and consistent
-/

set_option autoImplicit false

namespace Bwtc.Props
open FreqTable

/-- Operations on the table. -/
inductive FreqOp
  | inc (k : UInt8) (v : Nat)
  | dec (k : UInt8) (v : Nat)
  | rem (k : UInt8)

/-- One operation of the code. -/
def freqStep (beyond : Option Nat) (t : FT) : FreqOp → Option FT
  | .inc k v => increase beyond t k v
  | .dec k v => (decrease t k v).map (·.2)
  | .rem k => remove beyond t k

/-- A sequence of operations of the code. -/
def freqRun (beyond : Option Nat) : FT → List FreqOp → Option FT
  | t, [] => some t
  | t, o :: os => (freqStep beyond t o).bind fun t => freqRun beyond t os

/-- Specification: a table is just a function; too large decreases are refused. -/
def freqSpec (F : UInt8 → Nat) : FreqOp → UInt8 → Nat
  | .inc k v => fun x => if x = k then F k + v else F x
  | .dec k v => fun x => if x = k ∧ v ≤ F k then F k - v else F x
  | .rem _ => F

/-- What users may ask of a table for the frequencies `F`: a key's frequency is right, the
array enumerates every key exactly once, together with its frequency, in ascending order. -/
def Represents (F : UInt8 → Nat) (t : FT) : Prop :=
  (∀ k, getFrequencyWithKey t k = some (F k)) ∧
  (∀ k, ∃ i, i < 256 ∧ ∀ j, getKey t j = some k ↔ j = i) ∧
  (∀ i, i < 256 → ∃ k, getKey t i = some k ∧ getFrequency t i = some (F k)) ∧
  (∀ i j a b, i ≤ j → getFrequency t i = some a → getFrequency t j = some b → a ≤ b)

/-- The full claim for sequences without removals. -/
def C33_claim : Prop := ∀ (F : UInt8 → Nat) (t : FT), Initial F t → ∀ ops : List FreqOp,
  (∀ o ∈ ops, ∀ k, o ≠ .rem k) → ∃ t', freqRun none t ops = some t' ∧
    Represents (ops.foldl freqSpec F) t'

theorem represents_of_inv {F : UInt8 → Nat} {t : FT} (h : Inv F t) : Represents F t := by
  refine ⟨?_, ?_, ?_, ?_⟩
  · intro k
    simp [getFrequencyWithKey, h.at_loc k]
  · intro k
    refine ⟨t.loc k, h.loc_lt k, ?_⟩
    intro j
    constructor
    · intro hj
      rw [getKey, Option.map_eq_some_iff] at hj
      obtain ⟨⟨k', v⟩, h1, h2⟩ := hj
      simp only at h2
      subst h2
      exact (h.cells _ _ _ h1).1.symm
    · rintro rfl
      simp [getKey, h.at_loc k]
  · intro i hi
    obtain ⟨k, rfl⟩ := h.loc_of hi
    exact ⟨k, by simp [getKey, h.at_loc k], by simp [getFrequency, h.at_loc k]⟩
  · intro i j a b hij ha hb
    rw [getFrequency, Option.map_eq_some_iff] at ha hb
    obtain ⟨⟨k, v⟩, h1, h2⟩ := ha
    obtain ⟨⟨k', v'⟩, h3, h4⟩ := hb
    obtain ⟨c1, c2⟩ := h.cells _ _ _ h1
    obtain ⟨d1, d2⟩ := h.cells _ _ _ h3
    simp only at h2 h4
    have := h.le_of_loc (k := k) (k' := k') (by omega)
    omega

/-- Operations that are well defined: any decrease; an increase that leaves some other key at
least as frequent. -/
def freqLegal (F : UInt8 → Nat) : List FreqOp → Prop
  | [] => True
  | .dec k v :: os => freqLegal (freqSpec F (.dec k v)) os
  | .inc k v :: os => (0 < v ∧ ∃ k', k' ≠ k ∧ F k + v ≤ F k') ∧ freqLegal (freqSpec F (.inc k v)) os
  | .rem _ :: _ => False

theorem upd_spec_inc (F : UInt8 → Nat) (k : UInt8) (v : Nat) : freqSpec F (.inc k v) = upd F k (F k + v) := by
  funext x
  simp [freqSpec, upd]

theorem upd_spec_dec (F : UInt8 → Nat) (k : UInt8) (v : Nat) :
    freqSpec F (.dec k v) = if v ≤ F k then upd F k (F k - v) else F := by
  funext x
  by_cases h : v ≤ F k <;> simp [freqSpec, upd, h]

/-- C33, partial.  From any initial table, every sequence of decreases and of increases that do
not make a key the single most frequent one keeps the table sorted and consistent.

Missing: increases that carry a key to the last place, and removals; both read past the end of
the array (`C33_fails`, `C33_first_removal_undefined`). -/
theorem C33_frequency_table_partial (F : UInt8 → Nat) (t : FT) (h : Initial F t) (ops : List FreqOp)
    (hl : freqLegal F ops) :
    ∃ t', freqRun none t ops = some t' ∧ Represents (ops.foldl freqSpec F) t' := by
  have main : ∀ (ops : List FreqOp) (F : UInt8 → Nat) (t : FT), Inv F t → t.last = 256 →
      freqLegal F ops → ∃ t', freqRun none t ops = some t' ∧ Inv (ops.foldl freqSpec F) t' := by
    intro ops
    induction ops with
    | nil => intro F t hi _ _; exact ⟨t, rfl, hi⟩
    | cons o os ih =>
      intro F t hi h256 hl
      cases o with
      | inc k v =>
        obtain ⟨⟨hv, k', hk, hle⟩, hl⟩ := hl
        obtain ⟨t', e1, e2, e3, _⟩ := increase_spec hi none k v (Or.inl ⟨k', by
          apply Classical.byContradiction
          intro hc
          have := hi.le_of_loc (k := k') (k' := k) (by omega)
          omega, by have := hi.loc_lt k'; omega, hle⟩)
        rw [← upd_spec_inc] at e3
        obtain ⟨t'', f1, f2⟩ := ih _ t' e3 (by omega) hl
        exact ⟨t'', by rw [freqRun, freqStep, e1]; exact f1, f2⟩
      | dec k v =>
        obtain ⟨t', e1, e2, e3⟩ := decrease_spec hi k v
        rw [← upd_spec_dec] at e3
        obtain ⟨t'', f1, f2⟩ := ih _ t' e3 (by omega) hl
        exact ⟨t'', by rw [freqRun, freqStep, e1]; exact f1, f2⟩
      | rem k => exact hl.elim
  obtain ⟨t', h1, h2⟩ := main ops F t (initial_inv h) h.2.2.2 hl
  exact ⟨t', h1, represents_of_inv h2⟩

/-- C33: the very first removal from any table reads `m_frequencies[256]`. -/
theorem C33_first_removal_undefined (F : UInt8 → Nat) (t : FT) (h : Initial F t) (k : UInt8) :
    freqRun none t [.rem k] = none := by
  rw [freqRun, freqStep, remove_none (initial_inv h) h.2.2.2 k]
  rfl

/-- C33: what removal does if the word after the array happens to be larger than every
frequency: the remaining keys keep their frequencies, are listed in ascending order in front,
and the removed ones are behind `m_last`. -/
theorem C33_removals_partial (F : UInt8 → Nat) (t : FT) (h : Initial F t) (x : Nat)
    (hx : ∀ k, F k < x) (ks : List UInt8) (hnd : ks.Nodup) :
    ∃ t', freqRun (some x) t (ks.map .rem) = some t' ∧ t'.last + ks.length = 256 ∧
      (∀ k, k ∉ ks → getFrequencyWithKey t' k = some (F k)) ∧
      (∀ k, k ∉ ks ↔ ∃ i, i < t'.last ∧ getKey t' i = some k ∧ getFrequency t' i = some (F k)) ∧
      (∀ i j a b, i ≤ j → getFrequency t' i = some a → getFrequency t' j = some b → a ≤ b) := by
  have hrun : ∀ (ks : List UInt8) (t : FT), freqRun (some x) t (ks.map .rem) = removeAll (some x) t ks := by
    intro ks
    induction ks with
    | nil => intro t; rfl
    | cons k ks ih =>
      intro t
      rw [List.map_cons, freqRun, freqStep, removeAll]
      cases remove (some x) t k with
      | none => rfl
      | some t' => exact ih t'
  have hi := initial_inv h
  have h256 : t.last = 256 := h.2.2.2
  obtain ⟨t', F', e1, e2⟩ := removeAll_spec hx (Nat.le_refl x) ks [] F t ⟨hi, by simpa using h256,
    fun k _ => ⟨rfl, by have := hi.loc_lt k; omega⟩, fun k hk => by simp at hk⟩ (by simpa using hnd)
  rw [List.append_nil] at e2
  have hr := represents_of_inv e2.inv
  have hmem : ∀ k, k ∈ ks.reverse ↔ k ∈ ks := fun k => List.mem_reverse
  refine ⟨t', by rw [hrun]; exact e1, by simpa using e2.last, ?_, ?_, hr.2.2.2⟩
  · intro k hk
    rw [hr.1 k, (e2.same k (by rw [hmem]; exact hk)).1]
  · intro k
    constructor
    · intro hk
      obtain ⟨g1, g2⟩ := e2.same k (by rw [hmem]; exact hk)
      refine ⟨t'.loc k, g2, ?_, ?_⟩
      · simp [getKey, e2.inv.at_loc k]
      · simp [getFrequency, e2.inv.at_loc k, g1]
    · rintro ⟨i, hi, hk, _⟩ hc
      obtain ⟨g1, _⟩ := e2.gone k (by rw [hmem]; exact hc)
      rw [getKey, Option.map_eq_some_iff] at hk
      obtain ⟨⟨k', v⟩, h1, h2⟩ := hk
      simp only at h2
      subst h2
      have := (e2.inv.cells _ _ _ h1).1
      omega

/-- The table made from a list. -/
def tableOf (l : List (UInt8 × Nat)) : FT := ⟨l, initLoc l 0 (fun _ => 0), 256⟩

/-- The table with all frequencies 7. -/
def flatTable : FT := tableOf (unsorted (fun _ => 7))

theorem tableOf_initial (F : UInt8 → Nat) (l : List (UInt8 × Nat)) (h : l = unsorted F)
    (hs : l.Pairwise (fun a b => a.2 ≤ b.2)) : Initial F (tableOf l) := by
  refine ⟨?_, hs, rfl, rfl⟩
  show l.Perm _
  rw [h]

theorem flatTable_initial : Initial (fun _ => 7) flatTable := by
  refine tableOf_initial _ _ rfl ?_
  have h : ∀ n, ((List.range n).map fun i => (UInt8.ofNat i, 7)).Pairwise (fun a b => a.2 ≤ b.2) := by
    intro n
    rw [List.pairwise_map]
    exact List.Pairwise.imp (fun _ => Nat.le_refl _) List.pairwise_lt_range
  exact h 256

/-- C33 is false of the code: increasing one frequency of a flat table is undefined. -/
theorem C33_fails : ¬ C33_claim := by
  intro hc
  obtain ⟨t', h1, _⟩ := hc _ flatTable flatTable_initial [.inc 3 1] (by simp)
  have : freqRun none flatTable [.inc 3 1] = none := by
    have hi := initial_inv flatTable_initial
    rw [freqRun, freqStep, increase, hi.at_loc 3]
    simp only
    rw [show flatTable.last = 256 from rfl, incLoop_none _ _ (flatTable.loc 3) flatTable.fr flatTable.loc rfl
      (hi.hole 3) (by
        intro j a _ ha
        have := (hi.cells j a.1 a.2 ha).2
        omega)]
    rfl
  rw [this] at h1
  simp at h1

/-- Non-vacuity: a legal sequence on a concrete table. -/
example : Initial (fun _ => 7) flatTable ∧
    freqLegal (fun _ => 7) [.dec 3 5, .dec 4 9, .dec 200 2, .inc 3 4, .dec 3 1] := by
  refine ⟨flatTable_initial, ?_⟩
  simp only [freqLegal, freqSpec]
  refine ⟨⟨by omega, 0, by decide, by simp⟩, trivial⟩

/-- Non-vacuity of the removal theorem. -/
example : (∀ k : UInt8, (fun _ => 7) k < 8) ∧ [(3 : UInt8), 0, 255].Nodup := ⟨fun _ => by simp, by decide⟩

end Bwtc.Props
