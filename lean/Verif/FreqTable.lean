import Verif.Basic

/-!
# The frequency table

Model of `FrequencyTable` (preprocessors/FrequencyTable.cpp).
-/

set_option autoImplicit false

namespace Bwtc.FreqTable

/-- The fields: `m_frequencies` (256 pairs), `m_location`, `m_last`.
Simplification: `m_location` holds bytes in the code; the model keeps numbers (the proofs show
that all of them stay below 256). -/
structure FT where
  fr : List (UInt8 × Nat)
  loc : UInt8 → Nat
  last : Nat

/-- `table[k] = v`. -/
def upd (f : UInt8 → Nat) (k : UInt8) (v : Nat) : UInt8 → Nat := fun x => if x = k then v else f x

/-- `initLocations` (FrequencyTable.cpp:146-150), continuing at index `i`. -/
def initLoc : List (UInt8 × Nat) → Nat → (UInt8 → Nat) → UInt8 → Nat
  | [], _, loc => loc
  | p :: l, i, loc => initLoc l (i + 1) (upd loc p.1 i)

/-- The array before sorting (FrequencyTable.cpp:70-72). -/
def unsorted (F : UInt8 → Nat) : List (UInt8 × Nat) :=
  (List.range 256).map fun i => (UInt8.ofNat i, F (UInt8.ofNat i))

/-- `t` is a table made by the constructor from frequencies (FrequencyTable.cpp:64-76).
`std::sort` is not stable, so any arrangement sorted by frequency is possible. -/
def Initial (F : UInt8 → Nat) (t : FT) : Prop :=
  t.fr.Perm (unsorted F) ∧ t.fr.Pairwise (fun a b => a.2 ≤ b.2) ∧
    t.loc = initLoc t.fr 0 (fun _ => 0) ∧ t.last = 256

/-- `getFrequencyWithKey` (FrequencyTable.cpp:83-85).  Truncation to `uint32` omitted. -/
def getFrequencyWithKey (t : FT) (key : UInt8) : Option Nat := (t.fr[t.loc key]?).map (·.2)

/-- `getFrequency` (FrequencyTable.cpp:78-81).  Truncation to `uint32` omitted. -/
def getFrequency (t : FT) (i : Nat) : Option Nat := (t.fr[i]?).map (·.2)

/-- `getKey` (FrequencyTable.cpp:87-90). -/
def getKey (t : FT) (i : Nat) : Option UInt8 := (t.fr[i]?).map (·.1)

/-- The loop of `decrease` (FrequencyTable.cpp:100-105). -/
def decLoop (value : Nat) : Nat → List (UInt8 × Nat) → (UInt8 → Nat) →
    Option (Nat × List (UInt8 × Nat) × (UInt8 → Nat))
  | 0, fr, loc => some (0, fr, loc)
  | i + 1, fr, loc =>
    match fr[i]? with
    | none => none
    | some (k, f) =>
      if value < f then decLoop value i (fr.set (i + 1) (k, f)) (upd loc k (loc k + 1))
      else some (i + 1, fr, loc)

/-- `decrease` (FrequencyTable.cpp:92-110): result and new table. -/
def decrease (t : FT) (key : UInt8) (value : Nat) : Option (Bool × FT) :=
  match t.fr[t.loc key]? with
  | none => none
  | some (k, f) =>
    if f < value then some (false, t)
    else do
      let (i, fr, loc) ← decLoop (f - value) (t.loc key) t.fr t.loc
      return (true, { t with fr := fr.set i (k, f - value), loc := upd loc k i })

/-- The loop of `increase` (FrequencyTable.cpp:135-140).  `beyond` describes the memory after
the array, i.e. `m_frequencies[256].second`: `none` means that reading it is an error (this is
what the language says); `some x` that the word there happens to hold `x`.  Moving on to index
256 is an error in any case. -/
def incLoop (beyond : Option Nat) (last value : Nat) (i : Nat) (fr : List (UInt8 × Nat))
    (loc : UInt8 → Nat) : Option (Nat × List (UInt8 × Nat) × (UInt8 → Nat)) :=
  if i < last then
    match fr[i + 1]? with
    | none =>
      match beyond with
      | none => none
      | some x => if value > x then none else some (i, fr, loc)
    | some (k, f) =>
      if value > f then incLoop beyond last value (i + 1) (fr.set i (k, f)) (upd loc k (loc k - 1))
      else some (i, fr, loc)
  else some (i, fr, loc)
termination_by last - i

/-- `increase` (FrequencyTable.cpp:128-144). -/
def increase (beyond : Option Nat) (t : FT) (key : UInt8) (value : Nat) : Option FT :=
  match t.fr[t.loc key]? with
  | none => none
  | some (_, f) => do
    let value := value + f
    let (i, fr, loc) ← incLoop beyond t.last value (t.loc key) t.fr t.loc
    return { t with fr := fr.set i (key, value), loc := upd loc key i }

/-- `remove` (FrequencyTable.cpp:112-126).  Simplification: the `size_t` subtraction would wrap
for a key that has been removed before; the model then returns `none`. -/
def remove (beyond : Option Nat) (t : FT) (key : UInt8) : Option FT :=
  if t.last = 0 then none
  else
    match t.fr[t.last - 1]?, t.fr[t.loc key]? with
    | some (_, top), some (_, f) =>
      if top < f then none
      else do
        let t' ← increase beyond t key (top - f + 1)
        return { t' with last := t.last - 1 }
    | _, _ => none

/-! ## Lemmas -/

/-- The table represents the frequencies `F`. -/
structure Inv (F : UInt8 → Nat) (t : FT) : Prop where
  len : t.fr.length = 256
  cells : ∀ (j : Nat) (k : UInt8) (v : Nat), t.fr[j]? = some (k, v) → t.loc k = j ∧ F k = v
  keys : ∀ k, ∃ v, t.fr[t.loc k]? = some (k, v)
  sorted : ∀ (i j : Nat) (a b : UInt8 × Nat), i < j → t.fr[i]? = some a → t.fr[j]? = some b → a.2 ≤ b.2

/-- The array has a hole at `i`, where `key` used to be. -/
structure Hole (F : UInt8 → Nat) (key : UInt8) (i : Nat) (fr : List (UInt8 × Nat))
    (loc : UInt8 → Nat) : Prop where
  len : fr.length = 256
  lt : i < 256
  cells : ∀ (j : Nat) (k : UInt8) (v : Nat), j ≠ i → fr[j]? = some (k, v) → loc k = j ∧ F k = v ∧ k ≠ key
  keys : ∀ k, k ≠ key → loc k ≠ i ∧ ∃ v, fr[loc k]? = some (k, v)
  sorted : ∀ (j j' : Nat) (a b : UInt8 × Nat), j ≠ i → j' ≠ i → j < j' → fr[j]? = some a →
    fr[j']? = some b → a.2 ≤ b.2

theorem Inv.hole {F : UInt8 → Nat} {t : FT} (h : Inv F t) (key : UInt8) :
    Hole F key (t.loc key) t.fr t.loc := by
  obtain ⟨v, hv⟩ := h.keys key
  refine ⟨h.len, ?_, ?_, ?_, ?_⟩
  · obtain ⟨hlt, _⟩ := List.getElem?_eq_some_iff.mp hv
    rw [h.len] at hlt
    exact hlt
  · intro j k v hj hk
    obtain ⟨e1, e2⟩ := h.cells j k v hk
    refine ⟨e1, e2, ?_⟩
    rintro rfl
    exact hj e1.symm
  · intro k hk
    refine ⟨?_, h.keys k⟩
    intro hc
    obtain ⟨w, hw⟩ := h.keys k
    rw [hc, hv] at hw
    simp at hw
    exact hk hw.1.symm
  · intro j j' a b _ _ hlt ha hb
    exact h.sorted j j' a b hlt ha hb

theorem Hole.move {F : UInt8 → Nat} {key : UInt8} {i i' : Nat} {fr : List (UInt8 × Nat)}
    {loc : UInt8 → Nat} (h : Hole F key i fr loc) (hadj : i' = i + 1 ∨ i = i' + 1) {k : UInt8} {f : Nat}
    (hk : fr[i']? = some (k, f)) : Hole F key i' (fr.set i (k, f)) (upd loc k i) := by
  have hne : i ≠ i' := by omega
  obtain ⟨hl1, _⟩ := List.getElem?_eq_some_iff.mp hk
  have hi'lt : i' < 256 := by rw [h.len] at hl1; exact hl1
  obtain ⟨c1, c2, c3⟩ := h.cells i' k f (by omega) hk
  have hset : ∀ j, (fr.set i (k, f))[j]? = if j = i then some (k, f) else fr[j]? := by
    intro j
    by_cases hj : j = i
    · subst hj
      rw [List.getElem?_set_self (by rw [h.len]; exact h.lt)]
      simp
    · rw [List.getElem?_set_ne (fun hc => hj hc.symm)]
      simp [hj]
  refine ⟨by simpa using h.len, hi'lt, ?_, ?_, ?_⟩
  · intro j k' v hj hv
    rw [hset] at hv
    by_cases hji : j = i
    · rw [if_pos hji] at hv
      simp at hv
      obtain ⟨rfl, rfl⟩ := hv
      exact ⟨by simp [upd, hji], c2, c3⟩
    · rw [if_neg hji] at hv
      obtain ⟨d1, d2, d3⟩ := h.cells j k' v hji hv
      refine ⟨?_, d2, d3⟩
      rw [upd, if_neg]
      · exact d1
      · rintro rfl
        omega
  · intro k' hk'
    by_cases he : k' = k
    · subst he
      simp only [upd, if_true]
      refine ⟨hne, f, ?_⟩
      rw [hset, if_pos rfl]
    · obtain ⟨d1, v, d2⟩ := h.keys k' hk'
      simp only [upd, he, if_false]
      refine ⟨?_, v, ?_⟩
      · intro hc
        rw [hc, hk] at d2
        simp at d2
        exact he d2.1.symm
      · rw [hset, if_neg d1, d2]
  · intro j j' a b hj hj' hlt ha hb
    rw [hset] at ha hb
    by_cases hji : j = i
    · rw [if_pos hji] at ha
      rw [if_neg (by omega)] at hb
      have ha' : a = (k, f) := by simpa using ha.symm
      rw [ha']
      exact h.sorted i' j' (k, f) b (by omega) (by omega) (by omega) hk hb
    · rw [if_neg hji] at ha
      by_cases hji' : j' = i
      · rw [if_pos hji'] at hb
        have hb' : b = (k, f) := by simpa using hb.symm
        rw [hb']
        exact h.sorted j i' a (k, f) hji (by omega) (by omega) ha hk
      · rw [if_neg hji'] at hb
        exact h.sorted j j' a b hji hji' hlt ha hb

theorem Hole.fill {F : UInt8 → Nat} {key : UInt8} {i : Nat} {fr : List (UInt8 × Nat)}
    {loc : UInt8 → Nat} (h : Hole F key i fr loc) (nv last : Nat)
    (hlo : ∀ (j : Nat) (a : UInt8 × Nat), j < i → fr[j]? = some a → a.2 ≤ nv)
    (hhi : ∀ (j : Nat) (a : UInt8 × Nat), i < j → fr[j]? = some a → nv ≤ a.2) :
    Inv (upd F key nv) ⟨fr.set i (key, nv), upd loc key i, last⟩ := by
  have hset : ∀ j, (fr.set i (key, nv))[j]? = if j = i then some (key, nv) else fr[j]? := by
    intro j
    by_cases hj : j = i
    · subst hj
      rw [List.getElem?_set_self (by rw [h.len]; exact h.lt)]
      simp
    · rw [List.getElem?_set_ne (fun hc => hj hc.symm)]
      simp [hj]
  refine ⟨by simpa using h.len, ?_, ?_, ?_⟩
  · intro j k v hv
    simp only [hset] at hv
    by_cases hji : j = i
    · rw [if_pos hji] at hv
      simp at hv
      obtain ⟨rfl, rfl⟩ := hv
      simp [upd, hji]
    · rw [if_neg hji] at hv
      obtain ⟨d1, d2, d3⟩ := h.cells j k v hji hv
      simp [upd, d3, d1, d2]
  · intro k
    simp only [hset]
    by_cases hk : k = key
    · subst hk
      exact ⟨nv, by simp [upd]⟩
    · obtain ⟨d1, v, d2⟩ := h.keys k hk
      exact ⟨v, by simp [upd, hk, d1, d2]⟩
  · intro j j' a b hlt ha hb
    simp only [hset] at ha hb
    by_cases hji : j = i
    · rw [if_pos hji] at ha
      rw [if_neg (by omega)] at hb
      have ha' : a = (key, nv) := by simpa using ha.symm
      rw [ha']
      exact hhi j' b (by omega) hb
    · rw [if_neg hji] at ha
      by_cases hji' : j' = i
      · rw [if_pos hji'] at hb
        have hb' : b = (key, nv) := by simpa using hb.symm
        rw [hb']
        exact hlo j a (by omega) ha
      · rw [if_neg hji'] at hb
        exact h.sorted j j' a b hji hji' hlt ha hb

theorem getElem?_lt {α : Type} {l : List α} {i : Nat} (h : i < l.length) : ∃ a, l[i]? = some a :=
  ⟨l[i], List.getElem?_eq_getElem h⟩

theorem decLoop_spec {F : UInt8 → Nat} {key : UInt8} (nv : Nat) (i : Nat) {fr : List (UInt8 × Nat)}
    {loc : UInt8 → Nat} (h : Hole F key i fr loc)
    (hhi : ∀ (j : Nat) (a : UInt8 × Nat), i < j → fr[j]? = some a → nv ≤ a.2) :
    ∃ i' fr' loc', decLoop nv i fr loc = some (i', fr', loc') ∧ Hole F key i' fr' loc' ∧
      (∀ (j : Nat) (a : UInt8 × Nat), i' < j → fr'[j]? = some a → nv ≤ a.2) ∧
      (∀ (j : Nat) (a : UInt8 × Nat), j < i' → fr'[j]? = some a → a.2 ≤ nv) := by
  induction i generalizing fr loc with
  | zero => exact ⟨0, fr, loc, rfl, h, hhi, fun j a hj => by omega⟩
  | succ i ih =>
    have hlt := h.lt
    obtain ⟨⟨k, f⟩, hk⟩ := getElem?_lt (l := fr) (i := i) (by rw [h.len]; omega)
    rw [decLoop, hk]
    simp only
    obtain ⟨c1, c2, c3⟩ := h.cells i k f (by omega) hk
    split
    · rename_i hv
      have hm := h.move (Or.inr rfl) hk
      rw [c1]
      apply ih hm
      intro j a hj ha
      by_cases hji : j = i + 1
      · subst hji
        rw [List.getElem?_set_self (by rw [h.len]; exact hlt)] at ha
        have : a = (k, f) := by simpa using ha.symm
        rw [this]
        simp only
        omega
      · rw [List.getElem?_set_ne (by omega)] at ha
        exact hhi j a (by omega) ha
    · rename_i hv
      refine ⟨i + 1, fr, loc, rfl, h, hhi, ?_⟩
      intro j a hj ha
      by_cases hji : j = i
      · subst hji
        rw [hk] at ha
        have : a = (k, f) := by simpa using ha.symm
        rw [this]
        simp only
        omega
      · have := h.sorted j i a (k, f) (by omega) (by omega) (by omega) ha hk
        simp only at this
        omega

theorem decrease_spec {F : UInt8 → Nat} {t : FT} (h : Inv F t) (key : UInt8) (value : Nat) :
    ∃ t', decrease t key value = some (decide (value ≤ F key), t') ∧ t'.last = t.last ∧
      Inv (if value ≤ F key then upd F key (F key - value) else F) t' := by
  obtain ⟨v, hv⟩ := h.keys key
  obtain ⟨_, hF⟩ := h.cells _ _ _ hv
  unfold decrease
  rw [hv]
  simp only
  by_cases hc : v < value
  · rw [if_pos hc]
    refine ⟨t, ?_, rfl, ?_⟩
    · rw [hF]
      have : ¬ value ≤ v := by omega
      simp [this]
    · rw [if_neg (by omega)]
      exact h
  · rw [if_neg hc]
    obtain ⟨i', fr', loc', e1, e2, e3, e4⟩ := decLoop_spec (v - value) (t.loc key) (h.hole key) (by
      intro j a hj ha
      have := h.sorted _ _ _ _ hj hv ha
      simp only at this
      omega)
    rw [e1]
    refine ⟨⟨fr'.set i' (key, v - value), upd loc' key i', t.last⟩, ?_, rfl, ?_⟩
    · have : value ≤ F key := by omega
      simp [this]
    · rw [if_pos (by omega), hF]
      exact e2.fill (v - value) t.last e4 e3

theorem incLoop_spec {F : UInt8 → Nat} {key : UInt8} (beyond : Option Nat) (last nv : Nat) :
    ∀ (n i : Nat) (fr : List (UInt8 × Nat)) (loc : UInt8 → Nat), last - i = n → Hole F key i fr loc →
    (∀ (j : Nat) (a : UInt8 × Nat), j < i → fr[j]? = some a → a.2 ≤ nv) →
    ((∃ j a, i < j ∧ fr[j]? = some a ∧ nv ≤ a.2 ∧ j ≤ last) ∨
      (last = 256 ∧ ∃ x, beyond = some x ∧ nv ≤ x)) →
    ∃ i' fr' loc', incLoop beyond last nv i fr loc = some (i', fr', loc') ∧ Hole F key i' fr' loc' ∧
      (∀ (j : Nat) (a : UInt8 × Nat), i' < j → fr'[j]? = some a → nv ≤ a.2) ∧
      (∀ (j : Nat) (a : UInt8 × Nat), j < i' → fr'[j]? = some a → a.2 ≤ nv) ∧ i ≤ i' ∧
      (∀ j, j < i ∨ i' < j → fr'[j]? = fr[j]?) ∧ (∀ j, i ≤ j → j < i' → fr'[j]? = fr[j + 1]?) := by
  intro n
  induction n with
  | zero =>
    intro i fr loc hn h hlo hex
    have hlt := h.lt
    exfalso
    rcases hex with ⟨j, a, h1, _, _, h4⟩ | ⟨h1, _⟩ <;> omega
  | succ n ih =>
    intro i fr loc hn h hlo hex
    have hlt := h.lt
    unfold incLoop
    rw [if_pos (by omega)]
    by_cases hend : i + 1 < 256
    · obtain ⟨⟨k, f⟩, hk⟩ := getElem?_lt (l := fr) (i := i + 1) (by rw [h.len]; omega)
      rw [hk]
      simp only
      obtain ⟨c1, c2, c3⟩ := h.cells (i + 1) k f (by omega) hk
      have hset : ∀ j, (fr.set i (k, f))[j]? = if j = i then some (k, f) else fr[j]? := by
        intro j
        by_cases hj : j = i
        · subst hj
          rw [List.getElem?_set_self (by rw [h.len]; exact h.lt)]
          simp
        · rw [List.getElem?_set_ne (fun hc => hj hc.symm)]
          simp [hj]
      split
      · rename_i hv
        have hm := h.move (Or.inl rfl) hk
        rw [c1, Nat.add_sub_cancel]
        obtain ⟨i', fr', loc', f1, f2, f3, f4, f5, f6, f7⟩ := ih (i + 1) _ _ (by clear hex; omega) hm (by
          intro j a hj ha
          rw [hset] at ha
          by_cases hji : j = i
          · rw [if_pos hji] at ha
            have : a = (k, f) := by simpa using ha.symm
            rw [this]
            simp only
            omega
          · rw [if_neg hji] at ha
            exact hlo j a (by omega) ha) (by
          rcases hex with ⟨j, a, g1, g2, g3, g4⟩ | hex
          · left
            by_cases hj : j = i + 1
            · subst hj
              rw [hk] at g2
              have : a = (k, f) := by simpa using g2.symm
              rw [this] at g3
              simp only at g3
              omega
            · refine ⟨j, a, by omega, ?_, g3, g4⟩
              rw [hset, if_neg (by omega)]
              exact g2
          · exact Or.inr hex)
        refine ⟨i', fr', loc', f1, f2, f3, f4, by omega, ?_, ?_⟩
        · intro j hj
          rw [f6 j (by omega), hset, if_neg (by omega)]
        · intro j hj hj'
          by_cases hji : j = i
          · subst hji
            rw [f6 j (by omega), hset, if_pos rfl, hk]
          · rw [f7 j (by omega) hj', hset, if_neg (by omega)]
      · rename_i hv
        refine ⟨i, fr, loc, rfl, h, ?_, hlo, Nat.le_refl _, fun _ _ => rfl, fun j h1 h2 => by omega⟩
        intro j a hj ha
        by_cases hji : j = i + 1
        · subst hji
          rw [hk] at ha
          have : a = (k, f) := by simpa using ha.symm
          rw [this]
          simp only
          omega
        · have := h.sorted (i + 1) j (k, f) a (by omega) (by omega) (by omega) hk ha
          simp only at this
          omega
    · have hnone : fr[i + 1]? = none := List.getElem?_eq_none (by rw [h.len]; omega)
      have hnoj : ∀ (j : Nat) (a : UInt8 × Nat), i < j → fr[j]? = some a → False := by
        intro j a hj ha
        rw [List.getElem?_eq_none (by rw [h.len]; omega)] at ha
        simp at ha
      rw [hnone]
      rcases hex with ⟨j, a, g1, g2, _⟩ | ⟨_, x, g1, g2⟩
      · exact absurd g2 (fun hc => hnoj j a g1 hc)
      · rw [g1]
        simp only
        rw [if_neg (by omega)]
        exact ⟨i, fr, loc, rfl, h, fun j a hj ha => absurd ha (fun hc => hnoj j a hj hc), hlo,
          Nat.le_refl _, fun _ _ => rfl, fun j h1 h2 => by omega⟩

theorem increase_spec {F : UInt8 → Nat} {t : FT} (h : Inv F t) (beyond : Option Nat) (key : UInt8)
    (value : Nat)
    (hex : (∃ k, t.loc key < t.loc k ∧ t.loc k ≤ t.last ∧ F key + value ≤ F k) ∨
      (t.last = 256 ∧ ∃ x, beyond = some x ∧ F key + value ≤ x)) :
    ∃ t', increase beyond t key value = some t' ∧ t'.last = t.last ∧
      Inv (upd F key (F key + value)) t' ∧ t.loc key ≤ t'.loc key ∧
      (∀ j, j < t.loc key ∨ t'.loc key < j → t'.fr[j]? = t.fr[j]?) ∧
      (∀ j, t.loc key ≤ j → j < t'.loc key → t'.fr[j]? = t.fr[j + 1]?) := by
  obtain ⟨v, hv⟩ := h.keys key
  obtain ⟨_, hF⟩ := h.cells _ _ _ hv
  unfold increase
  rw [hv]
  simp only
  obtain ⟨i', fr', loc', e1, e2, e3, e4, e5, e6, e7⟩ := incLoop_spec (F := F) (key := key) beyond t.last
    (value + v) _ (t.loc key) t.fr t.loc rfl (h.hole key) (by
      intro j a hj ha
      have := h.sorted _ _ _ _ hj ha hv
      simp only at this
      omega) (by
      rcases hex with ⟨k, g1, g2, g3⟩ | ⟨g1, x, g2, g3⟩
      · left
        obtain ⟨w, hw⟩ := h.keys k
        obtain ⟨_, hFk⟩ := h.cells _ _ _ hw
        exact ⟨t.loc k, (k, w), g1, hw, by simp only; omega, g2⟩
      · right
        exact ⟨g1, x, g2, by omega⟩)
  rw [e1]
  refine ⟨⟨fr'.set i' (key, value + v), upd loc' key i', t.last⟩, rfl, rfl, ?_, ?_, ?_, ?_⟩
  · rw [show F key + value = value + v by omega]
    exact e2.fill (value + v) t.last e4 e3
  · simpa [upd] using e5
  · intro j hj
    simp only [upd, if_true] at hj ⊢
    rw [List.getElem?_set_ne (by omega), e6 j hj]
  · intro j h1 h2
    simp only [upd, if_true] at h2 ⊢
    rw [List.getElem?_set_ne (by omega), e7 j h1 h2]

theorem incLoop_none {F : UInt8 → Nat} {key : UInt8} (nv : Nat) :
    ∀ (n i : Nat) (fr : List (UInt8 × Nat)) (loc : UInt8 → Nat), 256 - i = n → Hole F key i fr loc →
    (∀ (j : Nat) (a : UInt8 × Nat), i < j → fr[j]? = some a → a.2 < nv) →
    incLoop none 256 nv i fr loc = none := by
  intro n
  induction n with
  | zero =>
    intro i fr loc hn h _
    have := h.lt
    omega
  | succ n ih =>
    intro i fr loc hn h hall
    have hlt := h.lt
    unfold incLoop
    rw [if_pos (by omega)]
    by_cases hend : i + 1 < 256
    · obtain ⟨⟨k, f⟩, hk⟩ := getElem?_lt (l := fr) (i := i + 1) (by rw [h.len]; omega)
      rw [hk]
      simp only
      obtain ⟨c1, c2, c3⟩ := h.cells (i + 1) k f (by omega) hk
      have := hall (i + 1) (k, f) (by omega) hk
      simp only at this
      rw [if_pos (by omega), c1, Nat.add_sub_cancel]
      apply ih (i + 1) _ _ (by omega) (h.move (Or.inl rfl) hk)
      intro j a hj ha
      rw [List.getElem?_set_ne (by omega)] at ha
      exact hall j a (by omega) ha
    · rw [List.getElem?_eq_none (by rw [h.len]; omega)]

/-- The first `remove` on a full table always reads past the end of the array. -/
theorem remove_none {F : UInt8 → Nat} {t : FT} (h : Inv F t) (hlast : t.last = 256) (key : UInt8) :
    remove none t key = none := by
  obtain ⟨v, hv⟩ := h.keys key
  obtain ⟨⟨kt, top⟩, ht⟩ := getElem?_lt (l := t.fr) (i := 255) (by rw [h.len]; omega)
  have hlt : t.loc key < 256 := by
    obtain ⟨hlt, _⟩ := List.getElem?_eq_some_iff.mp hv
    rw [h.len] at hlt
    exact hlt
  have htop : v ≤ top := by
    by_cases he : t.loc key = 255
    · rw [he, ht] at hv
      simp at hv
      omega
    · exact h.sorted _ _ _ _ (by omega) hv ht
  have hall : ∀ (j : Nat) (a : UInt8 × Nat), t.fr[j]? = some a → a.2 ≤ top := by
    intro j a ha
    have hj : j < 256 := by
      obtain ⟨hlt, _⟩ := List.getElem?_eq_some_iff.mp ha
      rw [h.len] at hlt
      exact hlt
    by_cases he : j = 255
    · rw [he, ht] at ha
      have : a = (kt, top) := by simpa using ha.symm
      rw [this]
      exact Nat.le_refl _
    · exact h.sorted _ _ _ _ (by omega) ha ht
  unfold remove
  rw [hlast]
  simp only [hv, ht]
  rw [if_neg (by omega), if_neg (by omega)]
  unfold increase
  rw [hv]
  simp only [hlast]
  rw [incLoop_none _ _ (t.loc key) t.fr t.loc rfl (h.hole key) (by
    intro j a _ ha
    have := hall j a ha
    omega)]
  rfl

/-! ### Initial tables -/

theorem initLoc_spec : ∀ (l : List (UInt8 × Nat)) (i : Nat) (loc : UInt8 → Nat),
    (l.map (·.1)).Nodup → ∀ (j : Nat) (k : UInt8) (v : Nat), l[j]? = some (k, v) →
      initLoc l i loc k = i + j := by
  have frame : ∀ (l : List (UInt8 × Nat)) (i : Nat) (loc : UInt8 → Nat) (k : UInt8),
      k ∉ l.map (·.1) → initLoc l i loc k = loc k := by
    intro l
    induction l with
    | nil => intro i loc k _; rfl
    | cons p l ih =>
      intro i loc k hk
      simp only [List.map_cons, List.mem_cons, not_or] at hk
      rw [initLoc, ih _ _ _ hk.2, upd, if_neg hk.1]
  intro l
  induction l with
  | nil => intro i loc _ j k v h; simp at h
  | cons p l ih =>
    intro i loc hnd j k v h
    simp only [List.map_cons, List.nodup_cons] at hnd
    cases j with
    | zero =>
      simp at h
      subst h
      rw [initLoc, frame _ _ _ _ hnd.1]
      simp [upd]
    | succ j =>
      rw [initLoc, ih (i + 1) _ hnd.2 j k v (by simpa using h)]
      omega

theorem unsorted_keys (F : UInt8 → Nat) : (unsorted F).map (·.1) = (List.range 256).map UInt8.ofNat := by
  simp [unsorted, Function.comp_def]

theorem ofNat_inj {a b : Nat} (ha : a < 256) (hb : b < 256) (h : UInt8.ofNat a = UInt8.ofNat b) : a = b := by
  have := congrArg UInt8.toNat h
  rw [UInt8.toNat_ofNat', UInt8.toNat_ofNat'] at this
  omega

theorem initial_inv {F : UInt8 → Nat} {t : FT} (h : Initial F t) : Inv F t := by
  obtain ⟨h1, h2, h3, h4⟩ := h
  have hnd : (t.fr.map (·.1)).Nodup := by
    rw [(h1.map (·.1)).nodup_iff, unsorted_keys]
    rw [List.nodup_iff_pairwise_ne, List.pairwise_map]
    have hp : (List.range 256).Pairwise (· < ·) := List.pairwise_lt_range
    refine List.Pairwise.imp_of_mem ?_ hp
    intro a b ha hb hab hc
    have := ofNat_inj (List.mem_range.mp ha) (List.mem_range.mp hb) hc
    omega
  have hmem : ∀ k v, (k, v) ∈ t.fr ↔ F k = v := by
    intro k v
    rw [h1.mem_iff, unsorted, List.mem_map]
    constructor
    · rintro ⟨i, hi, he⟩
      simp at he
      rw [← he.1]
      exact he.2
    · intro hF
      refine ⟨k.toNat, List.mem_range.mpr k.toNat_lt, ?_⟩
      have : UInt8.ofNat k.toNat = k := UInt8.ofNat_toNat
      rw [this, hF]
  have hloc := initLoc_spec t.fr 0 (fun _ => 0) hnd
  refine ⟨by rw [h1.length_eq]; simp [unsorted], ?_, ?_, ?_⟩
  · intro j k v hk
    refine ⟨?_, (hmem k v).mp (List.mem_of_getElem? hk)⟩
    rw [h3, hloc j k v hk]
    omega
  · intro k
    obtain ⟨j, hj⟩ := List.mem_iff_getElem?.mp ((hmem k (F k)).mpr rfl)
    refine ⟨F k, ?_⟩
    rw [h3, hloc j k _ hj, Nat.zero_add, hj]
  · intro i j a b hlt ha hb
    rw [List.pairwise_iff_getElem] at h2
    obtain ⟨hi, rfl⟩ := List.getElem?_eq_some_iff.mp ha
    obtain ⟨hj, rfl⟩ := List.getElem?_eq_some_iff.mp hb
    exact h2 i j hi hj hlt

/-! ### Removing several keys -/

/-- Removing the given keys one after another. -/
def removeAll (beyond : Option Nat) : FT → List UInt8 → Option FT
  | t, [] => some t
  | t, k :: ks => do
    let t ← remove beyond t k
    removeAll beyond t ks

/-- State after removing the keys `ks` from a table for `F`. -/
structure Removed (F : UInt8 → Nat) (x : Nat) (ks : List UInt8) (F' : UInt8 → Nat) (t : FT) : Prop where
  inv : Inv F' t
  last : t.last + ks.length = 256
  same : ∀ k, k ∉ ks → F' k = F k ∧ t.loc k < t.last
  gone : ∀ k, k ∈ ks → t.last ≤ t.loc k ∧ (∀ k', k' ∉ ks → F k' < F' k) ∧ F' k ≤ x

theorem Inv.loc_lt {F : UInt8 → Nat} {t : FT} (h : Inv F t) (k : UInt8) : t.loc k < 256 := by
  obtain ⟨v, hv⟩ := h.keys k
  obtain ⟨hlt, _⟩ := List.getElem?_eq_some_iff.mp hv
  rw [h.len] at hlt
  exact hlt

theorem Inv.at_loc {F : UInt8 → Nat} {t : FT} (h : Inv F t) (k : UInt8) :
    t.fr[t.loc k]? = some (k, F k) := by
  obtain ⟨v, hv⟩ := h.keys k
  rw [hv, (h.cells _ _ _ hv).2]

theorem Inv.loc_of {F : UInt8 → Nat} {t : FT} (h : Inv F t) {j : Nat} (hj : j < 256) :
    ∃ k, t.loc k = j := by
  obtain ⟨⟨k, v⟩, hk⟩ := getElem?_lt (l := t.fr) (i := j) (by rw [h.len]; exact hj)
  exact ⟨k, (h.cells _ _ _ hk).1⟩

theorem Inv.le_of_loc {F : UInt8 → Nat} {t : FT} (h : Inv F t) {k k' : UInt8}
    (hk : t.loc k ≤ t.loc k') : F k ≤ F k' := by
  by_cases he : t.loc k = t.loc k'
  · have h1 := h.at_loc k
    rw [he, h.at_loc k'] at h1
    simp at h1
    omega
  · exact h.sorted _ _ _ _ (by omega) (h.at_loc k) (h.at_loc k')

theorem remove_step {F : UInt8 → Nat} {x : Nat} {ks : List UInt8} {F' : UInt8 → Nat} {t : FT}
    (h : Removed F x ks F' t) (hx : ∀ k, F k < x) {y : Nat} (hxy : x ≤ y) (key : UInt8)
    (hkey : key ∉ ks) :
    ∃ t' F'', remove (some y) t key = some t' ∧ Removed F x (key :: ks) F'' t' := by
  have hlast := h.last
  obtain ⟨hkF, hkl⟩ := h.same key hkey
  have hl0 : 0 < t.last := by omega
  obtain ⟨kt, hkt⟩ := h.inv.loc_of (j := t.last - 1) (by omega)
  have hktn : kt ∉ ks := by
    intro hc
    have := (h.gone kt hc).1
    omega
  have hle : F' key ≤ F' kt := h.inv.le_of_loc (by omega)
  have htopF : F' kt = F kt := (h.same kt hktn).1
  have hxt := hx kt
  have hex : (∃ k, t.loc key < t.loc k ∧ t.loc k ≤ t.last ∧ F' key + (F' kt - F' key + 1) ≤ F' k) ∨
      (t.last = 256 ∧ ∃ z, some y = some z ∧ F' key + (F' kt - F' key + 1) ≤ z) := by
    by_cases hl : t.last = 256
    · exact Or.inr ⟨hl, y, rfl, by omega⟩
    · left
      obtain ⟨k, hk⟩ := h.inv.loc_of (j := t.last) (by omega)
      have hks : k ∈ ks := by
        apply Classical.byContradiction
        intro hc
        have := (h.same k hc).2
        omega
      refine ⟨k, by omega, by omega, ?_⟩
      have := (h.gone k hks).2.1 kt hktn
      omega
  obtain ⟨t', e1, e2, e3, e4, e5, e6⟩ := increase_spec h.inv (some y) key (F' kt - F' key + 1) hex
  clear hex
  have hloc' : t.last - 1 ≤ t'.loc key := by
    apply Classical.byContradiction
    intro hc
    have h1 := e5 (t.last - 1) (Or.inr (by omega))
    rw [← hkt, h.inv.at_loc kt] at h1
    have h2 := e3.sorted (t'.loc key) (t.loc kt) _ _ (by omega) (e3.at_loc key) h1
    simp only [upd, if_true] at h2
    omega
  have hmove : ∀ k, k ≠ key → (t.loc k < t.loc key → t'.loc k = t.loc k) ∧
      (t'.loc key < t.loc k → t'.loc k = t.loc k) ∧
      (t.loc key < t.loc k → t.loc k ≤ t'.loc key → t'.loc k = t.loc k - 1) := by
    intro k hk
    refine ⟨?_, ?_, ?_⟩
    · intro hlt
      have := e5 (t.loc k) (Or.inl hlt)
      rw [h.inv.at_loc k] at this
      exact (e3.cells _ _ _ this).1
    · intro hlt
      have := e5 (t.loc k) (Or.inr hlt)
      rw [h.inv.at_loc k] at this
      exact (e3.cells _ _ _ this).1
    · intro hlt hle'
      have := e6 (t.loc k - 1) (by omega) (by omega)
      rw [show t.loc k - 1 + 1 = t.loc k by omega, h.inv.at_loc k] at this
      exact (e3.cells _ _ _ this).1
  have hneq : ∀ k, k ≠ key → t.loc k ≠ t.loc key := by
    intro k hk hc
    have h1 := h.inv.at_loc k
    rw [hc, h.inv.at_loc key] at h1
    simp at h1
    exact hk h1.1.symm
  refine ⟨{ t' with last := t.last - 1 }, upd F' key (F' key + (F' kt - F' key + 1)), ?_, ?_⟩
  · unfold remove
    rw [if_neg (by omega)]
    have hkt' : t.fr[t.last - 1]? = some (kt, F' kt) := by rw [← hkt]; exact h.inv.at_loc kt
    simp only [hkt', h.inv.at_loc key]
    rw [if_neg (by omega), e1]
    rfl
  · refine ⟨⟨e3.len, e3.cells, e3.keys, e3.sorted⟩, by simp only [List.length_cons]; omega, ?_, ?_⟩
    · intro k hk
      simp only [List.mem_cons, not_or] at hk
      obtain ⟨hk1, hk2⟩ := hk
      obtain ⟨g1, g2⟩ := h.same k hk2
      refine ⟨by rw [upd, if_neg hk1, g1], ?_⟩
      simp only
      obtain ⟨m1, m2, m3⟩ := hmove k hk1
      have hne := hneq k hk1
      by_cases hlt : t.loc k < t.loc key
      · rw [m1 hlt]
        omega
      · rw [m3 (by omega) (by omega)]
        omega
    · intro k hk
      by_cases hke : k = key
      · subst hke
        refine ⟨hloc', ?_, ?_⟩
        · intro k' hk'
          simp only [List.mem_cons, not_or] at hk'
          obtain ⟨g1, g2⟩ := h.same k' hk'.2
          have : F' k' ≤ F' kt := h.inv.le_of_loc (by omega)
          simp only [upd, if_true]
          omega
        · simp only [upd, if_true]
          omega
      · have hkk : k ∈ ks := by
          rcases List.mem_cons.mp hk with h1 | h1
          · exact absurd h1 hke
          · exact h1
        obtain ⟨g1, g2, g3⟩ := h.gone k hkk
        obtain ⟨m1, m2, m3⟩ := hmove k hke
        refine ⟨?_, ?_, ?_⟩
        · simp only
          by_cases hlt : t'.loc key < t.loc k
          · rw [m2 hlt]
            omega
          · rw [m3 (by omega) (by omega)]
            omega
        · intro k' hk'
          simp only [List.mem_cons, not_or] at hk'
          rw [upd, if_neg hke]
          exact g2 k' hk'.2
        · rw [upd, if_neg hke]
          exact g3

theorem removeAll_spec {F : UInt8 → Nat} {x : Nat} (hx : ∀ k, F k < x) {y : Nat} (hxy : x ≤ y) :
    ∀ (ks done : List UInt8) (F' : UInt8 → Nat) (t : FT), Removed F x done F' t → (ks ++ done).Nodup →
      ∃ t' F'', removeAll (some y) t ks = some t' ∧ Removed F x (ks.reverse ++ done) F'' t' := by
  intro ks
  induction ks with
  | nil => intro done F' t h _; exact ⟨t, F', rfl, by simpa using h⟩
  | cons k ks ih =>
    intro done F' t h hnd
    rw [List.cons_append, List.nodup_cons] at hnd
    obtain ⟨hk, hnd⟩ := hnd
    obtain ⟨t1, F1, e1, e2⟩ := remove_step h hx hxy k (fun hc => hk (List.mem_append_right _ hc))
    obtain ⟨t2, F2, f1, f2⟩ := ih (k :: done) F1 t1 e2 (by
      rw [List.nodup_append] at hnd ⊢
      refine ⟨hnd.1, ?_, ?_⟩
      · rw [List.nodup_cons]
        exact ⟨fun hc => hk (List.mem_append_right _ hc), hnd.2.1⟩
      · intro a ha b hb
        rcases List.mem_cons.mp hb with rfl | hb
        · rintro rfl
          exact hk (List.mem_append_left _ ha)
        · exact hnd.2.2 a ha b hb)
    refine ⟨t2, F2, ?_, ?_⟩
    · rw [removeAll, e1]
      exact f1
    · simpa using f2

end Bwtc.FreqTable
