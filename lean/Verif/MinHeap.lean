import Verif.WaveCode

/-!
# `MinimumHeap` and `createHuffmanShape`

The binary heap of WaveletTree.hpp:1386-1438 and the construction of a Huffman shaped tree with it (WaveletTree.hpp:1496-1521).
The vector `m_nodes` is a list of pairs (value, weight); an access outside of the vector is `none`.
-/

set_option autoImplicit false

namespace Bwtc.MinHeap
open Wave

variable {α : Type}

/-- The loop of `insert` (WaveletTree.hpp:1398-1402): `index` is the free cell, `x` the new pair; `parent(n) = (n-1)/2`
(WaveletTree.hpp:1432).  The first argument bounds the number of rounds. -/
def up : Nat → List (α × Nat) → α × Nat → Nat → Option (List (α × Nat))
  | 0, _, _, _ => none
  | fuel + 1, h, x, index =>
    if 0 < index then
      match h[(index - 1) / 2]? with
      | none => none
      | some y => if y.2 > x.2 then up fuel (h.set index y) x ((index - 1) / 2) else some (h.set index x)
    else some (h.set 0 x)

/-- `insert(value, weight)` (WaveletTree.hpp:1395-1403).  The cell created by `resize` is always overwritten before it is read, it
holds the new pair already. -/
def insert (h : List (α × Nat)) (x : α × Nat) : Option (List (α × Nat)) := up (h.length + 1) (h ++ [x]) x h.length

/-- `std::swap(m_nodes[i], m_nodes[j])`. -/
def swap (h : List (α × Nat)) (i j : Nat) : Option (List (α × Nat)) :=
  match h[i]?, h[j]? with
  | some a, some b => some ((h.set i b).set j a)
  | _, _ => none

/-- `heapify(index)` (WaveletTree.hpp:1413-1427), with `left(n) = 2n+1`, `right(n) = 2n+2` (WaveletTree.hpp:1433-1434).  The first
argument bounds the depth of the recursion; `none` would mean that it is deeper. -/
def heapify : Nat → List (α × Nat) → Nat → Option (List (α × Nat))
  | 0, _, _ => none
  | fuel + 1, h, index =>
    if h.length > 2 * index + 2 then
      match h[index]?, h[2 * index + 1]?, h[2 * index + 2]? with
      | some x, some l, some r =>
        let smaller := if l.2 < r.2 then 2 * index + 1 else 2 * index + 2
        let s := if l.2 < r.2 then l.2 else r.2
        if s < x.2 then
          match swap h index smaller with
          | none => none
          | some h => heapify fuel h smaller
        else some h
      | _, _, _ => none
    else if h.length = 2 * index + 2 then
      match h[index]?, h[2 * index + 1]? with
      | some x, some l => if l.2 < x.2 then swap h index (2 * index + 1) else some h
      | _, _ => none
    else some h

/-- `deleteMin()` (WaveletTree.hpp:1405-1411): the pair returned and the remaining heap; on an empty heap the first access is
undefined. -/
def deleteMin (h : List (α × Nat)) : Option ((α × Nat) × List (α × Nat)) :=
  match h[0]?, h.getLast? with
  | some min, some back => (heapify h.length ((h.set 0 back).dropLast) 0).map fun h => (min, h)
  | _, _ => none

/-- The first loop of `createHuffmanShape` (WaveletTree.hpp:1500-1507): the frequencies from symbol `b` on. -/
def fill : Nat → List Nat → List (Sh × Nat) → Option (List (Sh × Nat))
  | _, [], h => some h
  | b, f :: fs, h =>
    if f ≠ 0 then
      match insert h (.leaf b, f) with
      | none => none
      | some h => fill (b + 1) fs h
    else fill (b + 1) fs h

/-- The last loop of `createHuffmanShape` and its result (WaveletTree.hpp:1513-1520), weights being `size_t`.  The first argument
bounds the number of rounds. -/
def merge : Nat → List (Sh × Nat) → Option Sh
  | 0, _ => none
  | fuel + 1, h =>
    if h.length > 1 then do
      let (p1, h) ← deleteMin h
      let (p2, h) ← deleteMin h
      let h ← insert h (.node none p2.1 p1.1, (p1.2 + p2.2) % 2 ^ 64)
      merge fuel h
    else (deleteMin h).map fun p => p.1.1

/-- `createHuffmanShape(runFreqs)` (WaveletTree.hpp:1496-1521); the table has 256 entries. -/
def createHuffmanShape (runFreqs : List Nat) : Option Sh := do
  let h ← fill 0 runFreqs []
  let h ← if h.length = 1 then do
      let (p, h) ← deleteMin h
      insert h (.node none p.1 .nil, 1)
    else some h
  merge (h.length + 1) h

/-! ## The heap -/

/-- The weight in a cell. -/
def key (h : List (α × Nat)) (i : Nat) : Nat := ((h[i]?).map (·.2)).getD 0

theorem key_of {h : List (α × Nat)} {i : Nat} {x : α × Nat} (e : h[i]? = some x) : key h i = x.2 := by
  simp [key, e]

theorem key_set_self {h : List (α × Nat)} {i : Nat} (x : α × Nat) (hi : i < h.length) : key (h.set i x) i = x.2 := by
  simp [key, hi]

theorem key_set_ne {h : List (α × Nat)} {i j : Nat} (x : α × Nat) (hij : i ≠ j) : key (h.set i x) j = key h j := by
  simp [key, List.getElem?_set_ne hij]

/-- No cell is lighter than its parent. -/
def IsHeap (h : List (α × Nat)) : Prop := ∀ j, 0 < j → j < h.length → key h ((j - 1) / 2) ≤ key h j

theorem IsHeap.root {h : List (α × Nat)} (hh : IsHeap h) : ∀ j, j < h.length → key h 0 ≤ key h j := by
  intro j
  induction j using Nat.strongRecOn with
  | _ j ih =>
    intro hj
    by_cases h0 : j = 0
    · rw [h0]; exact Nat.le_refl _
    · have h1 := hh j (by omega) hj
      have h2 := ih ((j - 1) / 2) (by omega) (by omega)
      omega

theorem perm_set_set {h : List (α × Nat)} {i j : Nat} {y : α × Nat} (x : α × Nat) (hi : i < h.length) (hij : j ≠ i)
    (hy : h[j]? = some y) : ((h.set i y).set j x).Perm (h.set i x) := by
  obtain ⟨hj, rfl⟩ := List.getElem?_eq_some_iff.mp hy
  have h1 := List.set_set_perm (as := h.set i x) (i := i) (j := j) (by simpa using hi) (by simpa using hj)
  simp only [List.getElem_set_self, List.set_set] at h1
  rw [List.getElem_set_ne (Ne.symm hij)] at h1
  exact h1

theorem up_spec (x : α × Nat) : ∀ (fuel i : Nat) (h : List (α × Nat)), i < fuel → i < h.length →
    (∀ j, 0 < j → j < h.length → j ≠ i → key (h.set i x) ((j - 1) / 2) ≤ key (h.set i x) j) →
    (∀ j, 0 < j → j < h.length → (j - 1) / 2 = i → 0 < i → key h ((i - 1) / 2) ≤ key h j) →
    ∃ h', up fuel h x i = some h' ∧ h'.Perm (h.set i x) ∧ IsHeap h' := by
  intro fuel
  induction fuel with
  | zero => intro i h hf; omega
  | succ fuel ih =>
    intro i h hf hi h1 h2
    rw [up]
    by_cases h0 : 0 < i
    · rw [if_pos h0]
      have hp : (i - 1) / 2 < h.length := by omega
      have hg := List.getElem?_eq_getElem hp
      rw [hg]
      simp only
      have hk := key_of hg
      generalize h[(i - 1) / 2] = y at hg hk ⊢
      by_cases hw : y.2 > x.2
      · rw [if_pos hw]
        have hpi : (i - 1) / 2 ≠ i := by omega
        have hself : key (h.set i y) i = y.2 := key_set_self y hi
        have hk1 : ∀ k, k ≠ i → k ≠ (i - 1) / 2 → key ((h.set i y).set ((i - 1) / 2) x) k = key h k := fun k a b => by
          rw [key_set_ne _ (Ne.symm b), key_set_ne _ (Ne.symm a)]
        have hk2 : key ((h.set i y).set ((i - 1) / 2) x) i = y.2 := by rw [key_set_ne _ hpi, hself]
        have hk3 : key ((h.set i y).set ((i - 1) / 2) x) ((i - 1) / 2) = x.2 := key_set_self _ (by simpa using hp)
        have hx : ∀ k, k ≠ i → key (h.set i x) k = key h k := fun k a => key_set_ne _ (Ne.symm a)
        have hxi : key (h.set i x) i = x.2 := key_set_self _ hi
        obtain ⟨h', e1, e2, e3⟩ := ih ((i - 1) / 2) (h.set i y) (by omega) (by simpa using hp)
          (by
            intro j hj0 hj hjp
            rw [List.length_set] at hj
            by_cases hji : j = i
            · rw [hji, hk3, hk2]; omega
            · have a1 := h1 j hj0 hj hji
              rw [hx j hji] at a1
              rw [hk1 j hji hjp]
              by_cases b1 : (j - 1) / 2 = i
              · rw [b1, hk2]
                have := h2 j hj0 hj b1 h0
                omega
              · by_cases b2 : (j - 1) / 2 = (i - 1) / 2
                · rw [b2, hk3]
                  rw [b2, hx _ hpi] at a1
                  omega
                · rw [hk1 _ b1 b2]
                  rw [hx _ b1] at a1
                  exact a1)
          (by
            intro j hj0 hj hjp hp0
            rw [List.length_set] at hj
            have b0 : ((i - 1) / 2 - 1) / 2 ≠ i := by omega
            rw [key_set_ne _ (Ne.symm b0)]
            have a1 := h1 ((i - 1) / 2) hp0 hp hpi
            rw [hx _ hpi, hx _ b0] at a1
            by_cases hji : j = i
            · rw [hji, hself]; omega
            · rw [key_set_ne _ (Ne.symm hji)]
              have a2 := h1 j hj0 hj hji
              rw [hx _ hji, hjp, hx _ hpi] at a2
              omega)
        exact ⟨h', e1, e2.trans (perm_set_set x hi hpi hg), e3⟩
      · rw [if_neg hw]
        refine ⟨_, rfl, List.Perm.refl _, ?_⟩
        intro j hj0 hj
        rw [List.length_set] at hj
        by_cases hji : j = i
        · rw [hji, key_set_self _ hi, key_set_ne _ (by omega), hk]
          omega
        · exact h1 j hj0 hj hji
    · rw [if_neg h0]
      have : i = 0 := by omega
      subst this
      refine ⟨_, rfl, List.Perm.refl _, ?_⟩
      intro j hj0 hj
      rw [List.length_set] at hj
      exact h1 j hj0 hj (by omega)

/-- `insert` adds the pair and keeps the heap. -/
theorem insert_spec {h : List (α × Nat)} (hh : IsHeap h) (x : α × Nat) :
    ∃ h', insert h x = some h' ∧ h'.Perm (x :: h) ∧ IsHeap h' := by
  have hset : (h ++ [x]).set h.length x = h ++ [x] := by simp
  obtain ⟨h', e1, e2, e3⟩ := up_spec x (h.length + 1) h.length (h ++ [x]) (by omega) (by simp)
    (by
      intro j hj0 hj hjl
      rw [hset]
      simp only [List.length_append, List.length_cons, List.length_nil] at hj
      have hk : ∀ k, k < h.length → key (h ++ [x]) k = key h k := fun k hk => by
        simp [key, List.getElem?_append_left hk]
      rw [hk j (by omega), hk _ (by omega)]
      exact hh j hj0 (by omega))
    (by
      intro j hj0 hj hp _
      simp only [List.length_append, List.length_cons, List.length_nil] at hj
      omega)
  rw [hset] at e2
  exact ⟨h', e1, e2.trans (List.perm_append_singleton x h), e3⟩

theorem swap_spec {h : List (α × Nat)} {i j : Nat} (hi : i < h.length) (hj : j < h.length) (hij : i ≠ j) :
    ∃ h', swap h i j = some h' ∧ h'.Perm h ∧ h'.length = h.length ∧ key h' i = key h j ∧ key h' j = key h i ∧
      ∀ k, k ≠ i → k ≠ j → key h' k = key h k := by
  rw [swap, List.getElem?_eq_getElem hi, List.getElem?_eq_getElem hj]
  refine ⟨_, rfl, List.set_set_perm hi hj, by simp, ?_, ?_, ?_⟩
  · rw [key_set_ne _ (Ne.symm hij), key_set_self _ hi, key_of (List.getElem?_eq_getElem hj)]
  · rw [key_set_self _ (by simpa using hj), key_of (List.getElem?_eq_getElem hi)]
  · intro k a b
    rw [key_set_ne _ (Ne.symm b), key_set_ne _ (Ne.symm a)]

theorem heapify_spec : ∀ (fuel : Nat) (h : List (α × Nat)) (i : Nat), h.length ≤ i + fuel → 0 < fuel →
    (∀ j, 0 < j → j < h.length → (j - 1) / 2 ≠ i → key h ((j - 1) / 2) ≤ key h j) →
    (∀ j, 0 < j → j < h.length → (j - 1) / 2 = i → 0 < i → key h ((i - 1) / 2) ≤ key h j) →
    ∃ h', heapify fuel h i = some h' ∧ h'.Perm h ∧ IsHeap h' := by
  intro fuel
  induction fuel with
  | zero => intro h i _ hf; omega
  | succ fuel ih =>
    intro h i hf _ h1 h2
    -- nothing to do when the children are not lighter
    have stay : (∀ j, 0 < j → j < h.length → (j - 1) / 2 = i → key h i ≤ key h j) → IsHeap h := by
      intro hs j hj0 hj
      by_cases hji : (j - 1) / 2 = i
      · rw [hji]; exact hs j hj0 hj hji
      · exact h1 j hj0 hj hji
    -- edges after an exchange with the lightest child
    have moved : ∀ (c : Nat) (h' : List (α × Nat)), (c - 1) / 2 = i → 0 < c → c < h.length → key h c < key h i →
        (∀ j, 0 < j → j < h.length → (j - 1) / 2 = i → key h c ≤ key h j) → h'.length = h.length → key h' i = key h c →
        key h' c = key h i → (∀ k, k ≠ i → k ≠ c → key h' k = key h k) →
        ∀ j, 0 < j → j < h'.length → (j - 1) / 2 ≠ c → key h' ((j - 1) / 2) ≤ key h' j := by
      intro c h' hc hc0 hcl hlt hmin hl a1 a2 a3 j hj0 hj hjc
      rw [hl] at hj
      by_cases b1 : (j - 1) / 2 = i
      · rw [b1, a1]
        by_cases b2 : j = c
        · rw [b2, a2]; omega
        · rw [a3 j (by omega) b2]
          exact hmin j hj0 hj b1
      · rw [a3 _ b1 hjc]
        have := h1 j hj0 hj b1
        by_cases b3 : j = i
        · rw [b3, a1]
          have h4 := h2 c hc0 hcl hc (by omega)
          exact h4
        · by_cases b4 : j = c
          · exact absurd hc (by rw [← b4]; exact b1)
          · rw [a3 j b3 b4]; exact this
    rw [heapify]
    by_cases c1 : h.length > 2 * i + 2
    · rw [if_pos c1]
      have gx := List.getElem?_eq_getElem (show i < h.length by omega)
      have gl := List.getElem?_eq_getElem (show 2 * i + 1 < h.length by omega)
      have gr := List.getElem?_eq_getElem (show 2 * i + 2 < h.length by omega)
      rw [gx, gl, gr]
      have kx := key_of gx
      have kl := key_of gl
      have kr := key_of gr
      simp only
      rw [← kx, ← kl, ← kr]
      obtain ⟨c, hcdef⟩ : ∃ c, (if key h (2 * i + 1) < key h (2 * i + 2) then 2 * i + 1 else 2 * i + 2) = c := ⟨_, rfl⟩
      have hcase : (c = 2 * i + 1 ∨ c = 2 * i + 2) ∧ key h c ≤ key h (2 * i + 1) ∧ key h c ≤ key h (2 * i + 2) ∧
          (if key h (2 * i + 1) < key h (2 * i + 2) then key h (2 * i + 1) else key h (2 * i + 2)) = key h c := by
        rw [← hcdef]
        split
        · exact ⟨Or.inl rfl, by omega, by omega, rfl⟩
        · exact ⟨Or.inr rfl, by omega, by omega, rfl⟩
      obtain ⟨d1, d2, d3, d4⟩ := hcase
      rw [hcdef, d4]
      have hmin : ∀ j, 0 < j → j < h.length → (j - 1) / 2 = i → key h c ≤ key h j := by
        intro j hj0 hj hji
        have : j = 2 * i + 1 ∨ j = 2 * i + 2 := by omega
        rcases this with rfl | rfl
        · exact d2
        · exact d3
      by_cases c2 : key h c < key h i
      · rw [if_pos c2]
        have hcl : c < h.length := by omega
        obtain ⟨h', e1, e2, e3, e4, e5, e6⟩ := swap_spec (show i < h.length by omega) hcl (by omega)
        rw [e1]
        simp only
        have hcp : (c - 1) / 2 = i := by omega
        obtain ⟨h'', f1, f2, f3⟩ := ih h' c (by omega) (by omega)
          (moved c h' hcp (by omega) hcl c2 hmin e3 e4 e5 e6)
          (by
            intro j hj0 hj hjc _
            rw [e3] at hj
            rw [hcp, e4, e6 j (by omega) (by omega)]
            have := h1 j hj0 hj (by omega)
            rwa [hjc] at this)
        exact ⟨h'', f1, f2.trans e2, f3⟩
      · rw [if_neg c2]
        exact ⟨h, rfl, List.Perm.refl _, stay fun j a b d => Nat.le_trans (by omega) (hmin j a b d)⟩
    · rw [if_neg c1]
      by_cases c2 : h.length = 2 * i + 2
      · rw [if_pos c2]
        have gx := List.getElem?_eq_getElem (show i < h.length by omega)
        have gl := List.getElem?_eq_getElem (show 2 * i + 1 < h.length by omega)
        rw [gx, gl]
        have kx := key_of gx
        have kl := key_of gl
        simp only
        rw [← kx, ← kl]
        have hmin : ∀ j, 0 < j → j < h.length → (j - 1) / 2 = i → key h (2 * i + 1) ≤ key h j := by
          intro j hj0 hj hji
          have : j = 2 * i + 1 := by omega
          rw [this]
          exact Nat.le_refl _
        by_cases c3 : key h (2 * i + 1) < key h i
        · rw [if_pos c3]
          obtain ⟨h', e1, e2, e3, e4, e5, e6⟩ := swap_spec (show i < h.length by omega) (show 2 * i + 1 < h.length by omega) (by omega)
          refine ⟨h', e1, e2, ?_⟩
          intro j hj0 hj
          have hm := moved (2 * i + 1) h' (by omega) (by omega) (by omega) c3 hmin e3 e4 e5 e6 j hj0 hj
          exact hm (by omega)
        · rw [if_neg c3]
          exact ⟨h, rfl, List.Perm.refl _, stay fun j a b d => Nat.le_trans (by omega) (hmin j a b d)⟩
      · rw [if_neg c2]
        exact ⟨h, rfl, List.Perm.refl _, stay fun j a b d => by omega⟩

/-- `deleteMin` on a non-empty heap returns a pair of the least weight and keeps the others. -/
theorem deleteMin_spec {h : List (α × Nat)} (hh : IsHeap h) (hne : h ≠ []) :
    ∃ x h', deleteMin h = some (x, h') ∧ h.Perm (x :: h') ∧ (∀ y ∈ h', x.2 ≤ y.2) ∧ IsHeap h' := by
  have hl : 0 < h.length := List.length_pos_iff.mpr hne
  have g0 := List.getElem?_eq_getElem hl
  have gl : h.getLast? = some (h.getLast hne) := List.getLast?_eq_some_getLast hne
  rw [deleteMin, g0, gl]
  simp only
  have hm : ∀ j, j < h.length → h[0].2 ≤ key h j := fun j hj => by
    have := hh.root j hj
    rwa [key_of g0] at this
  generalize hb : h.getLast hne = back
  have hperm : h.Perm (h[0] :: (h.set 0 back).dropLast) := by
    cases h with
    | nil => simp at hl
    | cons a t =>
      by_cases ht' : t = []
      · subst ht'; simp
      · simp only [List.getElem_cons_zero, List.set_cons_zero]
        rw [List.dropLast_cons_of_ne_nil ht']
        refine List.Perm.cons a ?_
        have e := List.dropLast_concat_getLast ht'
        have hb' : t.getLast ht' = back := by rw [← hb, List.getLast_cons ht']
        rw [hb'] at e
        have h1 := List.perm_append_singleton back t.dropLast
        rw [e] at h1
        exact h1
  have hlen : (h.set 0 back).dropLast.length = h.length - 1 := by simp
  have hkey : ∀ j, 0 < j → j < h.length - 1 → key ((h.set 0 back).dropLast) j = key h j := by
    intro j hj0 hj
    have : ((h.set 0 back).dropLast)[j]? = h[j]? := by
      rw [List.getElem?_dropLast, if_pos (by simpa using hj), List.getElem?_set_ne (by omega)]
    simp [key, this]
  obtain ⟨h', e1, e2, e3⟩ := heapify_spec h.length ((h.set 0 back).dropLast) 0 (by omega) hl
    (by
      intro j hj0 hj hp
      rw [hlen] at hj
      rw [hkey j hj0 hj, hkey _ (by omega) (by omega)]
      exact hh j hj0 (by omega))
    (by intro j _ _ _ h0; omega)
  rw [e1]
  refine ⟨h[0], h', rfl, hperm.trans (e2.symm.cons _), ?_, e3⟩
  intro y hy
  have : y ∈ h := hperm.symm.mem_iff.mp (List.mem_cons_of_mem _ (e2.mem_iff.mp hy))
  obtain ⟨j, hj, rfl⟩ := List.mem_iff_getElem.mp this
  have := hm j hj
  rwa [key_of (List.getElem?_eq_getElem hj)] at this

theorem isHeap_nil : IsHeap ([] : List (α × Nat)) := by
  intro j _ hj
  simp at hj

end Bwtc.MinHeap
