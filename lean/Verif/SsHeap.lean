import Verif.SsPart

/-!
# `ss_heapsort` sorts by one character
-/

set_option autoImplicit false

namespace Bwtc.Ss
open Sais (put inv put_spec inv_inv bind_some' loopDown loopDown_spec)
open Divsuf (getI dec sub)
open Suffix

variable {T : List Nat} {P : Nat → Nat} {m pa : Nat} {W : List Nat}

/-- `k` is one of the two children of `j`. -/
def Child (k j : Nat) : Prop := k = 2 * j + 1 ∨ k = 2 * j + 2

/-- The nodes from `lo` on are not below their children, in a tree of `n` nodes. -/
def HeapFrom (lo n : Nat) (f : Nat → Nat) : Prop := ∀ j k, lo ≤ j → Child k j → k < n → f k ≤ f j

theorem HeapFrom.congr {lo n : Nat} {f g : Nat → Nat} (h : HeapFrom lo n f) (hfg : ∀ j, j < n → f j = g j) : HeapFrom lo n g := by
  intro j k h1 h2 h3
  have : j < n := by unfold Child at h2; omega
  rw [← hfg j this, ← hfg k h3]
  exact h j k h1 h2 h3

theorem HeapFrom.max {n : Nat} {f : Nat → Nat} (h : HeapFrom 0 n f) : ∀ (j : Nat), j < n → f j ≤ f 0 := by
  intro j
  induction j using Nat.strongRecOn with
  | _ j ih =>
    intro hj
    by_cases h0 : j = 0
    · rw [h0]; exact Nat.le_refl _
    · have h1 := h ((j - 1) / 2) j (Nat.zero_le _) (by unfold Child; omega) hj
      have h2 := ih ((j - 1) / 2) (by omega) (by omega)
      omega

theorem mov_swap {sa sa' : List Int} {i j a b : Nat} (hi : a ≤ i) (hi' : i < b) (hj : a ≤ j) (hj' : j < b) (h1 : sa'.length = sa.length)
    (h2 : cel sa' i = cel sa j) (h3 : cel sa' j = cel sa i) (h4 : ∀ r, r ≠ i → r ≠ j → cel sa' r = cel sa r) : Mov a b sa sa' := by
  refine ⟨⟨h1, fun r hr => h4 r (by omega) (by omega), perm_swap hi hi' hj hj' h2 h3 (fun r h5 h6 _ _ => h4 r h5 h6)⟩, ?_⟩
  intro h0 r hr1 hr2
  by_cases h5 : r = i
  · rw [h5, h2]; exact h0 j hj hj'
  · by_cases h6 : r = j
    · rw [h6, h3]; exact h0 i hi hi'
    · rw [h4 r h5 h6]; exact h0 r hr1 hr2

/-- The character of the cell `i` of the heap. -/
def hk (T : List Nat) (P : Nat → Nat) (W : List Nat) (base : Nat) (sa : List Int) (i : Nat) : Nat := kc T P W (dec (cel sa (base + i)))

theorem fixLoop_spec {base N size lo : Nat} {v : Int} (hsN : size ≤ N) : ∀ (n : Nat) (sa : List Int) (i : Nat), size - i ≤ n →
    lo ≤ i → i < size → base + size ≤ sa.length → Grp T P m pa W base (base + N) (sa.set (base + i) v) →
    (size % 2 = 1 ∨ (size < N ∧ hk T P W base (sa.set (base + i) v) size = kc T P W (dec v))) →
    (∀ j k, lo ≤ j → j ≠ i → Child k j → k < size → hk T P W base (sa.set (base + i) v) k ≤ hk T P W base (sa.set (base + i) v) j) →
    (∀ p k, lo ≤ p → Child i p → Child k i → k < size → hk T P W base (sa.set (base + i) v) k ≤ hk T P W base (sa.set (base + i) v) p) →
    ∃ sa', fixLoop T pa W.length base size v (kc T P W (dec v)) sa i = some sa' ∧ Mov base (base + size) (sa.set (base + i) v) sa' ∧
      HeapFrom lo size (hk T P W base sa') := by
  intro n
  induction n with
  | zero => intro sa i h1 h2 h3; omega
  | succ n ih =>
    intro sa i h1 h2 h3 hl hG hsz hA hB
    have hbelow := hG.below
    have henv : Env T P m pa sa := hG.env.frame (by rw [List.length_set]) (fun r hr => by rw [cel_set_ne _ (by omega)])
    have hroom : base + N ≤ sa.length := by have := hG.room; rwa [List.length_set] at this
    have hne : ∀ r, r ≠ i → cel (sa.set (base + i) v) (base + r) = cel sa (base + r) := fun r hr => cel_set_ne _ (by omega)
    have hvi : hk T P W base (sa.set (base + i) v) i = kc T P W (dec v) := by unfold hk; rw [cel_set_self (by omega)]
    have htd : ∀ r, r < N → r ≠ i → tdAt T sa pa W.length (cel sa (base + r)) = some (hk T P W base (sa.set (base + i) v) r) := by
      intro r hr hri
      have h4 := hG.pos (base + r) (by omega) (by omega)
      have h5 := hG.good (base + r) (by omega) (by omega)
      unfold hk
      rw [hne r hri] at h4 h5 ⊢
      exact henv.td' h4 h5
    rw [fixLoop]
    generalize hc : kc T P W (dec v) = c at hvi hsz ⊢
    have hstop : (∀ k, Child k i → k < size → hk T P W base (sa.set (base + i) v) k ≤ c) →
        HeapFrom lo size (hk T P W base (sa.set (base + i) v)) := by
      intro h j k h4 h5 h6
      by_cases hj : j = i
      · subst hj; rw [hvi]; exact h k h5 h6
      · exact hA j k h4 hj h5 h6
    by_cases hj : 2 * i + 1 < size
    · simp only
      rw [if_pos hj, bind_some' (get_cel (by omega)), bind_some' (htd (2 * i + 1) (by omega) (by omega)),
        show base + (2 * i + 1) + 1 = base + (2 * i + 2) by omega, bind_some' (get_cel (by omega)), bind_some' (htd (2 * i + 2) (by omega) (by omega))]
      generalize hd : hk T P W base (sa.set (base + i) v) (2 * i + 1) = d
      generalize he : hk T P W base (sa.set (base + i) v) (2 * i + 2) = e
      have hlast : 2 * i + 2 = size → e = c := by
        intro h
        rcases hsz with h4 | h4
        · omega
        · rw [← he, h]; exact h4.2
      by_cases hstp : (if d < e then e else d) ≤ c
      · rw [if_pos hstp]
        refine ⟨_, put_spec (by omega) _, Mov.refl _ _ _, hstop ?_⟩
        intro k h4 h5
        rcases h4 with h4 | h4
        · rw [h4, hd]; by_cases hde : d < e
          · rw [if_pos hde] at hstp; omega
          · rw [if_neg hde] at hstp; omega
        · rw [h4, he]; by_cases hde : d < e
          · rw [if_pos hde] at hstp; omega
          · rw [if_neg hde] at hstp; omega
      · rw [if_neg hstp]
        have hk0 : ∃ k, (if d < e then 2 * i + 1 + 1 else 2 * i + 1) = k ∧ Child k i ∧ k < size ∧ c < hk T P W base (sa.set (base + i) v) k ∧
            ∀ k', Child k' i → k' < size → hk T P W base (sa.set (base + i) v) k' ≤ hk T P W base (sa.set (base + i) v) k := by
          by_cases hde : d < e
          · rw [if_pos hde] at hstp
            refine ⟨2 * i + 2, by rw [if_pos hde], Or.inr rfl, ?_, by rw [he]; omega, ?_⟩
            · have := hlast; omega
            · intro k' h4 h5
              rcases h4 with h4 | h4
              · rw [h4, hd, he]; omega
              · rw [h4]; exact Nat.le_refl _
          · rw [if_neg hde] at hstp
            refine ⟨2 * i + 1, by rw [if_neg hde], Or.inl rfl, hj, by rw [hd]; omega, ?_⟩
            intro k' h4 h5
            rcases h4 with h4 | h4
            · rw [h4]; exact Nat.le_refl _
            · rw [h4, hd, he]; omega
        obtain ⟨k, hke, hki, hks, hkc, hkm⟩ := hk0
        rw [hke]
        have hik : i < k := by unfold Child at hki; omega
        rw [bind_some' (get_cel (by omega)), bind_some' (put_spec (by omega) _), ← hc]
        have hset : ∀ r, cel ((sa.set (base + i) (cel sa (base + k))).set (base + k) v) r =
            if r = base + k then v else if r = base + i then cel sa (base + k) else cel sa r := by
          intro r
          rw [cel_set (by rw [List.length_set]; omega), cel_set (by omega)]
        have hmov : Mov base (base + size) (sa.set (base + i) v) ((sa.set (base + i) (cel sa (base + k))).set (base + k) v) := by
          refine mov_swap (i := base + i) (j := base + k) (by omega) (by omega) (by omega) (by omega) (by simp) ?_ ?_ ?_
          · rw [hset, if_neg (by omega), if_pos rfl, hne k (by omega)]
          · rw [hset, if_pos rfl, cel_set_self (by omega)]
          · intro r h4 h5
            rw [hset, if_neg h5, if_neg h4, cel_set_ne _ h4]
        have hki' : hk T P W base ((sa.set (base + i) (cel sa (base + k))).set (base + k) v) i = hk T P W base (sa.set (base + i) v) k := by
          unfold hk; rw [hset, if_neg (by omega), if_pos rfl, hne k (by omega)]
        have hkk : hk T P W base ((sa.set (base + i) (cel sa (base + k))).set (base + k) v) k = c := by
          unfold hk; rw [hset, if_pos rfl, hc]
        have hkr : ∀ r, r ≠ i → r ≠ k → hk T P W base ((sa.set (base + i) (cel sa (base + k))).set (base + k) v) r = hk T P W base (sa.set (base + i) v) r := by
          intro r h4 h5
          unfold hk; rw [hset, if_neg (by omega), if_neg (by omega), hne r h4]
        obtain ⟨sa', e1, e2, e3⟩ := ih (sa.set (base + i) (cel sa (base + k))) k (by omega) (by omega) hks (by rw [List.length_set]; omega)
          (hG.mov (hmov.extend (Nat.le_refl _) (by omega) (by omega)))
          (by
            rcases hsz with h4 | ⟨h4, h5⟩
            · exact Or.inl h4
            · right; refine ⟨h4, ?_⟩
              rw [hkr size (by omega) (by omega), h5, hc])
          (by
            intro j x h4 h5 h6 h7
            by_cases hji : j = i
            · subst hji
              rw [hki']
              by_cases hxk : x = k
              · rw [hxk, hkk]; omega
              · rw [hkr x (by unfold Child at h6; omega) hxk]; exact hkm x h6 h7
            · rw [hkr j hji h5]
              by_cases hxi : x = i
              · rw [hxi, hki']; rw [hxi] at h6; exact hB j k h4 h6 hki hks
              · have hxk : x ≠ k := by unfold Child at h6 hki; omega
                rw [hkr x hxi hxk]; exact hA j x h4 hji h6 h7)
          (by
            intro p x h4 h5 h6 h7
            have hp : p = i := by unfold Child at h5 hki; omega
            subst hp
            rw [hki', hkr x (by unfold Child at h6; omega) (by unfold Child at h6; omega)]
            exact hA k x (by omega) (by omega) h6 h7)
        exact ⟨sa', e1, hmov.trans e2, e3⟩
    · simp only
      rw [if_neg hj]
      refine ⟨_, put_spec (by omega) _, Mov.refl _ _ _, hstop ?_⟩
      intro k h4 h5
      unfold Child at h4; omega

theorem set_cel {sa : List Int} {i : Nat} (h : i < sa.length) : sa.set i (cel sa i) = sa := by
  refine ext_cel (by rw [List.length_set]) (fun r _ => ?_)
  rw [cel_set h]
  by_cases hr : r = i
  · rw [if_pos hr, hr]
  · rw [if_neg hr]

theorem fixdown_spec {base N size i : Nat} {sa : List Int} (hsN : size ≤ N) (hi : i < size) (hG : Grp T P m pa W base (base + N) sa)
    (hsz : size % 2 = 1 ∨ (size < N ∧ hk T P W base sa size = hk T P W base sa i)) (hh : HeapFrom (i + 1) size (hk T P W base sa)) :
    ∃ sa', fixdown T pa W.length base size sa i = some sa' ∧ Mov base (base + size) sa sa' ∧ HeapFrom i size (hk T P W base sa') := by
  have hroom := hG.room
  unfold fixdown
  rw [bind_some' (get_cel (by omega)), bind_some' (hG.env.td' (hG.pos _ (by omega) (by omega)) (hG.good _ (by omega) (by omega)))]
  have hs : sa.set (base + i) (cel sa (base + i)) = sa := set_cel (by omega)
  have := fixLoop_spec (T := T) (P := P) (m := m) (pa := pa) (W := W) (base := base) (N := N) (size := size) (lo := i) (v := cel sa (base + i)) hsN _ sa i
    (Nat.le_refl _) (Nat.le_refl _) hi (by omega) (by rw [hs]; exact hG) (by rw [hs]; exact hsz)
    (by rw [hs]; intro j k h1 h2 h3 h4; exact hh j k (by omega) h3 h4)
    (by intro p k h1 h2; unfold Child at h2; omega)
  rwa [hs] at this

theorem heapOne_spec {base N i : Nat} {sa : List Int} (hi : 1 ≤ i) (hiN : i < N) (hG : Grp T P m pa W base (base + N) sa)
    (hh : HeapFrom 0 (i + 1) (hk T P W base sa)) :
    ∃ sa', heapOne T pa W.length base sa i = some sa' ∧ Mov base (base + (i + 1)) sa sa' ∧ HeapFrom 0 i (hk T P W base sa') ∧
      hk T P W base sa' i = hk T P W base sa 0 := by
  have hroom := hG.room
  have hbelow := hG.below
  unfold heapOne
  rw [bind_some' (get_cel (by omega)), bind_some' (get_cel (by omega)), bind_some' (put_spec (by omega) _)]
  have h1 : ∀ r, cel (sa.set base (cel sa (base + i))) r = if r = base then cel sa (base + i) else cel sa r := fun r => by rw [cel_set (by omega)]
  have hG1 : Grp T P m pa W base (base + N) (sa.set base (cel sa (base + i))) := by
    refine ⟨hG.env.frame (by rw [List.length_set]) (fun r hr => cel_set_ne _ (by omega)), hbelow, by rw [List.length_set]; exact hroom, ?_, ?_⟩
    · intro r hr1 hr2
      rw [h1]
      by_cases hr : r = base
      · rw [if_pos hr]; exact hG.pos _ (by omega) (by omega)
      · rw [if_neg hr]; exact hG.pos _ hr1 hr2
    · intro r hr1 hr2
      rw [h1]
      by_cases hr : r = base
      · rw [if_pos hr]; exact hG.good _ (by omega) (by omega)
      · rw [if_neg hr]; exact hG.good _ hr1 hr2
  have hk1 : ∀ r, r ≠ 0 → hk T P W base (sa.set base (cel sa (base + i))) r = hk T P W base sa r := by
    intro r hr; unfold hk; rw [h1, if_neg (by omega)]
  obtain ⟨sa2, e2, h2, h3⟩ := fixdown_spec (i := 0) (size := i) (by omega) (by omega) hG1
    (Or.inr ⟨hiN, by rw [hk1 i (by omega)]; unfold hk; rw [h1, if_pos (by omega)]⟩)
    (by intro j k h4 h5 h6; rw [hk1 j (by omega), hk1 k (by unfold Child at h5; omega)]; exact hh j k (Nat.zero_le _) h5 (by omega))
  have hl2 := h2.res.len
  rw [List.length_set] at hl2
  rw [bind_some' e2]
  have h4 : ∀ r, cel (sa2.set (base + i) (cel sa base)) r = if r = base + i then cel sa base else cel sa2 r := fun r => by rw [cel_set (by omega)]
  refine ⟨_, put_spec (by omega) _, ?_, ?_, ?_⟩
  · have h5 : ∀ r, cel ((sa.set base (cel sa (base + i))).set (base + i) (cel sa base)) r =
        if r = base + i then cel sa base else if r = base then cel sa (base + i) else cel sa r := fun r => by
      rw [cel_set (by rw [List.length_set]; omega), h1]
    refine Mov.trans (sa' := (sa.set base (cel sa (base + i))).set (base + i) (cel sa base)) ?_ (Mov.extend (a := base) (b := base + i) ?_ (Nat.le_refl _) (by omega) (by omega))
    · refine mov_swap (i := base) (j := base + i) (by omega) (by omega) (by omega) (by omega) (by simp) ?_ ?_ ?_
      · rw [h5, if_neg (by omega), if_pos rfl]
      · rw [h5, if_pos rfl]
      · intro r h6 h7
        rw [h5, if_neg h7, if_neg h6]
    · refine ⟨⟨by rw [List.length_set, List.length_set, List.length_set, hl2], ?_, ?_⟩, ?_⟩
      · intro r hr
        rw [h4, h5]
        by_cases hri : r = base + i
        · rw [if_pos hri, if_pos hri]
        · rw [if_neg hri, if_neg hri, h2.res.frame r hr, h1]
      · refine Perm.trans (Perm.congr (g := cel (sa.set base (cel sa (base + i)))) (fun r hr1 hr2 => by rw [h5, if_neg (by omega), h1])) (h2.res.perm.trans (Perm.congr (fun r hr1 hr2 => by rw [h4, if_neg (by omega)])))
      · intro h0 r hr1 hr2
        rw [h4, if_neg (by omega)]
        refine h2.pos (fun x hx1 hx2 => ?_) r hr1 hr2
        have := h0 x hx1 hx2
        rw [h5, if_neg (by omega)] at this
        rw [h1]; exact this
  · refine h3.congr (fun j hj => ?_)
    unfold hk; rw [h4, if_neg (by omega)]
  · unfold hk; rw [h4, if_pos rfl]; rfl

/-- The cells from `base` on are in the order of the characters after `W`. -/
def ByChar (T : List Nat) (P : Nat → Nat) (W : List Nat) (first last : Nat) (sa : List Int) : Prop :=
  ∀ r, first ≤ r → r + 1 < last → kc T P W (dec (cel sa r)) ≤ kc T P W (dec (cel sa (r + 1)))

theorem heapsort_spec {base N : Nat} {sa : List Int} (hN : 2 ≤ N) (hG : Grp T P m pa W base (base + N) sa) :
    ∃ sa', heapsort T pa W.length base N sa = some sa' ∧ Mov base (base + N) sa sa' ∧ ByChar T P W base (base + N) sa' := by
  have hroom := hG.room
  unfold heapsort
  have hev : ∃ M sa1, heapEven T pa W.length base N sa = some (M, sa1) ∧ Mov base (base + N) sa sa1 ∧ M % 2 = 1 ∧ 1 ≤ M ∧
      ((N % 2 = 0 ∧ N = M + 1 ∧ hk T P W base sa1 M ≤ hk T P W base sa1 (M / 2)) ∨ (N % 2 = 1 ∧ N = M)) := by
    unfold heapEven
    by_cases hp : N % 2 = 0
    · have htd : ∀ r, r < N → tdAt T sa pa W.length (cel sa (base + r)) = some (hk T P W base sa r) := fun r hr =>
        hG.env.td' (hG.pos _ (by omega) (by omega)) (hG.good _ (by omega) (by omega))
      rw [if_pos hp, if_neg (by omega), bind_some' (get_cel (by omega)), bind_some' (htd _ (by omega)), bind_some' (get_cel (by omega)), bind_some' (htd _ (by omega))]
      by_cases hcd : hk T P W base sa ((N - 1) / 2) < hk T P W base sa (N - 1)
      · rw [if_pos hcd]
        obtain ⟨sa1, e1, k1, k2, k3, k4⟩ := swap_mov (sa := sa) (i := base + (N - 1)) (j := base + (N - 1) / 2) (a := base) (b := base + N)
          (by omega) (by omega) (by omega) (by omega) hroom
        rw [bind_some' e1]
        refine ⟨N - 1, sa1, rfl, k1, by omega, by omega, Or.inl ⟨hp, by omega, ?_⟩⟩
        unfold hk at hcd ⊢
        rw [k2, k3]; omega
      · rw [if_neg hcd, bind_some' rfl]
        exact ⟨N - 1, sa, rfl, Mov.refl _ _ _, by omega, by omega, Or.inl ⟨hp, by omega, by omega⟩⟩
    · rw [if_neg hp]
      exact ⟨N, sa, rfl, Mov.refl _ _ _, by omega, by omega, Or.inr ⟨by omega, rfl⟩⟩
  obtain ⟨M, sa1, e1, hm1, hM, hM1, hNM⟩ := hev
  rw [bind_some' e1]
  simp only
  have hMN : M ≤ N := by omega
  have hG1 := hG.mov hm1
  -- build the heap
  obtain ⟨sa2, e2, hm2, hh2⟩ := loopDown_spec (f := fixdown T pa W.length base M) (M / 2)
    (fun t s => Mov base (base + M) sa1 s ∧ HeapFrom (M / 2 - t) M (hk T P W base s)) (M / 2) (Nat.le_refl _) sa1
    (by
      intro t s ht ⟨h1, h2⟩
      have hGs := hG1.mov (h1.extend (Nat.le_refl _) (by omega) (by omega))
      obtain ⟨s', e, h3, h4⟩ := fixdown_spec (i := M / 2 - 1 - t) (size := M) hMN (by omega) hGs (Or.inl hM)
        (by rw [show M / 2 - 1 - t + 1 = M / 2 - t by omega]; exact h2)
      exact ⟨s', e, h1.trans h3, by rw [show M / 2 - (t + 1) = M / 2 - 1 - t by omega]; exact h4⟩)
    ⟨Mov.refl _ _ _, by intro j k h1 h2 h3; unfold Child at h2; omega⟩
  rw [bind_some' e2]
  rw [Nat.sub_self] at hh2
  have hm2' := hm2.extend (a' := base) (b' := base + N) (Nat.le_refl _) (by omega) (by omega)
  have hG2 := hG1.mov hm2'
  have htop : ∃ sa3, heapTop T pa W.length base N M sa2 = some sa3 ∧ Mov base (base + N) sa2 sa3 ∧ HeapFrom 0 M (hk T P W base sa3) ∧
      ∀ j k, M ≤ k → k < N → j < k → hk T P W base sa3 j ≤ hk T P W base sa3 k := by
    unfold heapTop
    rcases hNM with ⟨hp, hNe, hle⟩ | ⟨hp, hNe⟩
    · rw [if_pos hp]
      have hle2 : hk T P W base sa2 M ≤ hk T P W base sa2 0 := by
        have h1 : hk T P W base sa2 M = hk T P W base sa1 M := by unfold hk; rw [hm2.res.frame _ (by omega)]
        have h2 := hm2.res.perm.symm.all (Q := fun x => kc T P W x ≤ hk T P W base sa2 0) (fun r hr1 hr2 => by
          have := hh2.max (r - base) (by omega)
          unfold hk at this
          rwa [show base + (r - base) = r by omega] at this) (base + M / 2) (by omega) (by omega)
        have h3 : hk T P W base sa1 (M / 2) ≤ hk T P W base sa2 0 := h2
        omega
      obtain ⟨sa3, e3, k1, k2, k3, k4⟩ := swap_mov (sa := sa2) (i := base) (j := base + M) (a := base) (b := base + N)
          (by omega) (by omega) (by omega) (by omega) hG2.room
      rw [bind_some' e3]
      have hG3 := hG2.mov k1
      have hk3 : ∀ r, r ≠ 0 → r ≠ M → hk T P W base sa3 r = hk T P W base sa2 r := by
        intro r h1 h2; unfold hk; rw [k4 _ (by omega) (by omega)]
      obtain ⟨sa4, e4, h4, h5⟩ := fixdown_spec (i := 0) (size := M) hMN (by omega) hG3 (Or.inl hM)
        (by intro j k h6 h7 h8; rw [hk3 j (by omega) (by unfold Child at h7; omega), hk3 k (by unfold Child at h7; omega) (by omega)]; exact hh2 j k (Nat.zero_le _) h7 h8)
      refine ⟨sa4, e4, k1.trans (h4.extend (Nat.le_refl _) (by omega) (by omega)), h5, ?_⟩
      intro j k h6 h7 h8
      have : k = M := by omega
      subst this
      have h9 : hk T P W base sa4 k = hk T P W base sa2 0 := by
        unfold hk; rw [h4.res.frame _ (by omega), k3]; rfl
      rw [h9]
      refine h4.res.all (Q := fun x => kc T P W x ≤ hk T P W base sa2 0) (fun r hr1 hr2 => ?_) (base + j) (by omega) (by omega)
      by_cases hr : r = base
      · rw [hr, k2]; exact hle2
      · rw [k4 r hr (by omega)]
        have := hh2.max (r - base) (by omega)
        unfold hk at this
        rwa [show base + (r - base) = r by omega] at this
    · rw [if_neg (by omega)]
      exact ⟨sa2, rfl, Mov.refl _ _ _, hh2, fun j k h1 h2 => by omega⟩
  obtain ⟨sa3, e3, hm3, hh3, hs3⟩ := htop
  rw [bind_some' e3]
  have hG3 := hG2.mov hm3
  obtain ⟨sa4, e4, hm4, hh4, hs4⟩ := loopDown_spec (f := fun sa i => heapOne T pa W.length base sa (i + 1)) (M - 1)
    (fun t s => Mov base (base + N) sa3 s ∧ HeapFrom 0 (M - t) (hk T P W base s) ∧
      ∀ j k, M - t ≤ k → k < N → j < k → hk T P W base s j ≤ hk T P W base s k) (M - 1) (Nat.le_refl _) sa3
    (by
      intro t s ht ⟨h1, h2, h3⟩
      have hGs := hG3.mov h1
      obtain ⟨s', e, h4, h5, h6⟩ := heapOne_spec (i := M - 1 - 1 - t + 1) (by omega) (by omega) hGs
        (by rw [show M - 1 - 1 - t + 1 + 1 = M - t by omega]; exact h2)
      refine ⟨s', e, h1.trans (h4.extend (Nat.le_refl _) (by omega) (by omega)), by rw [show M - (t + 1) = M - 1 - 1 - t + 1 by omega]; exact h5, ?_⟩
      generalize hI : M - 1 - 1 - t + 1 = I at *
      intro j k h7 h8 h9
      by_cases hk1 : k = I
      · rw [hk1, h6]
        refine h4.res.all (Q := fun x => kc T P W x ≤ hk T P W base s 0) (fun r hr1 hr2 => ?_) (base + j) (by omega) (by omega)
        have := h2.max (r - base) (by omega)
        unfold hk at this
        rwa [show base + (r - base) = r by omega] at this
      · have h10 : hk T P W base s' k = hk T P W base s k := by unfold hk; rw [h4.res.frame _ (by omega)]
        rw [h10]
        by_cases hj : j < I + 1
        · refine h4.res.all (Q := fun x => kc T P W x ≤ hk T P W base s k) (fun r hr1 hr2 => ?_) (base + j) (by omega) (by omega)
          have := h3 (r - base) k (by omega) h8 (by omega)
          unfold hk at this
          rwa [show base + (r - base) = r by omega] at this
        · have h11 : hk T P W base s' j = hk T P W base s j := by unfold hk; rw [h4.res.frame _ (by omega)]
          rw [h11]
          exact h3 j k (by omega) h8 h9)
    ⟨Mov.refl _ _ _, by rw [show M - (M - 1 - (M - 1)) = M by omega]; exact hh3, by
      intro j k h1 h2 h3; exact hs3 j k (by omega) h2 h3⟩
  refine ⟨sa4, e4, ((hm1.trans hm2').trans hm3).trans hm4, ?_⟩
  intro r hr1 hr2
  have := hs4 (r - base) (r - base + 1) (by omega) (by omega) (by omega)
  unfold hk at this
  rwa [show base + (r - base) = r by omega, show base + (r - base + 1) = r + 1 by omega] at this

/-! ## The pivot -/

theorem order_spec {first last : Nat} {sa : List Int} (hG : Grp T P m pa W first last sa) {v1 v2 : Nat} (h1 : first ≤ v1) (h1' : v1 < last) (h2 : first ≤ v2) (h2' : v2 < last) :
    ∃ w1 w2, order T sa pa W.length v1 v2 = some (w1, w2) ∧ first ≤ w1 ∧ w1 < last ∧ first ≤ w2 ∧ w2 < last := by
  unfold order
  rw [bind_some' (hG.td h1 h1'), bind_some' (hG.td h2 h2')]
  simp only [pure]
  split
  · exact ⟨v2, v1, rfl, h2, h2', h1, h1'⟩
  · exact ⟨v1, v2, rfl, h1, h1', h2, h2'⟩

theorem order2_spec {first last : Nat} {sa : List Int} (hG : Grp T P m pa W first last sa) {v1 v2 u1 u2 : Nat} (h1 : first ≤ v1) (h1' : v1 < last) (h2 : first ≤ v2) (h2' : v2 < last)
    (h3 : first ≤ u1) (h3' : u1 < last) (h4 : first ≤ u2) (h4' : u2 < last) :
    ∃ w1 w2 x1 x2, order2 T sa pa W.length v1 v2 u1 u2 = some ((w1, w2), (x1, x2)) ∧ (first ≤ w1 ∧ w1 < last ∧ first ≤ w2 ∧ w2 < last) ∧
      (first ≤ x1 ∧ x1 < last ∧ first ≤ x2 ∧ x2 < last) := by
  unfold order2
  rw [bind_some' (hG.td h1 h1'), bind_some' (hG.td h2 h2')]
  simp only [pure]
  split
  · exact ⟨v2, v1, u2, u1, rfl, ⟨h2, h2', h1, h1'⟩, ⟨h4, h4', h3, h3'⟩⟩
  · exact ⟨v1, v2, u1, u2, rfl, ⟨h1, h1', h2, h2'⟩, ⟨h3, h3', h4, h4'⟩⟩

theorem median3_spec {first last : Nat} {sa : List Int} (hG : Grp T P m pa W first last sa) {v1 v2 v3 : Nat} (h1 : first ≤ v1) (h1' : v1 < last) (h2 : first ≤ v2) (h2' : v2 < last)
    (h3 : first ≤ v3) (h3' : v3 < last) : ∃ v, median3 T sa pa W.length v1 v2 v3 = some v ∧ first ≤ v ∧ v < last := by
  unfold median3
  obtain ⟨w1, w2, e, a1, a2, a3, a4⟩ := order_spec hG h1 h1' h2 h2'
  rw [bind_some' e]
  simp only
  rw [bind_some' (hG.td a3 a4), bind_some' (hG.td h3 h3')]
  split
  · rw [bind_some' (hG.td a1 a2)]
    simp only [pure]
    split
    · exact ⟨_, rfl, a1, a2⟩
    · exact ⟨_, rfl, h3, h3'⟩
  · exact ⟨_, rfl, a3, a4⟩

theorem median5_spec {first last : Nat} {sa : List Int} (hG : Grp T P m pa W first last sa) {v1 v2 v3 v4 v5 : Nat} (h1 : first ≤ v1) (h1' : v1 < last) (h2 : first ≤ v2) (h2' : v2 < last)
    (h3 : first ≤ v3) (h3' : v3 < last) (h4 : first ≤ v4) (h4' : v4 < last) (h5 : first ≤ v5) (h5' : v5 < last) :
    ∃ v, median5 T sa pa W.length v1 v2 v3 v4 v5 = some v ∧ first ≤ v ∧ v < last := by
  unfold median5
  obtain ⟨w2, w3, e, a1, a2, a3, a4⟩ := order_spec hG h2 h2' h3 h3'
  rw [bind_some' e]
  simp only
  obtain ⟨w4, w5, e, b1, b2, b3, b4⟩ := order_spec hG h4 h4' h5 h5'
  rw [bind_some' e]
  simp only
  obtain ⟨x2, x4, x3, x5, e, ⟨c1, c2, c3, c4⟩, ⟨d1, d2, d3, d4⟩⟩ := order2_spec hG a1 a2 b1 b2 a3 a4 b3 b4
  rw [bind_some' e]
  simp only
  obtain ⟨y1, y3, e, f1, f2, f3, f4⟩ := order_spec hG h1 h1' d1 d2
  rw [bind_some' e]
  simp only
  obtain ⟨z1, z4, z3, z5, e, ⟨i1, i2, i3, i4⟩, ⟨j1, j2, j3, j4⟩⟩ := order2_spec hG f1 f2 c3 c4 f3 f4 d3 d4
  rw [bind_some' e]
  simp only
  rw [bind_some' (hG.td j1 j2), bind_some' (hG.td i3 i4)]
  simp only [pure]
  split
  · exact ⟨_, rfl, i3, i4⟩
  · exact ⟨_, rfl, j1, j2⟩

/-- `ss_pivot` picks one of the cells. -/
theorem pivot_spec {first last : Nat} {sa : List Int} (hG : Grp T P m pa W first last sa) (h : first < last) :
    ∃ v, pivot T sa pa W.length first last = some v ∧ first ≤ v ∧ v < last := by
  unfold pivot
  simp only
  split
  · split
    · exact median3_spec hG (by omega) (by omega) (by omega) (by omega) (by omega) (by omega)
    · exact median5_spec hG (by omega) (by omega) (by omega) (by omega) (by omega) (by omega) (by omega) (by omega) (by omega) (by omega)
  · obtain ⟨x, e1, h1, h2⟩ := median3_spec hG (v1 := first) (v2 := first + (last - first) / 8) (v3 := first + (last - first) / 8 * 2) (by omega) (by omega) (by omega) (by omega) (by omega) (by omega)
    rw [bind_some' e1]
    obtain ⟨y, e2, h3, h4⟩ := median3_spec hG (v1 := first + (last - first) / 2 - (last - first) / 8) (v2 := first + (last - first) / 2) (v3 := first + (last - first) / 2 + (last - first) / 8) (by omega) (by omega) (by omega) (by omega) (by omega) (by omega)
    rw [bind_some' e2]
    obtain ⟨z, e3, h5, h6⟩ := median3_spec hG (v1 := last - 1 - (last - first) / 8 * 2) (v2 := last - 1 - (last - first) / 8) (v3 := last - 1) (by omega) (by omega) (by omega) (by omega) (by omega) (by omega)
    rw [bind_some' e3]
    exact median3_spec hG h1 h2 h3 h4 h5 h6

end Bwtc.Ss
