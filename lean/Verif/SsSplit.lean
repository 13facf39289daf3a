import Verif.SsBoth

/-!
# `ss_swapmerge` merges: the division of a frame
-/

set_option autoImplicit false

namespace Bwtc.Ss
open Sais (put inv put_spec inv_inv bind_some')
open Divsuf (getI dec sub)
open Suffix

variable {T : List Nat} {P : Nat → Nat} {m pa : Nat} {W : List Nat} {F E buf N : Nat} {J : Int → Prop} {K : Nat → List Nat}

theorem le_of_not {x y : List Nat} (h : ¬ y < x) : x ≤ y := h

theorem steps_shift {a b L : Nat} {f g : Nat → Int} (h : ∀ i, i < L → g (a + i) = f (b + i)) (hs : Steps K b (b + L) f) : Steps K a (a + L) g := by
  intro r h1 h2
  have e1 := h (r - a) (by omega)
  have e2 := h (r - a + 1) (by omega)
  rw [show a + (r - a) = r by omega] at e1
  rw [show a + (r - a + 1) = r + 1 by omega] at e2
  rw [e1, e2]
  exact hs (b + (r - a)) (by omega) (by omega)

theorem Steps.sub {a b a' b' : Nat} {f : Nat → Int} (h : Steps K a b f) (h1 : a ≤ a') (h2 : b' ≤ b) : Steps K a' b' f :=
  fun r h3 h4 => h r (by omega) (by omega)

/-- The marked cells of a range have one key. -/
theorem Steps.group {a b : Nat} {f : Nat → Int} (h : Steps K a b f) {r s : Nat} (h1 : a ≤ r) (h2 : r ≤ s) (h3 : s < b) (hm : ∀ j, r < j → j ≤ s → f j < 0) :
    K (dec (f s)) = K (dec (f r)) := by
  induction s with
  | zero => rw [show r = 0 by omega]
  | succ s ih =>
    by_cases hr : r = s + 1
    · rw [hr]
    · rcases h s (by omega) h3 with h4 | h4
      · have := hm (s + 1) (by omega) (by omega)
        omega
      · rw [← h4.2]
        exact ih (by omega) (by omega) (fun j h5 h6 => hm j h5 (by omega))

theorem forward_spec {sa : List Int} {hi : Nat} (h0 : 0 ≤ cel sa hi) (hl : hi < sa.length) : ∀ (n r : Nat), hi - r ≤ n → r ≤ hi →
    ∃ r', forward sa r = some r' ∧ r ≤ r' ∧ r' ≤ hi ∧ 0 ≤ cel sa r' ∧ ∀ j, r ≤ j → j < r' → cel sa j < 0 := by
  intro n
  induction n with
  | zero =>
    intro r h1 h2
    have : r = hi := by omega
    subst this
    rw [forward, bind_some' (get_cel hl), if_neg (by omega)]
    exact ⟨r, rfl, Nat.le_refl _, Nat.le_refl _, h0, fun _ _ _ => by omega⟩
  | succ n ih =>
    intro r h1 h2
    rw [forward, bind_some' (get_cel (by omega))]
    by_cases hx : cel sa r < 0
    · rw [if_pos hx]
      have : r ≠ hi := fun h => by subst h; omega
      obtain ⟨r', e, k1, k2, k3, k4⟩ := ih (r + 1) (by omega) (by omega)
      refine ⟨r', e, by omega, k2, k3, fun j h3 h4 => ?_⟩
      by_cases hj : j = r
      · rw [hj]; exact hx
      · exact k4 j (by omega) h4
    · rw [if_neg hx]
      exact ⟨r, rfl, Nat.le_refl _, h2, by omega, fun _ _ _ => by omega⟩

/-- The cells of a frame after the blocks at its middle have been exchanged and the mark of the cell `rm`, which was `b`, has been taken off. -/
structure Sw (K : Nat → List Nat) (first lm middle rm last : Nat) (b : Bool) (sa : List Int) : Prop where
  s1 : Srt K first lm (cel sa)
  s2 : Srt K lm middle (cel sa)
  s3 : Steps K middle rm (cel sa)
  s4 : Srt K rm last (cel sa)
  le : ∀ x y, first ≤ x → x < middle → middle ≤ y → y < last → K (dec (cel sa x)) ≤ K (dec (cel sa y))
  st : ∀ x y, lm ≤ x → x < middle → middle ≤ y → y < rm → K (dec (cel sa x)) < K (dec (cel sa y))
  j1 : rm < last → (b = true → K (dec (cel sa (middle - 1))) = K (dec (cel sa rm))) ∧ (b = false → K (dec (cel sa (middle - 1))) < K (dec (cel sa rm)))
  j2 : first < lm → Stp K (cel sa (lm - 1)) (cel sa middle)
  j3 : first = lm → 0 ≤ cel sa middle

/-- What a division of a frame gives. -/
structure Split (T : List Nat) (P : Nat → Nat) (m pa : Nat) (W : List Nat) (F E first lm middle rm l r last : Nat) (c nx : Flags) (sa : List Int) : Prop where
  preL : Pre T P m pa W F E ⟨first, lm, l, ⟨c.one, c.two, nx.four⟩⟩ sa
  preR : Pre T P m pa W F E ⟨r, rm, last, ⟨nx.one, nx.two, c.four⟩⟩ sa
  keys : Keys (sub T P m) first l r last nx sa
  fl : first < l
  lr : l ≤ r
  rl : r < last
  four : nx.four = true → l < r
  two : nx.two = true → nx.one = false ∧ nx.four = false ∧ l = middle ∧ 0 ≤ cel sa r
  head : 0 ≤ cel sa first
  lmid : l ≤ middle
  midr : middle ≤ r

/-- The general part of a division. -/
theorem split_of {first lm middle rm l r last : Nat} {c nx : Flags} {b : Bool} {sa : List Int} (hw : Sw (sub T P m) first lm middle rm last b sa)
    (hF : F ≤ first) (h1 : first ≤ lm) (h2 : lm < middle) (h3 : middle < rm) (h4 : rm ≤ last) (h5 : last ≤ E) (hE : Env T P m pa sa) (hsz : pa ≤ sa.length)
    (hg : ∀ r, F ≤ r → r < E → Good T P m W (dec (cel sa r))) (hc2 : c.two = true → F < first) (hc4 : c.four = true → last < E ∧ 0 ≤ cel sa last)
    (l1 : lm ≤ l) (l0 : first < l) (l2 : l ≤ middle) (r1 : middle ≤ r) (r2 : r ≤ rm) (r3 : r < last)
    (f4 : nx.four = true → l < r ∧ 0 ≤ cel sa l) (t2 : nx.two = true → nx.one = false ∧ nx.four = false ∧ l = middle ∧ 0 ≤ cel sa r)
    (rneg : cel sa r < 0 → rm = last ∧ nx.one = false ∧ nx.two = false)
    (k : Keys (sub T P m) first l r last nx sa) : Split T P m pa W F E first lm middle rm l r last c nx sa := by
  have hhead : 0 ≤ cel sa first := by
    by_cases h : first < lm
    · exact hw.s1.first h
    · have : first = lm := by omega
      rw [this]; exact hw.s2.first h2
  refine ⟨⟨hF, h1, l1, l0, show l ≤ E by omega, hE, hsz, hg, hw.s1.step, hw.s2.init l2, ?_, hc2, ?_⟩,
    ⟨show F ≤ r by omega, r2, h4, r3, h5, hE, hsz, hg, hw.s3.sub r1 (Nat.le_refl _), hw.s4, rneg, fun _ => show F < r by omega, hc4⟩, k, l0, by omega, r3, fun h => (f4 h).1, t2, hhead, l2, r1⟩
  · intro (h : cel sa first < 0)
    omega
  · intro h
    exact ⟨show l < E by have := (f4 h).1; omega, (f4 h).2⟩

/-- The keys of a division without a group around the middle. -/
theorem Sw.same {first lm middle rm last : Nat} {nx : Flags} {b : Bool} {sa : List Int} (hw : Sw K first lm middle rm last b sa) (h1 : first ≤ lm) (h2 : lm < middle) (h3 : middle < rm)
    (h4 : rm ≤ last) (h : nx.one = true → rm < last ∧ b = true) (h' : nx.one = false → nx.two = false → (rm < last → b = false ∧ first = lm)) :
    Keys K first middle middle last nx sa := by
  refine ⟨fun x y h5 h6 h7 h8 => hw.le x y h5 h6 h7 h8, fun h => by omega, fun h => by omega, fun r h5 h6 => by omega, fun h => by omega, ?_, ?_⟩
  · intro h5
    obtain ⟨h6, h7⟩ := h h5
    exact ⟨rm, by omega, h6, fun h => by omega, fun _ => ⟨middle - 1, by omega, by omega, (hw.j1 h6).1 h7⟩⟩
  · intro n1 n2
    refine ⟨rfl, ?_⟩
    by_cases hr : rm < last
    · obtain ⟨b0, hf⟩ := h' n1 n2 hr
      refine Or.inl ⟨hw.j3 hf, fun x y h5 h6 h7 h8 => ?_⟩
      by_cases hy : y < rm
      · exact hw.st x y (by omega) h6 h7 hy
      · have e1 := hw.s2.le (show lm ≤ x by omega) (show x ≤ middle - 1 by omega) (by omega)
        have e2 := (hw.j1 hr).2 b0
        have e3 := hw.s4.le (Nat.le_refl rm) (show rm ≤ y by omega) h8
        have e4 := lt_of_le_lt e1 e2
        rcases e3 with e3 | e3
        · exact List.lt_trans e4 e3
        · rw [← e3]; exact e4
    · have hr : rm = last := by omega
      by_cases hm : 0 ≤ cel sa middle
      · refine Or.inl ⟨hm, fun x y h5 h6 h7 h8 => ?_⟩
        by_cases hx : lm ≤ x
        · exact hw.st x y hx h6 h7 (by omega)
        · have e1 := hw.s1.le h5 (show x ≤ lm - 1 by omega) (by omega)
          have e2 : K (dec (cel sa (lm - 1))) < K (dec (cel sa middle)) := by
            rcases hw.j2 (by omega) with h9 | h9
            · exact h9.2
            · omega
          have e3 := hw.s3.le (Nat.le_refl middle) h7 (by omega)
          have e4 := lt_of_le_lt e1 e2
          rcases e3 with e3 | e3
          · exact List.lt_trans e4 e3
          · rw [← e3]; exact e4
      · refine Or.inr ⟨by omega, ?_⟩
        have hf : first < lm := by
          by_cases hf : first = lm
          · have := hw.j3 hf; omega
          · omega
        refine ⟨lm - 1, by omega, by omega, ?_⟩
        rcases hw.j2 hf with h9 | h9
        · omega
        · exact h9.2

/-- The keys of a division in a group of the left part. -/
theorem Sw.keysA {first lm middle rm last l : Nat} {sa : List Int} (hw : Sw K first lm middle rm last true sa) (h1 : first < lm) (h2 : lm < middle) (h3 : middle < rm)
    (h4 : rm < last) (l1 : lm ≤ l) (l2 : l < middle) (hm : ∀ j, l < j → j < middle → cel sa j < 0) : Keys K first l middle last ⟨true, false, true⟩ sa := by
  have e0 : K (dec (cel sa (middle - 1))) = K (dec (cel sa l)) := Steps.group (K := K) hw.s2.step l1 (show l ≤ middle - 1 by omega) (by omega) (fun j h5 h6 => hm j h5 (by omega))
  have e1 := (hw.j1 h4).1 rfl
  refine ⟨fun x y h5 h6 h7 h8 => hw.le x y h5 (by omega) h7 h8, ?_, fun _ h => by simp at h, Steps.sub (K := K) hw.s2.step l1 (Nat.le_refl _), ?_, ?_, fun h => by simp at h⟩
  · intro _ x h5 h6
    by_cases hx : lm ≤ x
    · exact le_of (hw.s2.le hx (by omega) l2)
    · rw [← e0, e1]; exact hw.le x rm h5 (by omega) (by omega) h4
  · intro _ y h5 h6
    exact hw.le (middle - 1) y (by omega) (by omega) h5 h6
  · intro _
    exact ⟨rm, by omega, h4, fun _ => e1, fun h => by omega⟩

/-- The keys of a division in a group of the right part. -/
theorem Sw.keysB {first lm middle rm last r : Nat} {b : Bool} {sa : List Int} (hw : Sw K first lm middle rm last b sa) (h1 : first < lm) (h2 : lm < middle) (h3 : middle < rm)
    (h4 : rm < last) (r1 : middle ≤ r) (r2 : r ≤ rm) (hm : ∀ j, middle ≤ j → j < r → cel sa j < 0) : Keys K first middle r last ⟨false, true, false⟩ sa := by
  have wit : middle < r → cel sa middle < 0 ∧ K (dec (cel sa (lm - 1))) = K (dec (cel sa middle)) := by
    intro h
    have h5 := hm middle (Nat.le_refl _) h
    refine ⟨h5, ?_⟩
    rcases hw.j2 h1 with h9 | h9
    · omega
    · exact h9.2
  refine ⟨fun x y h5 h6 h7 h8 => hw.le x y h5 h6 (by omega) h8, ?_, ?_, hw.s3.sub (Nat.le_refl _) r2, ?_, fun h => by simp at h, fun _ h => by simp at h⟩
  · intro h x h5 h6
    exact hw.le x middle h5 h6 (Nat.le_refl _) (by omega)
  · intro h _
    exact ⟨(wit h).1, lm - 1, by omega, by omega, (wit h).2⟩
  · intro h y h5 h6
    have e0 : K (dec (cel sa (r - 1))) = K (dec (cel sa middle)) := hw.s3.group (Nat.le_refl _) (show middle ≤ r - 1 by omega) (by omega) (fun j h5 h6 => hm j (by omega) (by omega))
    rw [e0, ← (wit h).2]
    exact hw.le (lm - 1) y (by omega) (by omega) (by omega) h6

/-- A mark that is set because the cells are equal is not there when they are not. -/
theorem Sw.nomark {first lm middle rm last : Nat} {sa : List Int} (hw : Sw K first lm middle rm last true sa) (h1 : first ≤ lm) (h2 : lm < middle) (h3 : middle < rm)
    (h4 : rm < last) : 0 ≤ cel sa middle := by
  by_cases hf : first = lm
  · exact hw.j3 hf
  · rcases hw.j2 (by omega) with h5 | h5
    · exact h5.1
    · have e1 := (hw.j1 h4).1 rfl
      have e2 := hw.le (lm - 1) rm (by omega) (by omega) (by omega) h4
      have e3 := hw.st (middle - 1) middle (by omega) (by omega) (Nat.le_refl _) h3
      rw [← h5.2, e1] at e3
      exact absurd e3 e2

/-- The blocks at the middle are exchanged. -/
theorem blocks_spec {first middle last d : Nat} {sa : List Int} (hl : last ≤ sa.length) (hd : 0 < d) (h1 : first + d ≤ middle) (h2 : middle + d ≤ last)
    (hA : Srt K first middle (cel sa)) (hC : Srt K middle last (cel sa)) (k1 : K (dec (cel sa (middle + d - 1))) < K (dec (cel sa (middle - d))))
    (k2 : first + d < middle → middle + d < last → ¬ K (dec (cel sa (middle + d))) < K (dec (cel sa (middle - d - 1)))) :
    ∃ sb, blockswap sa (middle - d) middle d = some sb ∧ Res first last sa sb ∧ (∀ sc, (∀ j, dec (cel sc j) = dec (cel sb j)) → (∀ j, j ≠ middle + d → cel sc j = cel sb j) →
      (middle + d < last → 0 ≤ cel sc (middle + d)) → Sw K first (middle - d) middle (middle + d) last (decide (cel sb (middle + d) < 0)) sc) := by
  obtain ⟨sb, e, q1, q2, q3, q4⟩ := blockswap_spec' d sa (middle - d) middle (by omega) (by omega) (by omega)
  have hrot : Rotd (middle - d) middle (middle + d) sa sb := by
    refine ⟨q1, fun i hi => q2 i (by omega), fun i hi => ?_, fun r hr => q4 r (by omega) (by omega)⟩
    rw [show middle - d + (middle + d - middle) + i = middle + i by omega]; exact q3 i (by omega)
  have k2' : middle - d ≠ first → middle + d < last → K (dec (cel sa (middle - d - 1))) ≤ K (dec (cel sa (middle + d))) := fun h3 h4 => k2 (by omega) h4
  refine ⟨sb, e, (hrot.res (by omega) (by omega)).extend (by omega) (by omega) (by omega), ?_⟩
  intro sc hdec hne hrm
  have c1 : ∀ j, j < middle - d → cel sc j = cel sa j := fun j hj => by rw [hne j (by omega), q4 j (by omega) (by omega)]
  have c2 : ∀ i, i < d → cel sc (middle - d + i) = cel sa (middle + i) := fun i hi => by rw [hne _ (by omega), q2 i hi]
  have c3 : ∀ i, i < d → cel sc (middle + i) = cel sa (middle - d + i) := fun i hi => by rw [hne _ (by omega), q3 i hi]
  have c4 : ∀ j, middle + d ≤ j → dec (cel sc j) = dec (cel sa j) := fun j hj => by rw [hdec, q4 j (by omega) (by omega)]
  have c5 : ∀ j, middle + d < j → cel sc j = cel sa j := fun j hj => by rw [hne j (by omega), q4 j (by omega) (by omega)]
  have c2' : ∀ x, middle - d ≤ x → x < middle → cel sc x = cel sa (x + d) := fun x h3 h4 => by
    have := c2 (x - (middle - d)) (by omega)
    rw [show middle - d + (x - (middle - d)) = x by omega, show middle + (x - (middle - d)) = x + d by omega] at this
    exact this
  have c3' : ∀ y, middle ≤ y → y < middle + d → cel sc y = cel sa (y - d) := fun y h3 h4 => by
    have := c3 (y - middle) (by omega)
    rw [show middle + (y - middle) = y by omega, show middle - d + (y - middle) = y - d by omega] at this
    exact this
  have hst : ∀ x y, middle - d ≤ x → x < middle → middle ≤ y → y < middle + d → K (dec (cel sc x)) < K (dec (cel sc y)) := by
    intro x y h3 h4 h5 h6
    rw [c2' x h3 h4, c3' y h5 h6]
    have e1 := hC.le (show middle ≤ x + d by omega) (show x + d ≤ middle + d - 1 by omega) (by omega)
    have e2 := hA.le (show first ≤ middle - d by omega) (show middle - d ≤ y - d by omega) (by omega)
    have e3 := lt_of_le_lt e1 k1
    rcases e2 with e2 | e2
    · exact List.lt_trans e3 e2
    · rw [← e2]; exact e3
  refine ⟨(hA.init (show middle - d ≤ middle by omega)).congr (fun r h3 h4 => c1 r h4), ⟨fun _ => ?_, ?_⟩, ?_, ⟨fun h => hrm h, ?_⟩, ?_, hst, ?_, ?_, ?_⟩
  · have := c2 0 hd
    rw [Nat.add_zero, Nat.add_zero] at this
    rw [this]; exact hC.first (by omega)
  · have := steps_shift (K := K) (a := middle - d) (b := middle) (L := d) c2 (Steps.sub (K := K) hC.step (Nat.le_refl _) h2)
    rw [show middle - d + d = middle by omega] at this
    exact this
  · refine steps_shift (K := K) (a := middle) (b := middle - d) (L := d) c3 ?_
    rw [show middle - d + d = middle by omega]
    exact Steps.sub (K := K) hA.step (by omega) (Nat.le_refl _)
  · intro r h3 h4
    rw [c5 (r + 1) (by omega), c4 r h3]; exact hC.step r (by omega) h4
  · intro x y h3 h4 h5 h6
    by_cases hx : x < middle - d
    · rw [c1 x hx]
      by_cases hy : y < middle + d
      · rw [c3' y h5 hy]; exact le_of (hA.le h3 (by omega) (by omega))
      · rw [c4 y (by omega)]
        have e1 := le_of (hA.le h3 (show x ≤ middle - d - 1 by omega) (by omega))
        have e2 := le_of (hC.le (show middle ≤ middle + d by omega) (show middle + d ≤ y by omega) h6)
        exact List.le_trans e1 (List.le_trans (k2' (by omega) (by omega)) e2)
    · by_cases hy : y < middle + d
      · exact le_of (Or.inl (hst x y (by omega) h4 h5 hy))
      · rw [c2' x (by omega) h4, c4 y (by omega)]; exact le_of (hC.le (by omega) (by omega) h6)
  · intro h3
    have e1 := hC.step (middle + d - 1) (by omega) (by omega)
    rw [show middle + d - 1 + 1 = middle + d by omega] at e1
    rw [c2' (middle - 1) (by omega) (by omega), show middle - 1 + d = middle + d - 1 by omega, c4 _ (Nat.le_refl _), q4 (middle + d) (by omega) (by omega)]
    constructor
    · intro h4
      have h4 : cel sa (middle + d) < 0 := by simpa using h4
      rcases e1 with e1 | e1
      · omega
      · exact e1.2
    · intro h4
      have h4 : ¬ cel sa (middle + d) < 0 := by simpa using h4
      rcases e1 with e1 | e1
      · exact e1.2
      · omega
  · intro h3
    have e1 := hA.step (middle - d - 1) (by omega) (by omega)
    rw [show middle - d - 1 + 1 = middle - d by omega] at e1
    have := c3 0 hd
    rw [Nat.add_zero, Nat.add_zero] at this
    rw [this, c1 _ (by omega)]
    exact e1
  · intro h3
    have := c3 0 hd
    rw [Nat.add_zero, Nat.add_zero] at this
    rw [this, ← h3]
    exact hA.first (by omega)

/-- A division. -/
theorem swapMarks_spec {first middle last d : Nat} {c : Flags} {sa : List Int} (hP : Pre T P m pa W F E ⟨first, middle, last, c⟩ sa) (hpa : E ≤ pa) (hd : 0 < d) (h1 : first + d ≤ middle)
    (h2 : middle + d ≤ last) (k1 : sub T P m (dec (cel sa (middle + d - 1))) < sub T P m (dec (cel sa (middle - d))))
    (k2 : first + d < middle → middle + d < last → ¬ sub T P m (dec (cel sa (middle + d))) < sub T P m (dec (cel sa (middle - d - 1)))) :
    ∃ sb sc l r nx, blockswap sa (middle - d) middle d = some sb ∧ swapMarks sb first (middle - d) middle (middle + d) last = some (sc, l, r, nx) ∧
      Res first last sa sc ∧ Split T P m pa W F E first (middle - d) middle (middle + d) l r last c nx sc := by
  have hF : F ≤ first := hP.lo
  have hE : last ≤ E := hP.hi
  have hsz := hP.size
  have hA : Srt (sub T P m) first middle (cel sa) := by
    refine ⟨fun _ => ?_, hP.left⟩
    by_cases h : 0 ≤ cel sa first
    · exact h
    · have h3 : middle = last := (hP.neg (show cel sa first < 0 by omega)).1
      omega
  obtain ⟨sb, e, hR, hW⟩ := blocks_spec (K := sub T P m) (by omega) hd h1 h2 hA hP.right k1 k2
  have hlen := hR.len
  have fin : ∀ sc, Res first last sa sc → (∀ r, F ≤ r → r < E → Good T P m W (dec (cel sc r))) ∧ Env T P m pa sc ∧ pa ≤ sc.length ∧ (c.four = true → last < E ∧ 0 ≤ cel sc last) := by
    intro sc hr
    refine ⟨fun r h3 h4 => ?_, hP.env.res hr (by omega), by rw [hr.len]; exact hsz, fun h3 => ?_⟩
    · by_cases h5 : first ≤ r ∧ r < last
      · exact hr.all (Q := Good T P m W) (fun r h6 h7 => hP.good r (by omega) (by omega)) r h5.1 h5.2
      · rw [hr.frame r (by omega)]; exact hP.good r h3 h4
    · rw [hr.frame last (by omega)]; exact hP.next h3
  refine ⟨sb, ?_⟩
  unfold swapMarks
  by_cases hr : middle + d < last
  · rw [if_pos hr, bind_some' (get_cel (by omega))]
    by_cases hx : cel sb (middle + d) < 0
    · rw [if_pos hx, bind_some' (put_spec (by omega) _)]
      have e1 : cel (sb.set (middle + d) (inv (cel sb (middle + d)))) (middle + d) = inv (cel sb (middle + d)) := cel_set_self (by omega) _
      have hdec : ∀ j, dec (cel (sb.set (middle + d) (inv (cel sb (middle + d)))) j) = dec (cel sb j) := by
        intro j
        by_cases hj : j = middle + d
        · rw [hj, e1, dec_inv]
        · rw [cel_set_ne _ hj]
      have hw := hW _ hdec (fun j hj => cel_set_ne _ hj) (fun _ => by rw [e1]; exact (inv_nonneg_iff _).2 hx)
      have hres : Res first last sa (sb.set (middle + d) (inv (cel sb (middle + d)))) :=
        ⟨by rw [← hlen]; simp, fun r hr' => by rw [cel_set_ne _ (by omega), hR.frame r hr'], hR.perm.trans (Perm.congr (fun j _ _ => (hdec j).symm))⟩
      rw [decide_eq_true hx] at hw
      generalize sb.set (middle + d) (inv (cel sb (middle + d))) = sc at *
      obtain ⟨g1, g2, g3, g4⟩ := fin sc hres
      have hnm := hw.nomark (by omega) (by omega) (by omega) hr
      by_cases hf : first < middle - d
      · rw [if_pos hf]
        obtain ⟨l, el, l1, l2, l3, l4⟩ := backUp_spec (hw.s2.first (by omega)) middle (by omega) (by omega)
        rw [bind_some' el]
        refine ⟨sc, l, middle, ⟨true, false, true⟩, e, rfl, hres, split_of hw hF (by omega) (by omega) (by omega) h2 hE g2 g3 g1 hP.prev g4 l1 (by omega) (by omega) (Nat.le_refl _) (by omega) (by omega)
          (fun _ => ⟨l2, l3⟩) (fun h => by simp at h) (fun h => by omega) (hw.keysA hf (by omega) (by omega) hr l1 l2 l4)⟩
      · rw [if_neg hf]
        refine ⟨sc, middle, middle, ⟨true, false, false⟩, e, rfl, hres, split_of hw hF (by omega) (by omega) (by omega) h2 hE g2 g3 g1 hP.prev g4 (by omega) (by omega) (by omega) (Nat.le_refl _) (by omega) (by omega)
          (fun h => by simp at h) (fun h => by simp at h) (fun h => by omega) (hw.same (by omega) (by omega) (by omega) h2 (fun _ => ⟨hr, rfl⟩) (fun h => by simp at h))⟩
    · rw [if_neg hx]
      have hw := hW sb (fun _ => rfl) (fun _ _ => rfl) (fun _ => by omega)
      rw [decide_eq_false hx] at hw
      obtain ⟨g1, g2, g3, g4⟩ := fin sb hR
      by_cases hf : first < middle - d
      · rw [if_pos hf]
        obtain ⟨r, er, r1, r2, r3, r4⟩ := forward_spec (sa := sb) (hi := middle + d) (by omega) (by omega) _ middle (Nat.le_refl _) (by omega)
        rw [bind_some' er]
        refine ⟨sb, middle, r, ⟨false, true, false⟩, e, rfl, hR, split_of hw hF (by omega) (by omega) (by omega) h2 hE g2 g3 g1 hP.prev g4 (by omega) (by omega) (Nat.le_refl _) r1 r2 (by omega)
          (fun h => by simp at h) (fun _ => ⟨rfl, rfl, rfl, r3⟩) (fun h => by omega) (hw.keysB hf (by omega) (by omega) hr r1 r2 r4)⟩
      · rw [if_neg hf]
        refine ⟨sb, middle, middle, ⟨false, false, false⟩, e, rfl, hR, split_of hw hF (by omega) (by omega) (by omega) h2 hE g2 g3 g1 hP.prev g4 (by omega) (by omega) (by omega) (Nat.le_refl _) (by omega) (by omega)
          (fun h => by simp at h) (fun h => by simp at h) (fun h => by have := hw.j3 (by omega); omega) (hw.same (by omega) (by omega) (by omega) h2 (fun h => by simp at h) (fun _ _ _ => ⟨rfl, by omega⟩))⟩
  · rw [if_neg hr]
    have hw := hW sb (fun _ => rfl) (fun _ _ => rfl) (fun _ => by omega)
    obtain ⟨g1, g2, g3, g4⟩ := fin sb hR
    refine ⟨sb, middle, middle, ⟨false, false, false⟩, e, rfl, hR, split_of hw hF (by omega) (by omega) (by omega) h2 hE g2 g3 g1 hP.prev g4 (by omega) (by omega) (by omega) (Nat.le_refl _) (by omega) (by omega)
      (fun h => by simp at h) (fun h => by simp at h) (fun h => ⟨by omega, rfl, rfl⟩) (hw.same (by omega) (by omega) (by omega) h2 (fun h => by simp at h) (fun _ _ h => by omega))⟩

end Bwtc.Ss
