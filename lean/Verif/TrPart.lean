import Verif.Trsort
import Verif.SsHeap

/-!
# `tr_partition` splits into three parts
-/

set_option autoImplicit false

namespace Bwtc.Tr
open Sais (put inv put_spec inv_inv bind_some')
open Divsuf (getI dec)
open Ss

/-- The keys `K` of the positions `Q` are found from `isad` on. -/
def Env (Q : Nat → Prop) (K : Nat → Int) (isad : Nat) (sa : List Int) : Prop :=
  ∀ i, Q i → isad + i < sa.length ∧ cel sa (isad + i) = K i

variable {Q : Nat → Prop} {K : Nat → Int} {isad : Nat}

theorem Env.frame {sa sa' : List Int} (h : Env Q K isad sa) (hl : sa'.length = sa.length) (hf : ∀ r, isad ≤ r → cel sa' r = cel sa r) :
    Env Q K isad sa' :=
  fun i hi => ⟨by have := (h i hi).1; omega, by rw [hf _ (by omega)]; exact (h i hi).2⟩

theorem Env.res {sa sa' : List Int} {a b : Nat} (h : Env Q K isad sa) (hr : Res a b sa sa') (hb : b ≤ isad) : Env Q K isad sa' :=
  h.frame hr.len (fun r h1 => hr.frame r (by omega))

theorem Env.key {sa : List Int} (h : Env Q K isad sa) {v : Int} (hv : 0 ≤ v) (hg : Q (dec v)) : keyAt sa isad v = some (K (dec v)) := by
  obtain ⟨h1, h2⟩ := h _ hg
  unfold keyAt getI
  have := nat_of hv
  rw [if_pos (by omega), show ((isad : Int) + v).toNat = isad + dec v by omega, get_cel h1, h2]

theorem Env.keyCell {sa : List Int} (h : Env Q K isad sa) {r : Nat} (hl : r < sa.length) (hv : 0 ≤ cel sa r) (hg : Q (dec (cel sa r))) :
    keyCell sa isad r = some (K (dec (cel sa r))) := by
  unfold Tr.keyCell
  rw [bind_some' (get_cel hl), h.key hv hg]

/-- What stays the same while a group is sorted. -/
structure Grp (Q : Nat → Prop) (K : Nat → Int) (isad : Nat) (first last : Nat) (sa : List Int) : Prop where
  env : Env Q K isad sa
  below : last ≤ isad
  room : last ≤ sa.length
  pos : ∀ r, first ≤ r → r < last → 0 ≤ cel sa r
  good : ∀ r, first ≤ r → r < last → Q (dec (cel sa r))

theorem Grp.mov {first last : Nat} {sa sa' : List Int} (h : Grp Q K isad first last sa) (hm : Mov first last sa sa') :
    Grp Q K isad first last sa' :=
  ⟨h.env.res hm.res h.below, h.below, by rw [hm.res.len]; exact h.room, hm.pos h.pos, hm.res.all h.good⟩

theorem Grp.key {first last : Nat} {sa : List Int} (h : Grp Q K isad first last sa) {r : Nat} (h1 : first ≤ r) (h2 : r < last) :
    Tr.keyCell sa isad r = some (K (dec (cel sa r))) :=
  h.env.keyCell (by have := h.room; omega) (h.pos r h1 h2) (h.good r h1 h2)

variable {first last : Nat}

open Tr

theorem scanEq_spec {sa : List Int} (hG : Grp Q K isad first last sa) (v : Int) : ∀ (n b : Nat) (x : Int), last - b ≤ n → first ≤ b → b ≤ last →
    ∃ b' x', scanEq sa isad last v b x = some (b', x') ∧ b ≤ b' ∧ b' ≤ last ∧
      (∀ r, b ≤ r → r < b' → K (dec (cel sa r)) = v) ∧ (b' < last → x' = K (dec (cel sa b')) ∧ x' ≠ v) := by
  intro n
  induction n with
  | zero =>
    intro b x h1 h2 h3
    rw [scanEq, if_neg (by omega)]
    exact ⟨b, x, rfl, Nat.le_refl _, h3, fun r _ _ => by omega, fun _ => by omega⟩
  | succ n ih =>
    intro b x h1 h2 h3
    rw [scanEq]
    by_cases hb : b < last
    · rw [if_pos hb, bind_some' (hG.key h2 hb)]
      by_cases hv : K (dec (cel sa b)) = v
      · rw [if_pos hv]
        obtain ⟨b', x', e, h4, h5, h6, h7⟩ := ih (b + 1) (K (dec (cel sa b))) (by omega) (by omega) (by omega)
        refine ⟨b', x', e, by omega, h5, fun r hr1 hr2 => ?_, h7⟩
        by_cases hr : r = b
        · rw [hr]; exact hv
        · exact h6 r (by omega) hr2
      · rw [if_neg hv]
        exact ⟨b, _, rfl, Nat.le_refl _, h3, fun r _ _ => by omega, fun _ => ⟨rfl, hv⟩⟩
    · rw [if_neg hb]
      exact ⟨b, x, rfl, Nat.le_refl _, h3, fun r _ _ => by omega, fun _ => by omega⟩

theorem scanEqDown_spec {sa : List Int} (hG : Grp Q K isad first last sa) (b : Nat) (v : Int) (hb : first ≤ b) : ∀ (c : Nat) (x : Int), 1 ≤ c → b ≤ c → c ≤ last →
    ∃ c' x', scanEqDown sa isad b v c x = some (c', x') ∧ c' < c ∧ b ≤ c' + 1 ∧
      (∀ r, c' < r → r < c → K (dec (cel sa r)) = v) ∧ (b < c' → x' = K (dec (cel sa c')) ∧ x' ≠ v) ∧ (b < c → b ≤ c') := by
  intro c
  induction c with
  | zero => intro x h; omega
  | succ c ih =>
    intro x _ h2 h3
    rw [scanEqDown]
    by_cases hc : b < c
    · rw [if_pos hc, bind_some' (hG.key (by omega) (by omega))]
      by_cases hv : K (dec (cel sa c)) = v
      · rw [if_pos hv]
        obtain ⟨c', x', e, h4, h5, h6, h7, h8⟩ := ih (K (dec (cel sa c))) (by omega) (by omega) (by omega)
        refine ⟨c', x', e, by omega, h5, fun r hr1 hr2 => ?_, h7, fun _ => h8 hc⟩
        by_cases hr : r = c
        · rw [hr]; exact hv
        · exact h6 r hr1 (by omega)
      · rw [if_neg hv]
        exact ⟨c, _, rfl, by omega, by omega, fun r _ _ => by omega, fun _ => ⟨rfl, hv⟩, fun _ => by omega⟩
    · rw [if_neg hc]
      exact ⟨c, x, rfl, by omega, by omega, fun r _ _ => by omega, fun _ => by omega, fun _ => by omega⟩

theorem scanLe_spec (e : Nat) (v : Int) (he : e ≤ last) : ∀ (n : Nat) (sa : List Int) (a b : Nat), e - b ≤ n → Grp Q K isad first last sa →
    first ≤ a → a < b → b ≤ e →
    (∀ r, first ≤ r → r < a → K (dec (cel sa r)) = v) → (∀ r, a ≤ r → r < b → K (dec (cel sa r)) < v) →
    ∃ sa' a' b', scanLe isad e v sa a b = some (sa', a', b') ∧ a ≤ a' ∧ a' < b' ∧ b ≤ b' ∧ b' ≤ e ∧ Mov first b' sa sa' ∧
      (∀ r, first ≤ r → r < a' → K (dec (cel sa' r)) = v) ∧ (∀ r, a' ≤ r → r < b' → K (dec (cel sa' r)) < v) ∧
      (b' < e → v < K (dec (cel sa' b'))) := by
  intro n
  induction n with
  | zero =>
    intro sa a b h1 hG h2 h3 h4 h5 h6
    rw [scanLe, if_neg (by omega)]
    exact ⟨sa, a, b, rfl, Nat.le_refl _, h3, Nat.le_refl _, h4, Mov.refl _ _ _, h5, h6, fun _ => by omega⟩
  | succ n ih =>
    intro sa a b h1 hG h2 h3 h4 h5 h6
    rw [scanLe]
    by_cases hb : b < e
    · rw [if_pos hb, bind_some' (hG.key (by omega) (by omega))]
      by_cases hle : K (dec (cel sa b)) ≤ v
      · rw [if_pos hle]
        by_cases hv : K (dec (cel sa b)) = v
        · rw [if_pos hv]
          obtain ⟨sa1, e1, k1, k2, k3, k4⟩ := swap_mov (sa := sa) (i := b) (j := a) (a := first) (b := b + 1) (by omega) (by omega) (by omega) (by omega)
            (by have := hG.room; omega)
          rw [bind_some' e1]
          obtain ⟨sa2, a2, b2, e2, j1, j2, j3, j4, j5, j6, j7, j8⟩ := ih sa1 (a + 1) (b + 1) (by omega)
            (hG.mov (k1.extend (Nat.le_refl _) (by omega) (by omega))) (by omega) (by omega) (by omega)
            (fun r hr1 hr2 => by
              by_cases hr : r = a
              · rw [hr, k3]; exact hv
              · rw [k4 r (by omega) hr]; exact h5 r hr1 (by omega))
            (fun r hr1 hr2 => by
              by_cases hr : r = b
              · rw [hr, k2]; exact h6 a (Nat.le_refl _) h3
              · rw [k4 r hr (by omega)]; exact h6 r (by omega) (by omega))
          exact ⟨sa2, a2, b2, e2, by omega, j2, by omega, j4, (k1.extend (Nat.le_refl _) (by omega) (by omega)).trans j5, j6, j7, j8⟩
        · rw [if_neg hv]
          obtain ⟨sa2, a2, b2, e2, j1, j2, j3, j4, j5, j6, j7, j8⟩ := ih sa a (b + 1) (by omega) hG h2 (by omega) (by omega) h5
            (fun r hr1 hr2 => by
              by_cases hr : r = b
              · rw [hr]; omega
              · exact h6 r hr1 (by omega))
          exact ⟨sa2, a2, b2, e2, j1, j2, by omega, j4, j5, j6, j7, j8⟩
      · rw [if_neg hle]
        exact ⟨sa, a, b, rfl, Nat.le_refl _, h3, Nat.le_refl _, h4, Mov.refl _ _ _, h5, h6, fun _ => by omega⟩
    · rw [if_neg hb]
      exact ⟨sa, a, b, rfl, Nat.le_refl _, h3, Nat.le_refl _, h4, Mov.refl _ _ _, h5, h6, fun _ => by omega⟩

theorem scanGe_spec (b : Nat) (v : Int) (hb : first ≤ b) : ∀ (c : Nat) (sa : List Int) (d : Nat), 1 ≤ c → Grp Q K isad first last sa →
    b ≤ c → c ≤ d → d < last →
    (∀ r, d < r → r < last → K (dec (cel sa r)) = v) → (∀ r, c ≤ r → r ≤ d → v < K (dec (cel sa r))) →
    ∃ sa' c' d', scanGe isad b v sa c d = some (sa', c', d') ∧ c' < c ∧ b ≤ c' + 1 ∧ c' ≤ d' ∧ d' ≤ d ∧
      Mov (c' + 1) last sa sa' ∧ ((b < c → b ≤ c') ∧ (c ≤ b → d' = d)) ∧
      (∀ r, d' < r → r < last → K (dec (cel sa' r)) = v) ∧ (∀ r, c' < r → r ≤ d' → v < K (dec (cel sa' r))) ∧
      (b < c' → K (dec (cel sa' c')) < v) := by
  intro c
  induction c with
  | zero => intro sa d h; omega
  | succ c ih =>
    intro sa d _ hG h2 h3 h4 h5 h6
    rw [scanGe]
    by_cases hc : b < c
    · rw [if_pos hc, bind_some' (hG.key (by omega) (by omega))]
      by_cases hle : v ≤ K (dec (cel sa c))
      · rw [if_pos hle]
        by_cases hv : K (dec (cel sa c)) = v
        · rw [if_pos hv]
          obtain ⟨sa1, e1, k1, k2, k3, k4⟩ := swap_mov (sa := sa) (i := c) (j := d) (a := c) (b := last) (by omega) (by omega) (by omega) (by omega)
            hG.room
          rw [bind_some' e1, if_neg (by omega)]
          obtain ⟨sa2, c2, d2, e2, j1, j2, j3, j4, j5, j6, j7, j8, j9⟩ := ih sa1 (d - 1) (by omega)
            (hG.mov (k1.extend (by omega) (Nat.le_refl _) (by omega))) (by omega) (by omega) (by omega)
            (fun r hr1 hr2 => by
              by_cases hr : r = d
              · rw [hr, k3]; exact hv
              · rw [k4 r (by omega) hr]; exact h5 r (by omega) hr2)
            (fun r hr1 hr2 => by
              by_cases hr : r = c
              · rw [hr, k2]; exact h6 d (by omega) (Nat.le_refl _)
              · rw [k4 r hr (by omega)]; exact h6 r (by omega) (by omega))
          exact ⟨sa2, c2, d2, e2, by omega, j2, j3, by omega, (k1.extend (by omega) (Nat.le_refl _) (by omega)).trans j5, ⟨fun _ => j6.1 hc, fun _ => by omega⟩, j7, j8, j9⟩
        · rw [if_neg hv]
          obtain ⟨sa2, c2, d2, e2, j1, j2, j3, j4, j5, j6, j7, j8, j9⟩ := ih sa d (by omega) hG (by omega) (by omega) h4 h5
            (fun r hr1 hr2 => by
              by_cases hr : r = c
              · rw [hr]; omega
              · exact h6 r (by omega) hr2)
          exact ⟨sa2, c2, d2, e2, by omega, j2, j3, j4, j5, ⟨fun _ => j6.1 hc, fun _ => by omega⟩, j7, j8, j9⟩
      · rw [if_neg hle]
        exact ⟨sa, c, d, rfl, by omega, by omega, by omega, Nat.le_refl _, Mov.refl _ _ _, ⟨fun _ => by omega, fun _ => rfl⟩, h5, fun r hr1 hr2 => h6 r (by omega) hr2, fun _ => by omega⟩
    · rw [if_neg hc]
      exact ⟨sa, c, d, rfl, by omega, by omega, by omega, Nat.le_refl _, Mov.refl _ _ _, ⟨fun _ => by omega, fun _ => rfl⟩, h5, fun r hr1 hr2 => h6 r (by omega) hr2, fun _ => by omega⟩

/-- The four parts: equal, below, above, equal. -/
structure Parts (K : Nat → Int) (first last : Nat) (v : Int) (s : Part) : Prop where
  fa : first ≤ s.a
  ab : s.a ≤ s.b
  bc : s.b ≤ s.c + 1
  cd : s.c ≤ s.d
  dl : s.d < last
  eqL : ∀ r, first ≤ r → r < s.a → K (dec (cel s.sa r)) = v
  lt : ∀ r, s.a ≤ r → r < s.b → K (dec (cel s.sa r)) < v
  gt : ∀ r, s.c < r → r ≤ s.d → v < K (dec (cel s.sa r))
  eqR : ∀ r, s.d < r → r < last → K (dec (cel s.sa r)) = v
  atb : s.b < last → v < K (dec (cel s.sa s.b))
  atc : s.b < s.c → K (dec (cel s.sa s.c)) < v

theorem crossLoop_spec {sa0 : List Int} (hG0 : Grp Q K isad first last sa0) (v : Int) : ∀ (n : Nat) (s : Part), s.c - s.b ≤ n → Mov first last sa0 s.sa →
    Parts K first last v s →
    ∃ s', crossLoop isad v s = some s' ∧ Mov first last sa0 s'.sa ∧ Parts K first last v s' ∧ s'.c ≤ s'.b := by
  intro n
  induction n with
  | zero =>
    intro s hn hm h
    rw [crossLoop, if_neg (by omega)]
    exact ⟨s, rfl, hm, h, by omega⟩
  | succ n ih =>
    intro s hn hm h
    have := h.fa; have := h.ab; have := h.bc; have := h.cd; have := h.dl
    rw [crossLoop]
    by_cases hbc : s.b < s.c
    · rw [if_pos hbc]
      have hG := hG0.mov hm
      obtain ⟨sa1, e1, k1, k2, k3, k4⟩ := swap_mov (sa := s.sa) (i := s.b) (j := s.c) (a := s.b) (b := s.c + 1) (by omega) (by omega) (by omega) (by omega)
        (by have := hG.room; omega)
      rw [bind_some' e1]
      have hm1 := k1.extend (a' := first) (b' := last) (by omega) (by omega) (by omega)
      have hG1 := hG.mov hm1
      obtain ⟨sa2, a2, b2, e2, j1, j2, j3, j4, j5, j6, j7, j8⟩ := scanLe_spec s.c v (by omega) _ sa1 s.a (s.b + 1) (Nat.le_refl _) hG1 (by omega) (by omega) (by omega)
        (fun r hr1 hr2 => by rw [k4 r (by omega) (by omega)]; exact h.eqL r hr1 hr2)
        (fun r hr1 hr2 => by
          by_cases hr : r = s.b
          · rw [hr, k2]; exact h.atc hbc
          · rw [k4 r hr (by omega)]; exact h.lt r hr1 (by omega))
      rw [bind_some' e2]
      have hm2 := j5.extend (a' := first) (b' := last) (Nat.le_refl _) (by omega) (by omega)
      have hG2 := hG1.mov hm2
      have hab : ∀ r, s.c ≤ r → r < last → cel sa2 r = cel sa1 r := fun r hr1 hr2 => j5.res.frame r (by omega)
      obtain ⟨sa3, c3, d3, e3, i1, i2, i3, i4, i5, i6, i7, i8, i9⟩ := scanGe_spec b2 v (by omega) s.c sa2 s.d (by omega) hG2 j4 (by omega) (by omega)
        (fun r hr1 hr2 => by rw [hab r (by omega) hr2, k4 r (by omega) (by omega)]; exact h.eqR r hr1 hr2)
        (fun r hr1 hr2 => by
          rw [hab r hr1 (by omega)]
          by_cases hr : r = s.c
          · rw [hr, k3]; exact h.atb (by omega)
          · rw [k4 r (by omega) hr]; exact h.gt r (by omega) hr2)
      simp only
      rw [bind_some' e3]
      simp only
      have hm3 := i5.extend (a' := first) (b' := last) (by omega) (Nat.le_refl _) (by omega)
      refine ih ⟨sa3, a2, b2, c3, d3⟩ (by show c3 - b2 ≤ n; omega) (((hm.trans hm1).trans hm2).trans hm3) ⟨by show first ≤ a2; omega, by show a2 ≤ b2; omega, i2, i3, by show d3 < last; omega, ?_, ?_, i8, i7, ?_, i9⟩
      · intro r hr1 hr2
        have hr2' : r < a2 := hr2
        show K (dec (cel sa3 r)) = v
        rw [i5.res.frame r (by omega)]; exact j6 r hr1 hr2'
      · intro r hr1 hr2
        have hr1' : a2 ≤ r := hr1
        have hr2' : r < b2 := hr2
        show K (dec (cel sa3 r)) < v
        rw [i5.res.frame r (by omega)]; exact j7 r hr1' hr2'
      · intro _
        show v < K (dec (cel sa3 b2))
        rcases Nat.lt_or_ge b2 s.c with hlt | hge
        · rw [i5.res.frame b2 (by have := i6.1 hlt; omega)]
          exact j8 hlt
        · rcases Nat.lt_or_ge d3 b2 with hd | hd
          · have := i6.2 hge; omega
          · exact i8 b2 (by omega) hd
    · rw [if_neg hbc]
      exact ⟨s, rfl, hm, h, by omega⟩

theorem threeWay_spec {sa : List Int} (hG : Grp Q K isad first last sa) (hfl : first < last) {middle : Nat} (hm1 : first ≤ middle)
    (hm2 : middle ≤ last) (v : Int) (hpre : ∀ r, first ≤ r → r < middle → K (dec (cel sa r)) = v) :
    ∃ s, threeWay isad middle last v sa = some s ∧ Mov first last sa s.sa ∧ Parts K first last v s ∧ s.c ≤ s.b := by
  unfold threeWay partLow
  obtain ⟨b, x, e1, h1, h2, h3, h4⟩ := scanEq_spec hG v _ middle 0 (Nat.le_refl _) (by omega) (by omega)
  rw [bind_some' e1]
  simp only
  have hfirst : ∀ r, first ≤ r → r < b → K (dec (cel sa r)) = v := by
    intro r hr1 hr2
    rcases Nat.lt_or_ge r middle with hr | hr
    · exact hpre r hr1 hr
    · exact h3 r hr hr2
  -- lower part
  have hlow : ∃ sa1 a1 b1, (if b < last ∧ x < v then scanLe isad last v sa b (b + 1) else pure (sa, b, b)) = some (sa1, a1, b1) ∧
      first ≤ a1 ∧ a1 ≤ b1 ∧ b1 ≤ last ∧ Mov first last sa sa1 ∧ (∀ r, first ≤ r → r < a1 → K (dec (cel sa1 r)) = v) ∧
      (∀ r, a1 ≤ r → r < b1 → K (dec (cel sa1 r)) < v) ∧ (b1 < last → v < K (dec (cel sa1 b1))) := by
    by_cases hx : b < last ∧ x < v
    · rw [if_pos hx]
      obtain ⟨hb, hxv⟩ := hx
      have hxe := (h4 hb).1
      obtain ⟨sa1, a1, b1, e2, j1, j2, j3, j4, j5, j6, j7, j8⟩ := scanLe_spec last v (Nat.le_refl _) _ sa b (b + 1) (Nat.le_refl _) hG (by omega) (by omega) (by omega)
        hfirst (fun r hr1 hr2 => by rw [show r = b by omega, ← hxe]; exact hxv)
      exact ⟨sa1, a1, b1, e2, by omega, by omega, j4, j5.extend (Nat.le_refl _) j4 (by omega), j6, j7, j8⟩
    · rw [if_neg hx]
      refine ⟨sa, b, b, rfl, by omega, Nat.le_refl _, h2, Mov.refl _ _ _, hfirst, fun r _ _ => by omega, fun hb => ?_⟩
      obtain ⟨h5, h6⟩ := h4 hb
      rw [← h5]
      rcases (show x < v ∨ v ≤ x by omega) with h | h
      · exact absurd ⟨hb, h⟩ hx
      · omega
  obtain ⟨sa1, a1, b1, e2, k1, k2, k3, k4, k5, k6, k7⟩ := hlow
  rw [bind_some' e2]
  simp only
  unfold partHigh
  have hG1 := hG.mov k4
  obtain ⟨c, x2, e3, j1, j2, j3, j4, j5⟩ := scanEqDown_spec hG1 b1 v (by omega) last 0 (by omega) k3 (Nat.le_refl _)
  rw [bind_some' e3]
  simp only
  have hhigh : ∃ sa2 c2 d2, (if b1 < c ∧ v < x2 then scanGe isad b1 v sa1 c c else pure (sa1, c, c)) = some (sa2, c2, d2) ∧
      b1 ≤ c2 + 1 ∧ c2 ≤ d2 ∧ d2 < last ∧ Mov (c2 + 1) last sa1 sa2 ∧ (b1 < last → b1 ≤ c2) ∧
      (∀ r, d2 < r → r < last → K (dec (cel sa2 r)) = v) ∧ (∀ r, c2 < r → r ≤ d2 → v < K (dec (cel sa2 r))) ∧
      (b1 < c2 → K (dec (cel sa2 c2)) < v) := by
    by_cases hx : b1 < c ∧ v < x2
    · rw [if_pos hx]
      obtain ⟨hb, hxv⟩ := hx
      have hxe := (j4 hb).1
      obtain ⟨sa3, c3, d3, e4, i1, i2, i3, i4, i5, i6, i7, i8, i9⟩ := scanGe_spec b1 v (by omega) c sa1 c (by omega) hG1 (by omega) (Nat.le_refl _) (by omega)
        j3 (fun r hr1 hr2 => by rw [show r = c by omega, ← hxe]; exact hxv)
      exact ⟨sa3, c3, d3, e4, i2, i3, by omega, i5, fun _ => i6.1 hb, i7, i8, i9⟩
    · rw [if_neg hx]
      refine ⟨sa1, c, c, rfl, j2, Nat.le_refl _, j1, Mov.refl _ _ _, j5, j3, fun r _ _ => by omega, fun hb => ?_⟩
      obtain ⟨h5, h6⟩ := j4 hb
      rw [← h5]
      rcases (show v < x2 ∨ x2 ≤ v by omega) with h | h
      · exact absurd ⟨hb, h⟩ hx
      · omega
  obtain ⟨sa2, c2, d2, e4, i1, i2, i3, i4, i5, i6, i7, i8⟩ := hhigh
  rw [bind_some' e4]
  simp only
  refine crossLoop_spec hG v _ ⟨sa2, a1, b1, c2, d2⟩ (Nat.le_refl _) (k4.trans (i4.extend (by omega) (Nat.le_refl _) (by omega)))
    ⟨k1, k2, i1, i2, i3, ?_, ?_, i7, i6, ?_, i8⟩
  · intro r hr1 hr2
    have hr2' : r < a1 := hr2
    show K (dec (cel sa2 r)) = v
    rw [i4.res.frame r (by omega)]; exact k5 r hr1 hr2'
  · intro r hr1 hr2
    have hr1' : a1 ≤ r := hr1
    have hr2' : r < b1 := hr2
    show K (dec (cel sa2 r)) < v
    rw [i4.res.frame r (by omega)]; exact k6 r hr1' hr2'
  · intro hb
    have hb' : b1 < last := hb
    show v < K (dec (cel sa2 b1))
    have := i5 hb'
    rw [i4.res.frame b1 (by omega)]; exact k7 hb'

/-- Lines 257-265 of trsort.c bring the keys in order: below, equal, above. -/
theorem gather_spec {sa : List Int} {v : Int} (hl : last ≤ sa.length) {a b c d : Nat} (h : Parts K first last v ⟨sa, a, b, c, d⟩) (hcb : c ≤ b) :
    ∃ sa' x y, gather first last ⟨sa, a, b, c, d⟩ = some (sa', x, y) ∧ Mov first last sa sa' ∧ first ≤ x ∧ x ≤ y ∧ y ≤ last ∧
      (∀ r, first ≤ r → r < x → K (dec (cel sa' r)) < v) ∧
      (∀ r, x ≤ r → r < y → K (dec (cel sa' r)) = v) ∧
      (∀ r, y ≤ r → r < last → v < K (dec (cel sa' r))) := by
  have hfa : first ≤ a := h.fa
  have hab : a ≤ b := h.ab
  have hbc : b ≤ c + 1 := h.bc
  have hcd : c ≤ d := h.cd
  have hdl : d < last := h.dl
  have heqL : ∀ r, first ≤ r → r < a → K (dec (cel sa r)) = v := h.eqL
  have hlt : ∀ r, a ≤ r → r < b → K (dec (cel sa r)) < v := h.lt
  have heqR : ∀ r, d < r → r < last → K (dec (cel sa r)) = v := h.eqR
  have hgt : ∀ r, b ≤ r → r ≤ d → v < K (dec (cel sa r)) := by
    intro r hr1 hr2
    by_cases hr : r = b
    · rw [hr]; exact h.atb (by show b < last; omega)
    · exact h.gt r (by show c < r; omega) hr2
  unfold gather
  simp only
  by_cases had : a ≤ d
  case neg =>
    rw [if_neg had]
    refine ⟨sa, first, last, rfl, Mov.refl _ _ _, Nat.le_refl _, by omega, Nat.le_refl _, fun r _ _ => by omega, ?_, fun r _ _ => by omega⟩
    intro r hr1 hr2
    rcases Nat.lt_or_ge r a with h1 | h1
    · exact heqL r hr1 h1
    · exact heqR r (by omega) hr2
  rw [if_pos had]
  generalize hn1 : min (a - first) (b - a) = n1
  obtain ⟨sa1, e1, k1, k2, k3, k4, k5⟩ := blockswap_spec n1 sa first (b - n1) (by omega) (by omega)
  rw [bind_some' e1]
  generalize hn2 : min (d + 1 - b) (last - d - 1) = n2
  obtain ⟨sa2, e2, j1, j2, j3, j4, j5⟩ := blockswap_spec n2 sa1 b (last - n2) (by omega) (by omega)
  rw [bind_some' e2]
  have hlow : ∀ r, first ≤ r → r < first + (b - a) → K (dec (cel sa1 r)) < v := by
    intro r hr1 hr2
    rcases Nat.lt_or_ge r (first + n1) with h1 | h1
    · have := k2 (r - first) (by omega)
      rw [show first + (r - first) = r by omega] at this
      rw [this]; exact hlt _ (by omega) (by omega)
    · rw [k4 r (by omega) (by omega)]; exact hlt r (by omega) (by omega)
  have hmid : ∀ r, first + (b - a) ≤ r → r < b → K (dec (cel sa1 r)) = v := by
    intro r hr1 hr2
    rcases Nat.lt_or_ge r (b - n1) with h1 | h1
    · rw [k4 r (by omega) (by omega)]; exact heqL r (by omega) (by omega)
    · have := k3 (r - (b - n1)) (by omega)
      rw [show b - n1 + (r - (b - n1)) = r by omega] at this
      rw [this]; exact heqL _ (by omega) (by omega)
  have hsame : ∀ r, b ≤ r → cel sa1 r = cel sa r := fun r hr => k4 r (by omega) (by omega)
  refine ⟨sa2, first + (b - a), last - (d + 1 - b), rfl, (k5 first last (by omega) (by omega)).trans (j5 first last (by omega) (by omega)),
    by omega, by omega, by omega, ?_, ?_, ?_⟩
  · intro r hr1 hr2
    rw [j4 r (by omega) (by omega)]; exact hlow r hr1 hr2
  · intro r hr1 hr2
    rcases Nat.lt_or_ge r b with h1 | h1
    · rw [j4 r (by omega) (by omega)]; exact hmid r hr1 h1
    · rcases Nat.lt_or_ge r (b + n2) with h2 | h2
      · have := j2 (r - b) (by omega)
        rw [show b + (r - b) = r by omega] at this
        rw [this, hsame _ (by omega)]; exact heqR _ (by omega) (by omega)
      · rw [j4 r (by omega) (by omega), hsame r (by omega)]; exact heqR r (by omega) (by omega)
  · intro r hr1 hr2
    rcases Nat.lt_or_ge r (last - n2) with h1 | h1
    · rw [j4 r (by omega) (by omega), hsame r (by omega)]; exact hgt r (by omega) (by omega)
    · have := j3 (r - (last - n2)) (by omega)
      rw [show last - n2 + (r - (last - n2)) = r by omega] at this
      rw [this, hsame _ (by omega)]; exact hgt _ (by omega) (by omega)

/-- `tr_partition`: below `v`, equal to `v`, above `v`. -/
theorem partition_spec {sa : List Int} (hG : Grp Q K isad first last sa) (hfl : first < last) {middle : Nat} (hm1 : first ≤ middle)
    (hm2 : middle ≤ last) (v : Int) (hpre : ∀ r, first ≤ r → r < middle → K (dec (cel sa r)) = v) :
    ∃ sa' a b, partition sa isad first middle last v = some (sa', a, b) ∧ Mov first last sa sa' ∧ first ≤ a ∧ a ≤ b ∧ b ≤ last ∧
      (∀ r, first ≤ r → r < a → K (dec (cel sa' r)) < v) ∧
      (∀ r, a ≤ r → r < b → K (dec (cel sa' r)) = v) ∧
      (∀ r, b ≤ r → r < last → v < K (dec (cel sa' r))) := by
  obtain ⟨⟨sa1, a, b, c, d⟩, e1, h1, h2, h3⟩ := threeWay_spec hG hfl hm1 hm2 v hpre
  have hm : Mov first last sa sa1 := h1
  obtain ⟨sa2, x, y, e2, k1, k2, k3, k4, k5, k6, k7⟩ := gather_spec (by rw [hm.res.len]; exact hG.room) h2 h3
  unfold partition
  rw [bind_some' e1]
  exact ⟨sa2, x, y, e2, hm.trans k1, k2, k3, k4, k5, k6, k7⟩

end Bwtc.Tr
