import Verif.SsBase

/-!
# The partitions of `ss_mintrosort`
-/

set_option autoImplicit false

namespace Bwtc.Ss
open Sais (put inv put_spec inv_inv bind_some')
open Divsuf (getI dec sub)
open Suffix

variable {T : List Nat} {P : Nat → Nat} {m pa : Nat}

/-- Two cells have been exchanged, maybe marked. -/
theorem perm_swap' {a b i j : Nat} {f g : Nat → Int} (hi : a ≤ i) (hi' : i < b) (hj : a ≤ j) (hj' : j < b)
    (h1 : dec (g i) = dec (f j)) (h2 : dec (g j) = dec (f i)) (h : ∀ r, r ≠ i → r ≠ j → a ≤ r → r < b → dec (g r) = dec (f r)) : Perm a b f g := by
  refine Perm.trans (g := fun r => if r = i then f j else if r = j then f i else f r) (perm_swap hi hi' hj hj' (if_pos rfl) ?_ ?_) (Perm.congr ?_)
  · show (if j = i then f j else if j = j then f i else f j) = f i
    by_cases hij : j = i
    · rw [if_pos hij, hij]
    · rw [if_neg hij, if_pos rfl]
  · intro r h3 h4 _ _
    show (if r = i then f j else if r = j then f i else f r) = f r
    rw [if_neg h3, if_neg h4]
  · intro r h3 h4
    show dec (if r = i then f j else if r = j then f i else f r) = dec (g r)
    by_cases hri : r = i
    · rw [if_pos hri, hri, h1]
    · rw [if_neg hri]
      by_cases hrj : r = j
      · rw [if_pos hrj, hrj, h2]
      · rw [if_neg hrj, h r hri hrj h3 h4]

/-! ## `ss_partition` -/

/-- The substring has just one character after `W`. -/
def Ended (T : List Nat) (P : Nat → Nat) (m : Nat) (W : List Nat) (i : Nat) : Prop := (sub T P m i).length = W.length + 1

theorem Env.atEnd' {sa : List Int} (h : Env T P m pa sa) {W : List Nat} {v : Int} (hv : 0 ≤ v) (hg : Good T P m W (dec v)) :
    ∃ e, Ss.atEnd sa pa W.length v = some e ∧ (e = true ↔ Ended T P m W (dec v)) := by
  obtain ⟨hi, x, rest, he⟩ := hg
  refine ⟨_, by rw [nat_of hv]; exact h.atEnd hi he, ?_⟩
  unfold Ended
  rw [he]; simp

theorem partUp_spec {W : List Nat} {b : Nat} (hb : b ≤ pa) : ∀ (n : Nat) (sa : List Int) (a : Nat), b - a ≤ n → a ≤ b → b ≤ sa.length →
    Env T P m pa sa → (∀ r, a ≤ r → r < b → 0 ≤ cel sa r ∧ Good T P m W (dec (cel sa r))) →
    ∃ sa' a', partUp pa W.length b sa a = some (sa', a') ∧ a ≤ a' ∧ a' ≤ b ∧ sa'.length = sa.length ∧
      (∀ r, a ≤ r → r < a' → cel sa' r = inv (cel sa r) ∧ Ended T P m W (dec (cel sa r))) ∧
      (∀ r, r < a ∨ a' ≤ r → cel sa' r = cel sa r) ∧ (a' < b → ¬ Ended T P m W (dec (cel sa a'))) := by
  intro n
  induction n with
  | zero =>
    intro sa a hn h1 h2 henv hg
    rw [partUp, if_neg (by omega)]
    exact ⟨sa, a, rfl, Nat.le_refl _, h1, rfl, fun r _ _ => by omega, fun _ _ => rfl, fun _ => by omega⟩
  | succ n ih =>
    intro sa a hn h1 h2 henv hg
    rw [partUp]
    by_cases hab : a < b
    · rw [if_pos hab, bind_some' (get_cel (by omega))]
      obtain ⟨h0, hga⟩ := hg a (Nat.le_refl _) hab
      obtain ⟨e, he, hend⟩ := henv.atEnd' h0 hga
      rw [bind_some' he]
      by_cases hE : e = true
      · rw [if_pos hE, bind_some' (put_spec (by omega) _)]
        obtain ⟨sa', a', e', h3, h4, h5, h6, h7, h8⟩ := ih (sa.set a (inv (cel sa a))) (a + 1) (by omega) (by omega) (by rw [List.length_set]; omega)
          (henv.frame (by rw [List.length_set]) (fun r hr => cel_set_ne _ (by omega)))
          (fun r hr1 hr2 => by rw [cel_set_ne _ (by omega)]; exact hg r (by omega) hr2)
        refine ⟨sa', a', e', by omega, h4, by rw [h5, List.length_set], ?_, ?_, ?_⟩
        · intro r hr1 hr2
          by_cases hr : r = a
          · subst hr
            rw [h7 r (by omega), cel_set_self (by omega)]
            exact ⟨rfl, hend.1 hE⟩
          · have := h6 r (by omega) hr2
            rwa [cel_set_ne _ hr] at this
        · intro r hr
          rw [h7 r (by omega), cel_set_ne _ (by omega)]
        · intro h9
          have := h8 h9
          rwa [cel_set_ne _ (by omega)] at this
      · rw [if_neg hE]
        exact ⟨sa, a, rfl, Nat.le_refl _, h1, rfl, fun r _ _ => by omega, fun _ _ => rfl, fun _ h => hE (hend.2 h)⟩
    · rw [if_neg hab]
      exact ⟨sa, a, rfl, Nat.le_refl _, h1, rfl, fun r _ _ => by omega, fun _ _ => rfl, fun _ => by omega⟩

theorem partDown_spec {W : List Nat} {a : Nat} {sa : List Int} (henv : Env T P m pa sa) : ∀ (b : Nat), 1 ≤ b → a ≤ b → b ≤ sa.length →
    (∀ r, a ≤ r → r < b → 0 ≤ cel sa r ∧ Good T P m W (dec (cel sa r))) →
    ∃ b', partDown pa W.length a sa b = some b' ∧ b' < b ∧ a ≤ b' + 1 ∧ (∀ r, b' < r → r < b → ¬ Ended T P m W (dec (cel sa r))) ∧
      (b' ≤ a ∨ Ended T P m W (dec (cel sa b'))) := by
  intro b
  induction b with
  | zero => intro h; omega
  | succ b ih =>
    intro _ h1 h2 hg
    rw [partDown]
    by_cases hab : a < b
    · rw [if_pos hab, bind_some' (get_cel (by omega))]
      obtain ⟨h0, hgb⟩ := hg b (by omega) (by omega)
      obtain ⟨e, he, hend⟩ := henv.atEnd' h0 hgb
      rw [bind_some' he]
      by_cases hE : e = true
      · rw [if_pos hE]
        exact ⟨b, rfl, by omega, by omega, fun r h3 h4 => by omega, Or.inr (hend.1 hE)⟩
      · rw [if_neg hE]
        obtain ⟨b', e', h3, h4, h5, h6⟩ := ih (by omega) (by omega) (by omega) (fun r hr1 hr2 => hg r hr1 (by omega))
        refine ⟨b', e', by omega, h4, fun r hr1 hr2 => ?_, h6⟩
        by_cases hr : r = b
        · subst hr; exact fun h => hE (hend.2 h)
        · exact h5 r hr1 (by omega)
    · rw [if_neg hab]
      exact ⟨b, rfl, by omega, by omega, fun r h3 h4 => by omega, Or.inl (by omega)⟩

theorem partLoop_spec {W : List Nat} {first last : Nat} (hpa : last ≤ pa) {sa0 : List Int} (henv0 : Env T P m pa sa0) (hl : last ≤ sa0.length)
    (hg0 : ∀ r, first ≤ r → r < last → Good T P m W (dec (cel sa0 r))) :
    ∀ (n : Nat) (sa : List Int) (a b : Nat), b - a ≤ n → 1 ≤ b → first ≤ a → a ≤ b → b ≤ last → Res first last sa0 sa →
    (∀ r, first ≤ r → r < a → cel sa r < 0 ∧ Ended T P m W (dec (cel sa r))) → (∀ r, a ≤ r → r < b → 0 ≤ cel sa r) →
    (∀ r, b ≤ r → r < last → 0 ≤ cel sa r ∧ ¬ Ended T P m W (dec (cel sa r))) →
    ∃ sa' a', partLoop pa W.length sa a b = some (sa', a') ∧ first ≤ a' ∧ a' ≤ last ∧ Res first last sa0 sa' ∧
      (∀ r, first ≤ r → r < a' → cel sa' r < 0 ∧ Ended T P m W (dec (cel sa' r))) ∧
      (∀ r, a' ≤ r → r < last → 0 ≤ cel sa' r ∧ ¬ Ended T P m W (dec (cel sa' r))) := by
  intro n
  induction n with
  | zero =>
    intro sa a b hn hb1 hfa hab hbl hres h1 h2 h3
    have e : a = b := by omega
    subst e
    have henv := henv0.res hres hpa
    have hlen := hres.len
    rw [partLoop]
    obtain ⟨sa1, a1, e1, k1, k2, k3, k4, k5, k6⟩ := partUp_spec (T := T) (P := P) (m := m) (W := W) (b := a) (by omega) _ sa a (Nat.le_refl _) (Nat.le_refl _) (by omega) henv (fun r _ _ => by omega)
    rw [bind_some' e1]
    have e3 : a1 = a := by omega
    subst e3
    have e4 : sa1 = sa := ext_cel k3 (fun r _ => k5 r (by omega))
    subst e4
    obtain ⟨b', e2, j1, j2, j3, j4⟩ := partDown_spec (W := W) (a := a1) henv a1 hb1 (Nat.le_refl _) (by omega) (fun r _ _ => by omega)
    simp only
    rw [bind_some' e2, if_pos (by omega)]
    exact ⟨sa1, a1, rfl, hfa, hbl, hres, h1, h3⟩
  | succ n ih =>
    intro sa a b hn hb1 hfa hab hbl hres h1 h2 h3
    have henv := henv0.res hres hpa
    have hlen := hres.len
    have hg := hres.all hg0
    rw [partLoop]
    obtain ⟨sa1, a1, e1, k1, k2, k3, k4, k5, k6⟩ := partUp_spec (W := W) (b := b) (by omega) _ sa a (Nat.le_refl _) hab (by omega) henv
      (fun r hr1 hr2 => ⟨h2 r hr1 hr2, hg r (by omega) (by omega)⟩)
    rw [bind_some' e1]
    have hdec : ∀ r, dec (cel sa1 r) = dec (cel sa r) := by
      intro r
      rcases Nat.lt_or_ge r a with h | h
      · rw [k5 r (Or.inl h)]
      · rcases Nat.lt_or_ge r a1 with h' | h'
        · rw [(k4 r h h').1, dec_inv]
        · rw [k5 r (Or.inr h')]
    have hres1 : Res first last sa0 sa1 := hres.trans ⟨k3, fun r hr => k5 r (by omega), Perm.congr (fun r _ _ => (hdec r).symm)⟩
    have henv1 := henv0.res hres1 hpa
    have hg1 := hres1.all hg0
    have h1' : ∀ r, first ≤ r → r < a1 → cel sa1 r < 0 ∧ Ended T P m W (dec (cel sa1 r)) := by
      intro r hr1 hr2
      rcases Nat.lt_or_ge r a with h | h
      · rw [k5 r (Or.inl h)]; exact h1 r hr1 h
      · rw [hdec]
        refine ⟨?_, (k4 r h hr2).2⟩
        rw [(k4 r h hr2).1, inv_neg_iff]
        exact h2 r h (by omega)
    obtain ⟨b', e2, j1, j2, j3, j4⟩ := partDown_spec (W := W) (a := a1) henv1 b hb1 k2 (by omega)
      (fun r hr1 hr2 => by rw [k5 r (Or.inr hr1)]; exact ⟨h2 r (by omega) hr2, hg r (by omega) (by omega)⟩)
    simp only
    rw [bind_some' e2]
    by_cases hba : b' ≤ a1
    · rw [if_pos hba]
      refine ⟨sa1, a1, rfl, by omega, by omega, hres1, h1', ?_⟩
      intro r hr1 hr2
      rcases Nat.lt_or_ge r b with h | h
      · refine ⟨by rw [k5 r (Or.inr hr1)]; exact h2 r (by omega) h, ?_⟩
        by_cases hr : r = a1
        · rw [hdec, hr]; exact k6 (by omega)
        · exact j3 r (by omega) h
      · rw [k5 r (by omega)]; exact h3 r h hr2
    · rw [if_neg hba, bind_some' (get_cel (by omega)), bind_some' (get_cel (by omega)), bind_some' (put_spec (by omega) _),
        bind_some' (put_spec (by rw [List.length_set]; omega) _)]
      have hEb : Ended T P m W (dec (cel sa1 b')) := by rcases j4 with h | h; omega; exact h
      have hc : ∀ r, cel ((sa1.set b' (cel sa1 a1)).set a1 (inv (cel sa1 b'))) r =
          if r = a1 then inv (cel sa1 b') else if r = b' then cel sa1 a1 else cel sa1 r := by
        intro r
        rw [cel_set (by rw [List.length_set]; omega), cel_set (by omega)]
      have hb0 : ∀ r, a1 ≤ r → r < b → 0 ≤ cel sa1 r := fun r hr1 hr2 => by rw [k5 r (Or.inr hr1)]; exact h2 r (by omega) hr2
      have hres2 : Res first last sa0 ((sa1.set b' (cel sa1 a1)).set a1 (inv (cel sa1 b'))) := by
        refine hres1.trans ⟨by simp, fun r hr => ?_, perm_swap' (i := a1) (j := b') (by omega) (by omega) (by omega) (by omega) ?_ ?_ ?_⟩
        · rw [hc, if_neg (by omega), if_neg (by omega)]
        · rw [hc, if_pos rfl, dec_inv]
        · rw [hc, if_neg (by omega), if_pos rfl]
        · intro r hr1 hr2 _ _
          rw [hc, if_neg hr1, if_neg hr2]
      refine ih _ (a1 + 1) b' (by omega) (by omega) (by omega) (by omega) (by omega) hres2 ?_ ?_ ?_
      · intro r hr1 hr2
        rw [hc]
        by_cases hr : r = a1
        · rw [if_pos hr, dec_inv, inv_neg_iff]
          exact ⟨hb0 b' (by omega) j1, hEb⟩
        · rw [if_neg hr, if_neg (by omega)]
          exact h1' r hr1 (by omega)
      · intro r hr1 hr2
        rw [hc, if_neg (by omega), if_neg (by omega)]
        exact hb0 r (by omega) (by omega)
      · intro r hr1 hr2
        rw [hc, if_neg (by omega)]
        by_cases hr : r = b'
        · rw [if_pos hr]
          refine ⟨hb0 a1 (Nat.le_refl _) (by omega), ?_⟩
          rw [hdec]; exact k6 (by omega)
        · rw [if_neg hr]
          rcases Nat.lt_or_ge r b with h | h
          · exact ⟨hb0 r (by omega) h, j3 r (by omega) h⟩
          · rw [k5 r (by omega)]; exact h3 r h hr2

/-- `ss_partition` moves the substrings that end after the next character to the front and marks all but the first one. -/
theorem partition_spec {W : List Nat} {first last : Nat} {sa : List Int} (henv : Env T P m pa sa) (hpa : last ≤ pa) (hl : last ≤ sa.length)
    (hfl : first < last) (h0 : ∀ r, first ≤ r → r < last → 0 ≤ cel sa r) (hg : ∀ r, first ≤ r → r < last → Good T P m W (dec (cel sa r))) :
    ∃ sa' a, partition pa sa first last W.length = some (sa', a) ∧ first ≤ a ∧ a ≤ last ∧ Res first last sa sa' ∧
      (∀ r, first ≤ r → r < a → (r = first → 0 ≤ cel sa' r) ∧ (r ≠ first → cel sa' r < 0) ∧ Ended T P m W (dec (cel sa' r))) ∧
      (∀ r, a ≤ r → r < last → 0 ≤ cel sa' r ∧ ¬ Ended T P m W (dec (cel sa' r))) := by
  unfold partition
  obtain ⟨sa1, a, e1, h1, h2, h3, h4, h5⟩ := partLoop_spec hpa henv hl hg _ sa first last (Nat.le_refl _) (by omega) (Nat.le_refl _) (by omega)
    (Nat.le_refl _) (Res.refl _ _ _) (fun r _ _ => by omega) h0 (fun r _ _ => by omega)
  rw [bind_some' e1]
  simp only
  have hlen := h3.len
  by_cases ha : first < a
  · rw [if_pos ha, bind_some' (flip_spec (by omega))]
    refine ⟨_, a, rfl, h1, h2, ⟨by rw [List.length_set, hlen], fun r hr => ?_, ?_⟩, ?_, ?_⟩
    · rw [cel_set_ne _ (by omega)]; exact h3.frame r hr
    · refine h3.perm.trans (Perm.congr (fun r _ _ => ?_))
      rw [cel_set (by omega)]
      by_cases hr : r = first
      · rw [if_pos hr, dec_inv, hr]
      · rw [if_neg hr]
    · intro r hr1 hr2
      rw [cel_set (by omega)]
      by_cases hr : r = first
      · rw [if_pos hr, dec_inv]
        have := h4 first (Nat.le_refl _) ha
        exact ⟨fun _ => by rw [inv_nonneg_iff]; exact this.1, fun h => absurd hr h, this.2⟩
      · rw [if_neg hr]
        exact ⟨fun h => absurd h hr, fun _ => (h4 r hr1 hr2).1, (h4 r hr1 hr2).2⟩
    · intro r hr1 hr2
      rw [cel_set_ne _ (by omega)]
      exact h5 r hr1 hr2
  · rw [if_neg ha]
    exact ⟨sa1, a, rfl, h1, h2, h3, fun r _ _ => by omega, h5⟩

/-! ## Exchanging cells -/

/-- A permutation that keeps cells unmarked. -/
structure Mov (a b : Nat) (sa sa' : List Int) : Prop where
  res : Res a b sa sa'
  pos : (∀ r, a ≤ r → r < b → 0 ≤ cel sa r) → ∀ r, a ≤ r → r < b → 0 ≤ cel sa' r

theorem Mov.refl (a b : Nat) (sa : List Int) : Mov a b sa sa := ⟨Res.refl _ _ _, fun h => h⟩

theorem Mov.trans {a b : Nat} {sa sa' sa'' : List Int} (h : Mov a b sa sa') (h' : Mov a b sa' sa'') : Mov a b sa sa'' :=
  ⟨h.res.trans h'.res, fun h0 => h'.pos (h.pos h0)⟩

theorem Mov.extend {a b a' b' : Nat} {sa sa' : List Int} (h : Mov a b sa sa') (h1 : a' ≤ a) (h2 : b ≤ b') (hab : a ≤ b) : Mov a' b' sa sa' := by
  refine ⟨h.res.extend h1 h2 hab, fun h0 r hr1 hr2 => ?_⟩
  by_cases hr : a ≤ r ∧ r < b
  · exact h.pos (fun x hx1 hx2 => h0 x (by omega) (by omega)) r hr.1 hr.2
  · rw [h.res.frame r (by omega)]; exact h0 r hr1 hr2

theorem swap_mov {sa : List Int} {i j a b : Nat} (hi : a ≤ i) (hi' : i < b) (hj : a ≤ j) (hj' : j < b) (hl : b ≤ sa.length) :
    ∃ sa', swap sa i j = some sa' ∧ Mov a b sa sa' ∧ cel sa' i = cel sa j ∧ cel sa' j = cel sa i ∧ ∀ r, r ≠ i → r ≠ j → cel sa' r = cel sa r := by
  obtain ⟨sa', e, h1, h2, h3, h4⟩ := swap_spec (sa := sa) (i := i) (j := j) (by omega) (by omega)
  refine ⟨sa', e, ⟨⟨h1, fun r hr => h4 r (by omega) (by omega), perm_swap hi hi' hj hj' h2 h3 (fun r h5 h6 _ _ => h4 r h5 h6)⟩, ?_⟩, h2, h3, h4⟩
  intro h0 r hr1 hr2
  by_cases h5 : r = i
  · rw [h5, h2]; exact h0 j hj hj'
  · by_cases h6 : r = j
    · rw [h6, h3]; exact h0 i hi hi'
    · rw [h4 r h5 h6]; exact h0 r hr1 hr2

theorem blockswap_spec : ∀ (n : Nat) (sa : List Int) (a b : Nat), a + n ≤ b → b + n ≤ sa.length →
    ∃ sa', blockswap sa a b n = some sa' ∧ sa'.length = sa.length ∧ (∀ r, r < n → cel sa' (a + r) = cel sa (b + r)) ∧
      (∀ r, r < n → cel sa' (b + r) = cel sa (a + r)) ∧ (∀ r, (r < a ∨ a + n ≤ r) → (r < b ∨ b + n ≤ r) → cel sa' r = cel sa r) ∧
      (∀ x y, x ≤ a → b + n ≤ y → Mov x y sa sa') := by
  intro n
  induction n with
  | zero => intro sa a b h1 h2; exact ⟨sa, rfl, rfl, fun r _ => by omega, fun r _ => by omega, fun _ _ _ => rfl, fun _ _ _ _ => Mov.refl _ _ _⟩
  | succ n ih =>
    intro sa a b h1 h2
    rw [blockswap]
    obtain ⟨sa1, e1, k1, k2, k3, k4⟩ := swap_mov (sa := sa) (i := a) (j := b) (a := a) (b := b + 1) (by omega) (by omega) (by omega) (by omega) (by omega)
    have hl := k1.res.len
    obtain ⟨sa2, e2, j1, j2, j3, j4, j5⟩ := ih sa1 (a + 1) (b + 1) (by omega) (by omega)
    refine ⟨sa2, by rw [bind_some' e1, e2], by omega, ?_, ?_, ?_, ?_⟩
    · intro r hr
      by_cases h : r = 0
      · subst h
        rw [j4 _ (by omega) (by omega)]; exact k2
      · have := j2 (r - 1) (by omega)
        rw [show a + 1 + (r - 1) = a + r by omega, show b + 1 + (r - 1) = b + r by omega] at this
        rw [this, k4 _ (by omega) (by omega)]
    · intro r hr
      by_cases h : r = 0
      · subst h
        rw [j4 _ (by omega) (by omega)]; exact k3
      · have := j3 (r - 1) (by omega)
        rw [show a + 1 + (r - 1) = a + r by omega, show b + 1 + (r - 1) = b + r by omega] at this
        rw [this, k4 _ (by omega) (by omega)]
    · intro r hr1 hr2
      rw [j4 r (by omega) (by omega), k4 r (by omega) (by omega)]
    · intro x y hx hy
      exact (k1.extend hx (by omega) (by omega)).trans (j5 x y (by omega) (by omega))

/-! ## The three-way partition -/

/-- The next character after `W`. -/
def kc (T : List Nat) (P : Nat → Nat) (W : List Nat) (i : Nat) : Nat := ch T (P i + W.length)

theorem Good.kc {W : List Nat} {i : Nat} (h : Good T P m W i) : ∃ rest, sub T P m i = W ++ kc T P W i :: rest := by
  obtain ⟨hi, x, rest, he⟩ := h
  refine ⟨rest, ?_⟩
  rw [he]; unfold Ss.kc; rw [(sub_ch hi he).1]

theorem Env.td' {sa : List Int} (h : Env T P m pa sa) {W : List Nat} {v : Int} (hv : 0 ≤ v) (hg : Good T P m W (dec v)) :
    tdAt T sa pa W.length v = some (kc T P W (dec v)) := by
  obtain ⟨rest, he⟩ := hg.kc
  rw [nat_of hv, dec_nat']
  exact h.td hg.1 he

theorem Env.tdCell {sa : List Int} (h : Env T P m pa sa) {W : List Nat} {r : Nat} (hl : r < sa.length) (hv : 0 ≤ cel sa r) (hg : Good T P m W (dec (cel sa r))) :
    tdCell T sa pa W.length r = some (kc T P W (dec (cel sa r))) := by
  unfold Ss.tdCell
  rw [bind_some' (get_cel hl), h.td' hv hg]

/-- What stays the same while a group is partitioned. -/
structure Grp (T : List Nat) (P : Nat → Nat) (m pa : Nat) (W : List Nat) (first last : Nat) (sa : List Int) : Prop where
  env : Env T P m pa sa
  below : last ≤ pa
  room : last ≤ sa.length
  pos : ∀ r, first ≤ r → r < last → 0 ≤ cel sa r
  good : ∀ r, first ≤ r → r < last → Good T P m W (dec (cel sa r))

theorem Grp.mov {W : List Nat} {first last : Nat} {sa sa' : List Int} (h : Grp T P m pa W first last sa) (hm : Mov first last sa sa') :
    Grp T P m pa W first last sa' :=
  ⟨h.env.res hm.res h.below, h.below, by rw [hm.res.len]; exact h.room, hm.pos h.pos, hm.res.all h.good⟩

theorem Grp.td {W : List Nat} {first last : Nat} {sa : List Int} (h : Grp T P m pa W first last sa) {r : Nat} (h1 : first ≤ r) (h2 : r < last) :
    tdCell T sa pa W.length r = some (kc T P W (dec (cel sa r))) :=
  h.env.tdCell (by have := h.room; omega) (h.pos r h1 h2) (h.good r h1 h2)

variable {W : List Nat} {first last : Nat}

theorem scanEq_spec {sa : List Int} (hG : Grp T P m pa W first last sa) (v : Nat) : ∀ (n b x : Nat), last - b ≤ n → first ≤ b → b ≤ last →
    ∃ b' x', scanEq T sa pa W.length last v b x = some (b', x') ∧ b ≤ b' ∧ b' ≤ last ∧
      (∀ r, b ≤ r → r < b' → kc T P W (dec (cel sa r)) = v) ∧ (b' < last → x' = kc T P W (dec (cel sa b')) ∧ x' ≠ v) := by
  intro n
  induction n with
  | zero =>
    intro b x h1 h2 h3
    rw [scanEq, if_neg (by omega)]
    exact ⟨b, x, rfl, Nat.le_refl _, h3, fun r _ _ => by omega, fun _ => by omega⟩
  | succ n ih =>
    intro b x h1 h2 h3
    rw [scanEq]
    by_cases hb : b < last
    · rw [if_pos hb, bind_some' (hG.td h2 hb)]
      by_cases hv : kc T P W (dec (cel sa b)) = v
      · rw [if_pos hv]
        obtain ⟨b', x', e, h4, h5, h6, h7⟩ := ih (b + 1) (kc T P W (dec (cel sa b))) (by omega) (by omega) (by omega)
        refine ⟨b', x', e, by omega, h5, fun r hr1 hr2 => ?_, h7⟩
        by_cases hr : r = b
        · rw [hr]; exact hv
        · exact h6 r (by omega) hr2
      · rw [if_neg hv]
        exact ⟨b, _, rfl, Nat.le_refl _, h3, fun r _ _ => by omega, fun _ => ⟨rfl, hv⟩⟩
    · rw [if_neg hb]
      exact ⟨b, x, rfl, Nat.le_refl _, h3, fun r _ _ => by omega, fun _ => by omega⟩

theorem scanEqDown_spec {sa : List Int} (hG : Grp T P m pa W first last sa) (b v : Nat) (hb : first ≤ b) : ∀ (c x : Nat), 1 ≤ c → b ≤ c → c ≤ last →
    ∃ c' x', scanEqDown T sa pa W.length b v c x = some (c', x') ∧ c' < c ∧ b ≤ c' + 1 ∧
      (∀ r, c' < r → r < c → kc T P W (dec (cel sa r)) = v) ∧ (b < c' → x' = kc T P W (dec (cel sa c')) ∧ x' ≠ v) ∧ (b < c → b ≤ c') := by
  intro c
  induction c with
  | zero => intro x h; omega
  | succ c ih =>
    intro x _ h2 h3
    rw [scanEqDown]
    by_cases hc : b < c
    · rw [if_pos hc, bind_some' (hG.td (by omega) (by omega))]
      by_cases hv : kc T P W (dec (cel sa c)) = v
      · rw [if_pos hv]
        obtain ⟨c', x', e, h4, h5, h6, h7, h8⟩ := ih (kc T P W (dec (cel sa c))) (by omega) (by omega) (by omega)
        refine ⟨c', x', e, by omega, h5, fun r hr1 hr2 => ?_, h7, fun _ => h8 hc⟩
        by_cases hr : r = c
        · rw [hr]; exact hv
        · exact h6 r hr1 (by omega)
      · rw [if_neg hv]
        exact ⟨c, _, rfl, by omega, by omega, fun r _ _ => by omega, fun _ => ⟨rfl, hv⟩, fun _ => by omega⟩
    · rw [if_neg hc]
      exact ⟨c, x, rfl, by omega, by omega, fun r _ _ => by omega, fun _ => by omega, fun _ => by omega⟩

theorem scanLe_spec (e v : Nat) (he : e ≤ last) : ∀ (n : Nat) (sa : List Int) (a b : Nat), e - b ≤ n → Grp T P m pa W first last sa →
    first ≤ a → a < b → b ≤ e →
    (∀ r, first ≤ r → r < a → kc T P W (dec (cel sa r)) = v) → (∀ r, a ≤ r → r < b → kc T P W (dec (cel sa r)) < v) →
    ∃ sa' a' b', scanLe T pa W.length e v sa a b = some (sa', a', b') ∧ a ≤ a' ∧ a' < b' ∧ b ≤ b' ∧ b' ≤ e ∧ Mov first b' sa sa' ∧
      (∀ r, first ≤ r → r < a' → kc T P W (dec (cel sa' r)) = v) ∧ (∀ r, a' ≤ r → r < b' → kc T P W (dec (cel sa' r)) < v) ∧
      (b' < e → v < kc T P W (dec (cel sa' b'))) := by
  intro n
  induction n with
  | zero =>
    intro sa a b h1 hG h2 h3 h4 h5 h6
    rw [scanLe, if_neg (by omega)]
    exact ⟨sa, a, b, rfl, Nat.le_refl _, h3, Nat.le_refl _, h4, Mov.refl _ _ _, h5, h6, fun _ => by omega⟩
  | succ n ih =>
    intro sa a b h1 hG h2 h3 h4 h5 h6
    rw [scanLe]
    by_cases hb : b < e
    · rw [if_pos hb, bind_some' (hG.td (by omega) (by omega))]
      by_cases hle : kc T P W (dec (cel sa b)) ≤ v
      · rw [if_pos hle]
        by_cases hv : kc T P W (dec (cel sa b)) = v
        · rw [if_pos hv]
          obtain ⟨sa1, e1, k1, k2, k3, k4⟩ := swap_mov (sa := sa) (i := b) (j := a) (a := first) (b := b + 1) (by omega) (by omega) (by omega) (by omega)
            (by have := hG.room; omega)
          rw [bind_some' e1]
          obtain ⟨sa2, a2, b2, e2, j1, j2, j3, j4, j5, j6, j7, j8⟩ := ih sa1 (a + 1) (b + 1) (by omega)
            (hG.mov (k1.extend (Nat.le_refl _) (by omega) (by omega))) (by omega) (by omega) (by omega)
            (fun r hr1 hr2 => by
              by_cases hr : r = a
              · rw [hr, k3]; exact hv
              · rw [k4 r (by omega) hr]; exact h5 r hr1 (by omega))
            (fun r hr1 hr2 => by
              by_cases hr : r = b
              · rw [hr, k2]; exact h6 a (Nat.le_refl _) h3
              · rw [k4 r hr (by omega)]; exact h6 r (by omega) (by omega))
          exact ⟨sa2, a2, b2, e2, by omega, j2, by omega, j4, (k1.extend (Nat.le_refl _) (by omega) (by omega)).trans j5, j6, j7, j8⟩
        · rw [if_neg hv]
          obtain ⟨sa2, a2, b2, e2, j1, j2, j3, j4, j5, j6, j7, j8⟩ := ih sa a (b + 1) (by omega) hG h2 (by omega) (by omega) h5
            (fun r hr1 hr2 => by
              by_cases hr : r = b
              · rw [hr]; omega
              · exact h6 r hr1 (by omega))
          exact ⟨sa2, a2, b2, e2, j1, j2, by omega, j4, j5, j6, j7, j8⟩
      · rw [if_neg hle]
        exact ⟨sa, a, b, rfl, Nat.le_refl _, h3, Nat.le_refl _, h4, Mov.refl _ _ _, h5, h6, fun _ => by omega⟩
    · rw [if_neg hb]
      exact ⟨sa, a, b, rfl, Nat.le_refl _, h3, Nat.le_refl _, h4, Mov.refl _ _ _, h5, h6, fun _ => by omega⟩

theorem scanGe_spec (b v : Nat) (hb : first ≤ b) : ∀ (c : Nat) (sa : List Int) (d : Nat), 1 ≤ c → Grp T P m pa W first last sa →
    b ≤ c → c ≤ d → d < last →
    (∀ r, d < r → r < last → kc T P W (dec (cel sa r)) = v) → (∀ r, c ≤ r → r ≤ d → v < kc T P W (dec (cel sa r))) →
    ∃ sa' c' d', scanGe T pa W.length b v sa c d = some (sa', c', d') ∧ c' < c ∧ b ≤ c' + 1 ∧ c' ≤ d' ∧ d' ≤ d ∧
      Mov (c' + 1) last sa sa' ∧ ((b < c → b ≤ c') ∧ (c ≤ b → d' = d)) ∧
      (∀ r, d' < r → r < last → kc T P W (dec (cel sa' r)) = v) ∧ (∀ r, c' < r → r ≤ d' → v < kc T P W (dec (cel sa' r))) ∧
      (b < c' → kc T P W (dec (cel sa' c')) < v) := by
  intro c
  induction c with
  | zero => intro sa d h; omega
  | succ c ih =>
    intro sa d _ hG h2 h3 h4 h5 h6
    rw [scanGe]
    by_cases hc : b < c
    · rw [if_pos hc, bind_some' (hG.td (by omega) (by omega))]
      by_cases hle : v ≤ kc T P W (dec (cel sa c))
      · rw [if_pos hle]
        by_cases hv : kc T P W (dec (cel sa c)) = v
        · rw [if_pos hv]
          obtain ⟨sa1, e1, k1, k2, k3, k4⟩ := swap_mov (sa := sa) (i := c) (j := d) (a := c) (b := last) (by omega) (by omega) (by omega) (by omega)
            hG.room
          rw [bind_some' e1, if_neg (by omega)]
          obtain ⟨sa2, c2, d2, e2, j1, j2, j3, j4, j5, j6, j7, j8, j9⟩ := ih sa1 (d - 1) (by omega)
            (hG.mov (k1.extend (by omega) (Nat.le_refl _) (by omega))) (by omega) (by omega) (by omega)
            (fun r hr1 hr2 => by
              by_cases hr : r = d
              · rw [hr, k3]; exact hv
              · rw [k4 r (by omega) hr]; exact h5 r (by omega) hr2)
            (fun r hr1 hr2 => by
              by_cases hr : r = c
              · rw [hr, k2]; exact h6 d (by omega) (Nat.le_refl _)
              · rw [k4 r hr (by omega)]; exact h6 r (by omega) (by omega))
          exact ⟨sa2, c2, d2, e2, by omega, j2, j3, by omega, (k1.extend (by omega) (Nat.le_refl _) (by omega)).trans j5, ⟨fun _ => j6.1 hc, fun _ => by omega⟩, j7, j8, j9⟩
        · rw [if_neg hv]
          obtain ⟨sa2, c2, d2, e2, j1, j2, j3, j4, j5, j6, j7, j8, j9⟩ := ih sa d (by omega) hG (by omega) (by omega) h4 h5
            (fun r hr1 hr2 => by
              by_cases hr : r = c
              · rw [hr]; omega
              · exact h6 r (by omega) hr2)
          exact ⟨sa2, c2, d2, e2, by omega, j2, j3, j4, j5, ⟨fun _ => j6.1 hc, fun _ => by omega⟩, j7, j8, j9⟩
      · rw [if_neg hle]
        exact ⟨sa, c, d, rfl, by omega, by omega, by omega, Nat.le_refl _, Mov.refl _ _ _, ⟨fun _ => by omega, fun _ => rfl⟩, h5, fun r hr1 hr2 => h6 r (by omega) hr2, fun _ => by omega⟩
    · rw [if_neg hc]
      exact ⟨sa, c, d, rfl, by omega, by omega, by omega, Nat.le_refl _, Mov.refl _ _ _, ⟨fun _ => by omega, fun _ => rfl⟩, h5, fun r hr1 hr2 => h6 r (by omega) hr2, fun _ => by omega⟩

/-- The four parts: equal, below, above, equal. -/
structure Parts (T : List Nat) (P : Nat → Nat) (W : List Nat) (first last v : Nat) (s : Part) : Prop where
  fa : first < s.a
  ab : s.a ≤ s.b
  bc : s.b ≤ s.c + 1
  cd : s.c ≤ s.d
  dl : s.d < last
  eqL : ∀ r, first ≤ r → r < s.a → kc T P W (dec (cel s.sa r)) = v
  lt : ∀ r, s.a ≤ r → r < s.b → kc T P W (dec (cel s.sa r)) < v
  gt : ∀ r, s.c < r → r ≤ s.d → v < kc T P W (dec (cel s.sa r))
  eqR : ∀ r, s.d < r → r < last → kc T P W (dec (cel s.sa r)) = v
  atb : s.b < last → v < kc T P W (dec (cel s.sa s.b))
  atc : s.b < s.c → kc T P W (dec (cel s.sa s.c)) < v

theorem crossLoop_spec {sa0 : List Int} (hG0 : Grp T P m pa W first last sa0) (v : Nat) : ∀ (n : Nat) (s : Part), s.c - s.b ≤ n → Mov first last sa0 s.sa →
    Parts T P W first last v s →
    ∃ s', crossLoop T pa W.length v s = some s' ∧ Mov first last sa0 s'.sa ∧ Parts T P W first last v s' ∧ s'.c ≤ s'.b := by
  intro n
  induction n with
  | zero =>
    intro s hn hm h
    rw [crossLoop, if_neg (by omega)]
    exact ⟨s, rfl, hm, h, by omega⟩
  | succ n ih =>
    intro s hn hm h
    have := h.fa; have := h.ab; have := h.bc; have := h.cd; have := h.dl
    rw [crossLoop]
    by_cases hbc : s.b < s.c
    · rw [if_pos hbc]
      have hG := hG0.mov hm
      obtain ⟨sa1, e1, k1, k2, k3, k4⟩ := swap_mov (sa := s.sa) (i := s.b) (j := s.c) (a := s.b) (b := s.c + 1) (by omega) (by omega) (by omega) (by omega)
        (by have := hG.room; omega)
      rw [bind_some' e1]
      have hm1 := k1.extend (a' := first) (b' := last) (by omega) (by omega) (by omega)
      have hG1 := hG.mov hm1
      obtain ⟨sa2, a2, b2, e2, j1, j2, j3, j4, j5, j6, j7, j8⟩ := scanLe_spec s.c v (by omega) _ sa1 s.a (s.b + 1) (Nat.le_refl _) hG1 (by omega) (by omega) (by omega)
        (fun r hr1 hr2 => by rw [k4 r (by omega) (by omega)]; exact h.eqL r hr1 hr2)
        (fun r hr1 hr2 => by
          by_cases hr : r = s.b
          · rw [hr, k2]; exact h.atc hbc
          · rw [k4 r hr (by omega)]; exact h.lt r hr1 (by omega))
      rw [bind_some' e2]
      have hm2 := j5.extend (a' := first) (b' := last) (Nat.le_refl _) (by omega) (by omega)
      have hG2 := hG1.mov hm2
      have hab : ∀ r, s.c ≤ r → r < last → cel sa2 r = cel sa1 r := fun r hr1 hr2 => j5.res.frame r (by omega)
      obtain ⟨sa3, c3, d3, e3, i1, i2, i3, i4, i5, i6, i7, i8, i9⟩ := scanGe_spec b2 v (by omega) s.c sa2 s.d (by omega) hG2 j4 (by omega) (by omega)
        (fun r hr1 hr2 => by rw [hab r (by omega) hr2, k4 r (by omega) (by omega)]; exact h.eqR r hr1 hr2)
        (fun r hr1 hr2 => by
          rw [hab r hr1 (by omega)]
          by_cases hr : r = s.c
          · rw [hr, k3]; exact h.atb (by omega)
          · rw [k4 r (by omega) hr]; exact h.gt r (by omega) hr2)
      simp only
      rw [bind_some' e3]
      simp only
      have hm3 := i5.extend (a' := first) (b' := last) (by omega) (Nat.le_refl _) (by omega)
      refine ih ⟨sa3, a2, b2, c3, d3⟩ (by show c3 - b2 ≤ n; omega) (((hm.trans hm1).trans hm2).trans hm3) ⟨by show first < a2; omega, by show a2 ≤ b2; omega, i2, i3, by show d3 < last; omega, ?_, ?_, i8, i7, ?_, i9⟩
      · intro r hr1 hr2
        have hr2' : r < a2 := hr2
        show kc T P W (dec (cel sa3 r)) = v
        rw [i5.res.frame r (by omega)]; exact j6 r hr1 hr2'
      · intro r hr1 hr2
        have hr1' : a2 ≤ r := hr1
        have hr2' : r < b2 := hr2
        show kc T P W (dec (cel sa3 r)) < v
        rw [i5.res.frame r (by omega)]; exact j7 r hr1' hr2'
      · intro _
        show v < kc T P W (dec (cel sa3 b2))
        rcases Nat.lt_or_ge b2 s.c with hlt | hge
        · rw [i5.res.frame b2 (by have := i6.1 hlt; omega)]
          exact j8 hlt
        · rcases Nat.lt_or_ge d3 b2 with hd | hd
          · have := i6.2 hge; omega
          · exact i8 b2 (by omega) hd
    · rw [if_neg hbc]
      exact ⟨s, rfl, hm, h, by omega⟩

theorem threeWay_spec {sa : List Int} (hG : Grp T P m pa W first last sa) (hfl : first + 1 < last) :
    ∃ s, threeWay T pa W.length first last (kc T P W (dec (cel sa first))) sa = some s ∧ Mov first last sa s.sa ∧
      Parts T P W first last (kc T P W (dec (cel sa first))) s ∧ s.c ≤ s.b := by
  generalize hv : kc T P W (dec (cel sa first)) = v
  unfold threeWay partLow
  obtain ⟨b, x, e1, h1, h2, h3, h4⟩ := scanEq_spec hG v _ (first + 1) v (Nat.le_refl _) (by omega) (by omega)
  rw [bind_some' e1]
  simp only
  have hfirst : ∀ r, first ≤ r → r < b → kc T P W (dec (cel sa r)) = v := by
    intro r hr1 hr2
    by_cases hr : r = first
    · rw [hr]; exact hv
    · exact h3 r (by omega) hr2
  -- lower part
  have hlow : ∃ sa1 a1 b1, (if b < last ∧ x < v then scanLe T pa W.length last v sa b (b + 1) else pure (sa, b, b)) = some (sa1, a1, b1) ∧
      first < a1 ∧ a1 ≤ b1 ∧ b1 ≤ last ∧ Mov first last sa sa1 ∧ (∀ r, first ≤ r → r < a1 → kc T P W (dec (cel sa1 r)) = v) ∧
      (∀ r, a1 ≤ r → r < b1 → kc T P W (dec (cel sa1 r)) < v) ∧ (b1 < last → v < kc T P W (dec (cel sa1 b1))) := by
    by_cases hx : b < last ∧ x < v
    · rw [if_pos hx]
      obtain ⟨hb, hxv⟩ := hx
      have hxe := (h4 hb).1
      obtain ⟨sa1, a1, b1, e2, j1, j2, j3, j4, j5, j6, j7, j8⟩ := scanLe_spec last v (Nat.le_refl _) _ sa b (b + 1) (Nat.le_refl _) hG (by omega) (by omega) (by omega)
        hfirst (fun r hr1 hr2 => by rw [show r = b by omega, ← hxe]; exact hxv)
      exact ⟨sa1, a1, b1, e2, by omega, by omega, j4, j5.extend (Nat.le_refl _) j4 (by omega), j6, j7, j8⟩
    · rw [if_neg hx]
      refine ⟨sa, b, b, rfl, by omega, Nat.le_refl _, h2, Mov.refl _ _ _, hfirst, fun r _ _ => by omega, fun hb => ?_⟩
      obtain ⟨h5, h6⟩ := h4 hb
      rw [← h5]
      rcases Nat.lt_or_ge x v with h | h
      · exact absurd ⟨hb, h⟩ hx
      · omega
  obtain ⟨sa1, a1, b1, e2, k1, k2, k3, k4, k5, k6, k7⟩ := hlow
  rw [bind_some' e2]
  simp only
  unfold partHigh
  have hG1 := hG.mov k4
  obtain ⟨c, x2, e3, j1, j2, j3, j4, j5⟩ := scanEqDown_spec hG1 b1 v (by omega) last v (by omega) k3 (Nat.le_refl _)
  rw [bind_some' e3]
  simp only
  have hhigh : ∃ sa2 c2 d2, (if b1 < c ∧ v < x2 then scanGe T pa W.length b1 v sa1 c c else pure (sa1, c, c)) = some (sa2, c2, d2) ∧
      b1 ≤ c2 + 1 ∧ c2 ≤ d2 ∧ d2 < last ∧ Mov (c2 + 1) last sa1 sa2 ∧ (b1 < last → b1 ≤ c2) ∧
      (∀ r, d2 < r → r < last → kc T P W (dec (cel sa2 r)) = v) ∧ (∀ r, c2 < r → r ≤ d2 → v < kc T P W (dec (cel sa2 r))) ∧
      (b1 < c2 → kc T P W (dec (cel sa2 c2)) < v) := by
    by_cases hx : b1 < c ∧ v < x2
    · rw [if_pos hx]
      obtain ⟨hb, hxv⟩ := hx
      have hxe := (j4 hb).1
      obtain ⟨sa3, c3, d3, e4, i1, i2, i3, i4, i5, i6, i7, i8, i9⟩ := scanGe_spec b1 v (by omega) c sa1 c (by omega) hG1 (by omega) (Nat.le_refl _) (by omega)
        j3 (fun r hr1 hr2 => by rw [show r = c by omega, ← hxe]; exact hxv)
      exact ⟨sa3, c3, d3, e4, i2, i3, by omega, i5, fun _ => i6.1 hb, i7, i8, i9⟩
    · rw [if_neg hx]
      refine ⟨sa1, c, c, rfl, j2, Nat.le_refl _, j1, Mov.refl _ _ _, j5, j3, fun r _ _ => by omega, fun hb => ?_⟩
      obtain ⟨h5, h6⟩ := j4 hb
      rw [← h5]
      rcases Nat.lt_or_ge v x2 with h | h
      · exact absurd ⟨hb, h⟩ hx
      · omega
  obtain ⟨sa2, c2, d2, e4, i1, i2, i3, i4, i5, i6, i7, i8⟩ := hhigh
  rw [bind_some' e4]
  simp only
  refine crossLoop_spec hG v _ ⟨sa2, a1, b1, c2, d2⟩ (Nat.le_refl _) (k4.trans (i4.extend (by omega) (Nat.le_refl _) (by omega)))
    ⟨k1, k2, i1, i2, i3, ?_, ?_, i7, i6, ?_, i8⟩
  · intro r hr1 hr2
    have hr2' : r < a1 := hr2
    show kc T P W (dec (cel sa2 r)) = v
    rw [i4.res.frame r (by omega)]; exact k5 r hr1 hr2'
  · intro r hr1 hr2
    have hr1' : a1 ≤ r := hr1
    have hr2' : r < b1 := hr2
    show kc T P W (dec (cel sa2 r)) < v
    rw [i4.res.frame r (by omega)]; exact k6 r hr1' hr2'
  · intro hb
    have hb' : b1 < last := hb
    show v < kc T P W (dec (cel sa2 b1))
    have := i5 hb'
    rw [i4.res.frame b1 (by omega)]; exact k7 hb'

/-- Lines 392-399 of sssort.c bring the characters in order: below, equal, above. -/
theorem gather_spec {sa : List Int} {v : Nat} (hl : last ≤ sa.length) {a b c d : Nat} (h : Parts T P W first last v ⟨sa, a, b, c, d⟩) (hcb : c ≤ b) :
    ∃ sa', gather first last ⟨sa, a, b, c, d⟩ = some (sa', first + (b - a), last - (d + 1 - b)) ∧ Mov first last sa sa' ∧
      first + (b - a) < last - (d + 1 - b) ∧ b ≤ d + 1 ∧ d < last ∧ first < a ∧ a ≤ b ∧
      (∀ r, first ≤ r → r < first + (b - a) → kc T P W (dec (cel sa' r)) < v) ∧
      (∀ r, first + (b - a) ≤ r → r < last - (d + 1 - b) → kc T P W (dec (cel sa' r)) = v) ∧
      (∀ r, last - (d + 1 - b) ≤ r → r < last → v < kc T P W (dec (cel sa' r))) := by
  have hfa : first < a := h.fa
  have hab : a ≤ b := h.ab
  have hbc : b ≤ c + 1 := h.bc
  have hcd : c ≤ d := h.cd
  have hdl : d < last := h.dl
  have heqL : ∀ r, first ≤ r → r < a → kc T P W (dec (cel sa r)) = v := h.eqL
  have hlt : ∀ r, a ≤ r → r < b → kc T P W (dec (cel sa r)) < v := h.lt
  have heqR : ∀ r, d < r → r < last → kc T P W (dec (cel sa r)) = v := h.eqR
  have hgt : ∀ r, b ≤ r → r ≤ d → v < kc T P W (dec (cel sa r)) := by
    intro r hr1 hr2
    by_cases hr : r = b
    · rw [hr]; exact h.atb (by show b < last; omega)
    · exact h.gt r (by show c < r; omega) hr2
  unfold gather
  simp only
  rw [if_neg (by omega)]
  generalize hn1 : min (a - first) (b - a) = n1
  obtain ⟨sa1, e1, k1, k2, k3, k4, k5⟩ := blockswap_spec n1 sa first (b - n1) (by omega) (by omega)
  rw [bind_some' e1]
  generalize hn2 : min (d - (b - 1)) (last - d - 1) = n2
  obtain ⟨sa2, e2, j1, j2, j3, j4, j5⟩ := blockswap_spec n2 sa1 b (last - n2) (by omega) (by omega)
  rw [bind_some' e2]
  have hlow : ∀ r, first ≤ r → r < first + (b - a) → kc T P W (dec (cel sa1 r)) < v := by
    intro r hr1 hr2
    rcases Nat.lt_or_ge r (first + n1) with h1 | h1
    · have := k2 (r - first) (by omega)
      rw [show first + (r - first) = r by omega] at this
      rw [this]; exact hlt _ (by omega) (by omega)
    · rw [k4 r (by omega) (by omega)]; exact hlt r (by omega) (by omega)
  have hmid : ∀ r, first + (b - a) ≤ r → r < b → kc T P W (dec (cel sa1 r)) = v := by
    intro r hr1 hr2
    rcases Nat.lt_or_ge r (b - n1) with h1 | h1
    · rw [k4 r (by omega) (by omega)]; exact heqL r (by omega) (by omega)
    · have := k3 (r - (b - n1)) (by omega)
      rw [show b - n1 + (r - (b - n1)) = r by omega] at this
      rw [this]; exact heqL _ (by omega) (by omega)
  have hsame : ∀ r, b ≤ r → cel sa1 r = cel sa r := fun r hr => k4 r (by omega) (by omega)
  refine ⟨sa2, ?_, (k5 first last (by omega) (by omega)).trans (j5 first last (by omega) (by omega)), by omega, by omega, hdl, hfa, hab, ?_, ?_, ?_⟩
  · rw [show d - (b - 1) = d + 1 - b by omega]; rfl
  · intro r hr1 hr2
    rw [j4 r (by omega) (by omega)]; exact hlow r hr1 hr2
  · intro r hr1 hr2
    rcases Nat.lt_or_ge r b with h1 | h1
    · rw [j4 r (by omega) (by omega)]; exact hmid r hr1 h1
    · rcases Nat.lt_or_ge r (b + n2) with h2 | h2
      · have := j2 (r - b) (by omega)
        rw [show b + (r - b) = r by omega] at this
        rw [this, hsame _ (by omega)]; exact heqR _ (by omega) (by omega)
      · rw [j4 r (by omega) (by omega), hsame r (by omega)]; exact heqR r (by omega) (by omega)
  · intro r hr1 hr2
    rcases Nat.lt_or_ge r (last - n2) with h1 | h1
    · rw [j4 r (by omega) (by omega), hsame r (by omega)]; exact hgt r (by omega) (by omega)
    · have := j3 (r - (last - n2)) (by omega)
      rw [show last - n2 + (r - (last - n2)) = r by omega] at this
      rw [this, hsame _ (by omega)]; exact hgt _ (by omega) (by omega)

end Bwtc.Ss
