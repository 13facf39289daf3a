import Verif.WaveCode

/-!
# Facts on fixed codes and code trees
-/

set_option autoImplicit false

namespace Bwtc.Wave
open Huff

/-! ## Fixed codes -/

theorem translation_eq (b w : Nat) : translation b w + 2 ^ w = 2 ^ (w + b) + 1 := by
  have h1 : 1 ≤ 2 ^ b := Nat.one_le_two_pow
  rw [translation, Nat.shiftLeft_eq, Nat.shiftLeft_eq, Nat.one_mul, Nat.sub_mul, Nat.pow_add, Nat.mul_comm (2 ^ w)]
  have : 2 ^ w ≤ 2 ^ b * 2 ^ w := Nat.le_mul_of_pos_left _ (by omega)
  omega

theorem fixedB_spec {x w : Nat} (hx : 0 < x) :
    2 ^ (w + fixedB x w) ≤ x - 1 + 2 ^ w ∧ x - 1 + 2 ^ w < 2 ^ (w + fixedB x w + 1) := by
  have h1 : pred32 x = x - 1 := if_neg (by omega)
  have hne : x - 1 + 2 ^ w ≠ 0 := by have := Nat.one_le_two_pow (n := w); omega
  have hw : w ≤ (x - 1 + 2 ^ w).log2 := by
    rw [Nat.le_log2 hne]; omega
  have e : w + fixedB x w = (x - 1 + 2 ^ w).log2 := by rw [fixedB, h1]; omega
  rw [e]
  exact ⟨Nat.log2_self_le hne, Nat.lt_log2_self⟩

theorem fixedB_le {x w : Nat} (hx : 0 < x) (hx32 : x < 2 ^ 32) : fixedB x w ≤ 32 := by
  have h := (fixedB_spec (w := w) hx).1
  apply Decidable.byContradiction
  intro hc
  have : 2 ^ (w + 33) ≤ 2 ^ (w + fixedB x w) := Nat.pow_le_pow_right (by omega) (by omega)
  rw [Nat.pow_add] at this
  have : 1 ≤ 2 ^ w := Nat.one_le_two_pow
  omega

theorem fixed_translation {x w : Nat} (hx : 0 < x) :
    translation (fixedB x w) w ≤ x ∧ x - translation (fixedB x w) w < 2 ^ (w + fixedB x w) := by
  have h := fixedB_spec (w := w) hx
  have h2 := translation_eq (fixedB x w) w
  rw [Nat.pow_succ] at h
  omega

theorem fixedCode_eq {x w : Nat} (hx : 0 < x) (hw : w < 64) :
    fixedCode x w = some (List.replicate (fixedB x w) true ++
      false :: bitsOf (w + fixedB x w) (x - translation (fixedB x w) w)) := by
  rw [fixedCode, if_neg (by omega)]

theorem readOnes_replicate (b : Nat) (s : List Bool) :
    readOnes (List.replicate b true ++ false :: s) = some (b, s) := by
  induction b with
  | zero => rfl
  | succ b ih => rw [List.replicate_succ, List.cons_append, readOnes, ih]; rfl

theorem readFixed_code {x w : Nat} (hx : 0 < x) (hx32 : x < 2 ^ 32) (hw : w < 16) {c : List Bool}
    (hc : fixedCode x w = some c) (rest : List Bool) : readFixed w (c ++ rest) = some (x, rest) := by
  rw [fixedCode_eq hx (by omega)] at hc
  obtain rfl := (Option.some.inj hc).symm
  have hB := fixedB_le (w := w) hx hx32
  have ht := fixed_translation (w := w) hx
  rw [readFixed, List.append_assoc, List.cons_append, readOnes_replicate]
  simp only [Option.bind_eq_bind, Option.bind_some]
  rw [if_neg (by omega), readBits_append' (by rw [bitsOf_length]; omega)]
  simp only [Option.bind_some, natOf_bitsOf_of_lt ht.2]
  show some _ = some _
  rw [Nat.sub_add_cancel ht.1]

theorem fixedCode_length {x w : Nat} {c : List Bool} (hc : fixedCode x w = some c) :
    c.length = fixedLen x w := by
  by_cases h : x = 0 ∨ 64 ≤ w
  · rw [fixedCode, if_pos h] at hc
    simp at hc
  · rw [fixedCode, if_neg h] at hc
    obtain rfl := (Option.some.inj hc).symm
    simp [fixedLen]
    omega

/-! ## Code trees -/

/-- The subtree reached by a path. -/
def Sh.get : Sh → List Bool → Sh
  | t, [] => t
  | .nil, _ :: _ => .nil
  | .node _ l _, false :: p => l.get p
  | .node _ _ r, true :: p => r.get p

/-- The symbol stored in the root. -/
def Sh.sym : Sh → Option Nat
  | .nil => none
  | .node s _ _ => s

@[simp] theorem Sh.get_nil_path (t : Sh) : t.get [] = t := by cases t <;> rfl

@[simp] theorem Sh.nil_get (p : List Bool) : Sh.nil.get p = .nil := by cases p <;> rfl

theorem Sh.get_append (t : Sh) (p q : List Bool) : t.get (p ++ q) = (t.get p).get q := by
  induction p generalizing t with
  | nil => simp
  | cons b p ih =>
    cases t with
    | nil => simp
    | node s l r => cases b <;> exact ih _

theorem Sh.leaf_get (s : Nat) (b : Bool) (p : List Bool) : (Sh.leaf s).get (b :: p) = .nil := by
  cases b <;> exact Sh.nil_get p

/-- Trees in which every node without a symbol has two children, where a right child is a leaf
only if the left one is. -/
inductive Full : Sh → Prop
  | leaf (s : Nat) : Full (.leaf s)
  | node (l r : Sh) : Full l → Full r → (∀ s, r = .leaf s → ∃ s', l = .leaf s') →
      Full (.node none l r)

/-- The leaves from left to right: depth and symbol. -/
def leaves : Sh → Nat → List (Nat × Nat)
  | .nil, _ => []
  | .node (some s) _ _, d => [(d, s)]
  | .node none l r, d => leaves l (d + 1) ++ leaves r (d + 1)

theorem Full.ne_nil {t : Sh} (h : Full t) : t ≠ .nil := by cases h <;> simp [Sh.leaf]

theorem Full.leaves_ne {t : Sh} (h : Full t) (d : Nat) : leaves t d ≠ [] := by
  induction h generalizing d with
  | leaf s => simp [Sh.leaf, leaves]
  | node l r _ _ _ ih1 _ => simp [leaves, ih1]

theorem assign_spec (M : Nat) : ∀ (fuel : Nat) (lens : List (Nat × Nat)) (bits : Nat), M ≤ fuel + bits →
    (lens.map (·.1)).Pairwise (· ≤ ·) → (∀ p ∈ lens, bits < p.1 ∧ p.1 ≤ M) →
    2 ^ (M - bits) ≤ kraft M (lens.map (·.1)) →
    ∃ l r pre post, assign fuel lens bits = some (.node none l r, post) ∧ lens = pre ++ post ∧
      Full (.node none l r) ∧ leaves (.node none l r) bits = pre ∧
      kraft M (pre.map (·.1)) = 2 ^ (M - bits) := by
  intro fuel
  induction fuel with
  | zero =>
    intro lens bits hM _ hall hk
    cases lens with
    | nil => have := Nat.one_le_two_pow (n := M - bits); simp [kraft] at hk
    | cons p lens => have := hall p (by simp); omega
  | succ fuel ih =>
    intro lens bits hM hs hall hk
    cases lens with
    | nil => have := Nat.one_le_two_pow (n := M - bits); simp [kraft] at hk
    | cons p lens =>
      obtain ⟨len, s⟩ := p
      have hp := hall (len, s) (by simp)
      simp only at hp
      have hpow : 2 ^ (M - bits) = 2 ^ (M - (bits + 1)) + 2 ^ (M - (bits + 1)) := by
        rw [show M - bits = (M - (bits + 1)) + 1 by omega, Nat.pow_succ]; omega
      rw [assign.eq_def]
      simp only
      by_cases h1 : bits + 1 = len
      · subst h1
        rw [if_pos rfl]
        rw [List.map_cons, kraft_cons] at hk
        simp only at hk
        cases lens with
        | nil =>
          have := Nat.one_le_two_pow (n := M - (bits + 1))
          simp [kraft] at hk
          omega
        | cons q lens =>
          obtain ⟨len2, s2⟩ := q
          have hq := hall (len2, s2) (by simp)
          simp only at hq
          by_cases h2 : bits + 1 = len2
          · subst h2
            refine ⟨_, _, [(bits + 1, s), (bits + 1, s2)], lens, by simp only; rw [if_pos trivial], rfl, ?_, rfl, ?_⟩
            · exact .node _ _ (.leaf s) (.leaf s2) (fun _ _ => ⟨s, rfl⟩)
            · simp only [List.map_cons, List.map_nil, kraft_cons]
              simp [kraft]; omega
          · have hs' := (List.pairwise_cons.mp hs).2
            obtain ⟨l, r, pre, post, e1, e2, e3, e4, e5⟩ := ih ((len2, s2) :: lens) (bits + 1) (by omega) hs'
              (by
                intro p hp
                refine ⟨?_, (hall p (by simp only [List.mem_cons] at hp ⊢; exact Or.inr hp)).2⟩
                have hle : len2 ≤ p.1 := by
                  rw [List.mem_cons] at hp
                  rcases hp with rfl | hp
                  · exact Nat.le_refl _
                  · exact (List.pairwise_cons.mp hs').1 _ (List.mem_map.mpr ⟨p, hp, rfl⟩)
                omega) (by omega)
            refine ⟨.leaf s, .node none l r, (bits + 1, s) :: pre, post, ?_, ?_, ?_, ?_, ?_⟩
            · simp only
              rw [if_neg h2, if_pos (by omega), e1]
            · rw [List.cons_append, ← e2]
            · exact .node _ _ (.leaf s) e3 (fun _ _ => ⟨s, rfl⟩)
            · rw [leaves, e4]; rfl
            · rw [List.map_cons, kraft_cons, e5]; simp only; omega
      · rw [if_neg h1, if_pos (by omega)]
        have hhead : ∀ p ∈ (len, s) :: lens, bits + 1 < p.1 ∧ p.1 ≤ M := by
          intro p hp
          refine ⟨?_, (hall p hp).2⟩
          have hle : len ≤ p.1 := by
            rw [List.mem_cons] at hp
            rcases hp with rfl | hp
            · exact Nat.le_refl _
            · exact (List.pairwise_cons.mp hs).1 _ (List.mem_map.mpr ⟨p, hp, rfl⟩)
          omega
        obtain ⟨l, r, pre, post, e1, e2, e3, e4, e5⟩ := ih ((len, s) :: lens) (bits + 1) (by omega) hs hhead
          (by omega)
        rw [e1]
        rw [e2, List.map_append, kraft_append, e5] at hk
        rw [e2, List.map_append] at hs
        rw [e2] at hhead
        cases post with
        | nil => have := Nat.one_le_two_pow (n := M - (bits + 1)); simp [kraft] at hk; omega
        | cons q post =>
          obtain ⟨l', r', pre', post', f1, f2, f3, f4, f5⟩ := ih (q :: post) (bits + 1) (by omega)
            (List.pairwise_append.mp hs).2.1 (fun p hp => hhead p (List.mem_append.mpr (Or.inr hp))) (by omega)
          refine ⟨.node none l r, .node none l' r', pre ++ pre', post', ?_, ?_, ?_, ?_, ?_⟩
          · simp only [f1]
          · rw [List.append_assoc, ← f2, ← e2]
          · refine .node _ _ e3 f3 ?_
            intro s h
            simp [Sh.leaf] at h
          · rw [leaves, e4, f4]
          · rw [List.map_append, kraft_append, e5, f5]; omega

theorem foldl_max_ge (l : List (Nat × Nat)) (m : Nat) :
    m ≤ l.foldl (fun m p => max m p.1) m ∧ ∀ p ∈ l, p.1 ≤ l.foldl (fun m p => max m p.1) m := by
  induction l generalizing m with
  | nil => simp
  | cons q l ih =>
    rw [List.foldl_cons]
    have := ih (max m q.1)
    refine ⟨by omega, ?_⟩
    intro p hp
    rw [List.mem_cons] at hp
    rcases hp with rfl | hp
    · omega
    · exact this.2 p hp

/-- For sorted lengths satisfying the Kraft equality the tree has exactly the given leaves. -/
theorem buildTree_spec {lens : List (Nat × Nat)} (hs : (lens.map (·.1)).Pairwise (· ≤ ·))
    (hpos : ∀ p ∈ lens, 0 < p.1)
    (hk : ∀ m, (∀ p ∈ lens, p.1 ≤ m) → kraft m (lens.map (·.1)) = 2 ^ m) :
    ∃ l r, buildTree lens = some (.node none l r) ∧ Full (.node none l r) ∧
      leaves (.node none l r) 0 = lens := by
  have hm := foldl_max_ge lens 0
  rw [buildTree]
  generalize lens.foldl (fun m p => max m p.1) 0 = M at hm
  have hkM := hk M hm.2
  obtain ⟨l, r, pre, post, e1, e2, e3, e4, e5⟩ := assign_spec M (M + 1) lens 0 (by omega) hs
    (fun p hp => ⟨hpos p hp, hm.2 p hp⟩) (by simpa using Nat.le_of_eq hkM.symm)
  refine ⟨l, r, by rw [e1]; rfl, e3, ?_⟩
  have hpost : post = [] := by
    cases post with
    | nil => rfl
    | cons q post =>
      rw [e2, List.map_append, kraft_append, e5, List.map_cons, kraft_cons] at hkM
      have := Nat.one_le_two_pow (n := M - q.1)
      simp at hkM
  rw [e4, e2, hpost, List.append_nil]

/-! ## Collected codes -/

theorem collect_full {t : Sh} (h : Full t) : ∀ vec, ∃ cs, collect t vec = some cs ∧
    (cs.map fun p => (p.2.length, p.1)) = leaves t vec.length ∧
    (∀ p ∈ cs, ∃ q, p.2 = vec ++ q ∧ t.get q = .leaf p.1) ∧
    ∀ q s, t.get q = .leaf s → (s, vec ++ q) ∈ cs := by
  induction h with
  | leaf s =>
    intro vec
    refine ⟨[(s, vec)], rfl, rfl, ?_, ?_⟩
    · intro p hp
      rw [List.mem_singleton] at hp
      subst hp
      exact ⟨[], by simp, by simp⟩
    · intro q s' hq
      cases q with
      | nil => simp [Sh.leaf] at hq; simp [hq]
      | cons b q => rw [Sh.leaf_get] at hq; simp [Sh.leaf] at hq
  | node l r hl hr hc ihl ihr =>
    intro vec
    obtain ⟨a, a1, a2, a3, a4⟩ := ihl (vec ++ [false])
    obtain ⟨b, b1, b2, b3, b4⟩ := ihr (vec ++ [true])
    have e : collect (.node none l r) vec = some (a ++ b) := by
      have h1 := hl.ne_nil
      have h2 := hr.ne_nil
      cases l with
      | nil => exact absurd rfl h1
      | node s1 l1 r1 =>
        cases r with
        | nil => exact absurd rfl h2
        | node s2 l2 r2 =>
          rw [collect, a1, b1]
          rfl
    refine ⟨a ++ b, e, ?_, ?_, ?_⟩
    · rw [List.map_append, a2, b2, leaves]
      simp
    · intro p hp
      rw [List.mem_append] at hp
      rcases hp with hp | hp
      · obtain ⟨q, q1, q2⟩ := a3 p hp
        exact ⟨false :: q, by simp [q1], q2⟩
      · obtain ⟨q, q1, q2⟩ := b3 p hp
        exact ⟨true :: q, by simp [q1], q2⟩
    · intro q s hq
      cases q with
      | nil => simp [Sh.leaf] at hq
      | cons c q =>
        cases c with
        | false =>
          have := a4 q s hq
          rw [List.append_assoc] at this
          exact List.mem_append.mpr (Or.inl this)
        | true =>
          have := b4 q s hq
          rw [List.append_assoc] at this
          exact List.mem_append.mpr (Or.inr this)

theorem eq_of_nodup_fst {α β : Type} {l : List (α × β)} (hnd : (l.map (·.1)).Nodup) {p q : α × β} (hp : p ∈ l)
    (hq : q ∈ l) (h : p.1 = q.1) : p = q := by
  induction l with
  | nil => simp at hp
  | cons r l ih =>
    rw [List.map_cons, List.nodup_cons] at hnd
    rw [List.mem_cons] at hp hq
    rcases hp with rfl | hp <;> rcases hq with rfl | hq
    · rfl
    · exact absurd (List.mem_map.mpr ⟨q, hq, h.symm⟩) hnd.1
    · exact absurd (List.mem_map.mpr ⟨p, hp, h⟩) hnd.1
    · exact ih hnd.2 hp hq

/-- Looking up an assigned code, when every symbol is assigned once. -/
theorem codeOf_mem {cs : List (Nat × List Bool)} (hnd : (cs.map (·.1)).Nodup) {p : Nat × List Bool} (hp : p ∈ cs) :
    codeOf cs p.1 = p.2 := by
  rw [codeOf]
  cases hf : cs.reverse.find? (fun q => q.1 = p.1) with
  | none =>
    have := List.find?_eq_none.mp hf p (List.mem_reverse.mpr hp)
    simp at this
  | some q =>
    have h1 := List.find?_some hf
    have h2 := List.mem_reverse.mp (List.mem_of_find?_eq_some hf)
    simp only [decide_eq_true_eq] at h1
    show q.2 = p.2
    rw [eq_of_nodup_fst hnd h2 hp h1]

theorem codeOf_not_mem {cs : List (Nat × List Bool)} {s : Nat} (h : s ∉ cs.map (·.1)) : codeOf cs s = [] := by
  rw [codeOf]
  cases hf : cs.reverse.find? (fun q => q.1 = s) with
  | none => rfl
  | some q =>
    have h1 := List.find?_some hf
    have h2 := List.mem_reverse.mp (List.mem_of_find?_eq_some hf)
    simp only [decide_eq_true_eq] at h1
    exact absurd (List.mem_map.mpr ⟨q, h2, h1⟩) h

end Bwtc.Wave
