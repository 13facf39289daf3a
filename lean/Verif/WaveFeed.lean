import Verif.WaveBF

/-!
# Feeding the coded bits to the decoder; the loops over the bits of one node
-/

set_option autoImplicit false

namespace Bwtc.Wave
open ProbModels RangeCoder

/-! ## Programs on lists of items -/

/-- Running a program on the list of the encoder's calls: every question must come with the
probability the encoder used. -/
def Prog.feed {α : Type} : Prog α → List (Bool × Nat) → Option (α × List (Bool × Nat))
  | .ret a, items => some (a, items)
  | .fail, _ => none
  | .ask _ _, [] => none
  | .ask p k, (b, p') :: items => if p = p' then (k b).feed items else none

theorem Prog.feed_bind {α β : Type} (m : Prog α) (f : α → Prog β) (items : List (Bool × Nat)) :
    (m.bind f).feed items = (m.feed items).bind fun r => (f r.1).feed r.2 := by
  induction m generalizing items with
  | ret a => rw [Prog.bind, Prog.feed]; rfl
  | fail => rw [Prog.bind, Prog.feed, Prog.feed]; rfl
  | ask p k ih =>
    cases items with
    | nil => rw [Prog.bind, Prog.feed, Prog.feed]; rfl
    | cons x items =>
      rw [Prog.bind, Prog.feed, Prog.feed]
      split
      · exact ih _ _
      · rfl

theorem Prog.feed_lift {α : Type} {o : Option α} {a : α} (h : o = some a) (items : List (Bool × Nat)) :
    (Prog.lift o).feed items = some (a, items) := by
  rw [h, Prog.lift, Prog.feed]

theorem Prog.feed_lift_bind {α β : Type} {o : Option α} {a : α} (h : o = some a) (f : α → Prog β)
    (items : List (Bool × Nat)) : ((Prog.lift o).bind f).feed items = (f a).feed items := by
  rw [Prog.feed_bind, Prog.feed_lift h]; rfl

/-- A program that succeeds on the encoder's calls succeeds on the range decoder that reads the
encoder's output, with the same result. -/
theorem Prog.exec_of_feed {α : Type} (m : Prog α) {items rest : List (Bool × Nat)} {a : α}
    (h : m.feed items = some (a, rest)) (hp : ∀ x ∈ items, x.2 ≤ 4096) {d : Dec} {r : Range} {tail : List Bool}
    (hd : DecRel d r items tail) : ∃ d' r', m.exec d = some (a, d') ∧ DecRel d' r' rest tail := by
  induction m generalizing items d r with
  | ret b =>
    rw [Prog.feed, Option.some.injEq, Prod.mk.injEq] at h
    obtain ⟨rfl, rfl⟩ := h
    exact ⟨d, r, rfl, hd⟩
  | fail => simp [Prog.feed] at h
  | ask p k ih =>
    cases items with
    | nil => simp [Prog.feed] at h
    | cons x items =>
      obtain ⟨b, p'⟩ := x
      rw [Prog.feed] at h
      split at h
      · rename_i e
        subst e
        obtain ⟨d', r', h1, h2⟩ := hd.step (hp (b, p) (by simp)) (fun x hx => hp x (by simp [hx]))
        obtain ⟨d2, r2, h3, h4⟩ := ih b h (fun x hx => hp x (by simp [hx])) h2
        refine ⟨d2, r2, ?_, h4⟩
        rw [Prog.exec, h1]
        exact h3
      · simp at h

/-! ## Loops -/

section
variable {σ₁ σ₃ : Type} (P : Model σ₁) (A : Model σ₃)

theorem feed_decBit {σ : Type} (M : Model σ) {s s' : σ} {b : Bool} {p : Nat} (h : encBit M s b = some (p, s'))
    (rest : List (Bool × Nat)) : (decBit M s).feed ((b, p) :: rest) = some ((b, s'), rest) := by
  rw [encBit] at h
  cases hp : M.prob s with
  | none => rw [hp] at h; simp at h
  | some p' =>
    rw [hp] at h
    simp only [Option.bind_eq_bind, Option.bind_some] at h
    cases hu : M.update s b with
    | none => rw [hu] at h; simp at h
    | some s2 =>
      rw [hu] at h
      have h : some (p', s2) = some (p, s') := h
      rw [Option.some.injEq, Prod.mk.injEq] at h
      obtain ⟨rfl, rfl⟩ := h
      rw [decBit, Prog.feed_lift_bind hp, Prog.feed, if_pos rfl, Prog.feed_lift_bind hu, Prog.feed]

theorem bind_some {α β : Type} {o : Option α} {f : α → Option β} {b : β} (h : (o >>= f) = some b) :
    ∃ a, o = some a ∧ f a = some b := Option.bind_eq_some_iff.mp h

theorem feed_decBits {σ : Type} (M : Model σ) : ∀ (bits : List Bool) (s : σ) (items : List (Bool × Nat)) (s' : σ),
    encBits M bits s = some (items, s') → ∀ rest,
    (decBits M bits.length s).feed (items ++ rest) = some ((bits, s'), rest)
  | [], s, items, s', h, rest => by
    rw [encBits, Option.some.injEq, Prod.mk.injEq] at h
    obtain ⟨rfl, rfl⟩ := h
    rfl
  | b :: bs, s, items, s', h, rest => by
    rw [encBits] at h
    obtain ⟨⟨p, s1⟩, h1, h⟩ := bind_some h
    obtain ⟨⟨it, s2⟩, h2, h⟩ := bind_some h
    have h : some ((b, p) :: it, s2) = some (items, s') := h
    rw [Option.some.injEq, Prod.mk.injEq] at h
    obtain ⟨rfl, rfl⟩ := h
    rw [List.length_cons, decBits, Prog.feed_bind, List.cons_append, feed_decBit M h1]
    simp only [Option.bind_some]
    rw [Prog.feed_bind, feed_decBits M bs s1 it s2 h2]
    rfl

/-- Bits of a node whose children both have symbols: an unflagged bit differs from the one before. -/
def BothOk : Bool → List Bool → List Bool → Prop
  | _, [], [] => True
  | prev, b :: bs, f :: fs => (f = false → b = !prev) ∧ BothOk b bs fs
  | _, _, _ => False

theorem feed_decBoth : ∀ (bits flags : List Bool) (prev : Bool) (s : σ₃) (items : List (Bool × Nat)) (s' : σ₃),
    BothOk prev bits flags → encBoth A bits flags s = some (items, s') → ∀ rest,
    (decBoth A prev flags s).feed (items ++ rest) = some ((bits, s'), rest)
  | [], [], prev, s, items, s', _, h, rest => by
    rw [encBoth, Option.some.injEq, Prod.mk.injEq] at h
    obtain ⟨rfl, rfl⟩ := h
    rfl
  | [], _ :: _, _, _, _, _, ho, _, _ => ho.elim
  | _ :: _, [], _, _, _, _, ho, _, _ => ho.elim
  | b :: bs, false :: gs, prev, s, items, s', ho, h, rest => by
    rw [encBoth] at h
    have hb : b = !prev := ho.1 rfl
    rw [decBoth, Prog.feed_bind, ← hb, feed_decBoth bs gs b s items s' ho.2 h]
    rfl
  | b :: bs, true :: gs, prev, s, items, s', ho, h, rest => by
    rw [encBoth] at h
    obtain ⟨⟨p, s1⟩, h1, h⟩ := bind_some h
    obtain ⟨⟨it, s2⟩, h2, h⟩ := bind_some h
    have h : some ((b, p) :: it, s2) = some (items, s') := h
    rw [Option.some.injEq, Prod.mk.injEq] at h
    obtain ⟨rfl, rfl⟩ := h
    rw [decBoth, Prog.feed_bind, List.cons_append, feed_decBit A h1]
    simp only [Option.bind_some]
    rw [Prog.feed_bind, feed_decBoth bs gs b s1 it s2 ho.2 h2]
    rfl

/-- Bits of a node with a symbol on the left only: an unflagged bit behind a zero is a one. -/
def MixedOk (leftSym : Bool) : Bool → List Bool → List Bool → Prop
  | _, [], [] => True
  | prev, b :: bs, f :: fs => (leftSym = true → f = false → prev = false → b = true) ∧ MixedOk leftSym b bs fs
  | _, _, _ => False

theorem feed_decMixed (leftSym : Bool) : ∀ (bits flags : List Bool) (prev : Bool) (s1 : σ₁) (s3 : σ₃)
    (items : List (Bool × Nat)) (s' : σ₁ × σ₃),
    MixedOk leftSym prev bits flags → encMixed P A leftSym prev bits flags s1 s3 = some (items, s') → ∀ rest,
    (decMixed P A leftSym prev flags s1 s3).feed (items ++ rest) = some ((bits, s'), rest)
  | [], [], prev, s1, s3, items, s', _, h, rest => by
    rw [encMixed, Option.some.injEq, Prod.mk.injEq] at h
    obtain ⟨rfl, rfl⟩ := h
    rfl
  | [], _ :: _, _, _, _, _, _, ho, _, _ => ho.elim
  | _ :: _, [], _, _, _, _, _, ho, _, _ => ho.elim
  | b :: bs, true :: gs, prev, s1, s3, items, s', ho, h, rest => by
    rw [encMixed] at h
    obtain ⟨⟨p, t3⟩, h1, h⟩ := bind_some h
    obtain ⟨t1, h2, h⟩ := bind_some h
    obtain ⟨⟨it, t⟩, h3, h⟩ := bind_some h
    have h : some ((b, p) :: it, t) = some (items, s') := h
    rw [Option.some.injEq, Prod.mk.injEq] at h
    obtain ⟨rfl, rfl⟩ := h
    rw [decMixed, Prog.feed_bind, List.cons_append, feed_decBit A h1]
    simp only [Option.bind_some]
    rw [Prog.feed_lift_bind h2, Prog.feed_bind, feed_decMixed leftSym bs gs b t1 t3 it t ho.2 h3]
    rfl
  | b :: bs, false :: gs, prev, s1, s3, items, s', ho, h, rest => by
    rw [encMixed] at h
    rw [decMixed]
    by_cases hc : (leftSym && !prev) = true
    · rw [if_pos hc] at h ⊢
      have hb : b = true := by
        cases leftSym <;> cases prev <;> simp at hc
        exact ho.1 rfl rfl rfl
      subst hb
      rw [Prog.feed_bind, feed_decMixed leftSym bs gs true s1 s3 items s' ho.2 h]
      rfl
    · rw [if_neg hc] at h ⊢
      obtain ⟨⟨p, t1⟩, h1, h⟩ := bind_some h
      obtain ⟨⟨it, t⟩, h3, h⟩ := bind_some h
      have h : some ((b, p) :: it, t) = some (items, s') := h
      rw [Option.some.injEq, Prod.mk.injEq] at h
      obtain ⟨rfl, rfl⟩ := h
      rw [Prog.feed_bind, List.cons_append, feed_decBit P h1]
      simp only [Option.bind_some]
      rw [Prog.feed_bind, feed_decMixed leftSym bs gs b t1 s3 it t ho.2 h3]
      rfl

end

/-! ## Gap vectors -/

/-- Flags for the bytes passing a node, in order: the first one is flagged, and a byte is flagged
unless it differs from the one before. -/
def FlagsOk : Option UInt8 → List UInt8 → List Bool → Prop
  | _, [], [] => True
  | prev, x :: xs, f :: fs => (f = true ∨ ∃ y, prev = some y ∧ y ≠ x) ∧ FlagsOk (some x) xs fs
  | _, _, _ => False

theorem FlagsOk.length {prev : Option UInt8} {xs : List UInt8} {fs : List Bool} (h : FlagsOk prev xs fs) :
    fs.length = xs.length := by
  induction xs generalizing prev fs with
  | nil =>
    cases fs with
    | nil => rfl
    | cons f fs => exact h.elim
  | cons x xs ih =>
    cases fs with
    | nil => exact h.elim
    | cons f fs => rw [List.length_cons, List.length_cons, ih h.2]

/-- The gap vector of a child. -/
theorem FlagsOk.child {β : UInt8 → Bool} {b : Bool} : ∀ {xs : List UInt8} {fs : List Bool} {prev prev' : Option UInt8}
    {pb : Bool}, FlagsOk prev xs fs → (∀ y, prev = some y → pb = β y) → (∀ y, prev = some y → β y = b → prev' = some y) →
    FlagsOk prev' (xs.filter fun x => decide (β x = b)) (childGaps b pb (xs.map β) fs)
  | [], [], _, _, _, _, _, _ => trivial
  | [], _ :: _, _, _, _, h, _, _ => h.elim
  | _ :: _, [], _, _, _, h, _, _ => h.elim
  | x :: xs, f :: fs, prev, prev', pb, h, h1, h2 => by
    rw [List.map_cons, childGaps, List.filter_cons]
    by_cases hx : β x = b
    · rw [if_pos hx, if_pos (decide_eq_true hx)]
      refine ⟨?_, FlagsOk.child h.2 (fun y e => by rw [Option.some.injEq] at e; rw [e])
        (fun y e _ => e)⟩
      rcases h.1 with hf | ⟨y, hy, hne⟩
      · left; rw [hf, Bool.or_true]
      · by_cases hb : β y = b
        · right; exact ⟨y, h2 y hy hb, hne⟩
        · left
          rw [h1 y hy, hx]
          have : (β y != b) = true := by simpa using hb
          rw [this, Bool.true_or]
    · rw [if_neg hx, if_neg (by simpa using hx)]
      refine FlagsOk.child h.2 (fun y e => by rw [Option.some.injEq] at e; rw [e]) ?_
      intro y e hb
      rw [Option.some.injEq] at e
      rw [e] at hx
      exact absurd hb hx

/-- The first byte is flagged, so the initial value of the previous bit does not matter. -/
theorem FlagsOk.first {xs : List UInt8} {fs : List Bool} (h : FlagsOk none xs fs) : xs = [] ∧ fs = [] ∨
    ∃ x xs' fs', xs = x :: xs' ∧ fs = true :: fs' ∧ FlagsOk (some x) xs' fs' := by
  cases xs with
  | nil =>
    cases fs with
    | nil => exact Or.inl ⟨rfl, rfl⟩
    | cons f fs => exact h.elim
  | cons x xs =>
    cases fs with
    | nil => exact h.elim
    | cons f fs =>
      rcases h.1 with hf | ⟨y, hy, _⟩
      · exact Or.inr ⟨x, xs, fs, rfl, by rw [hf], h.2⟩
      · simp at hy

theorem childGaps_first (b p p' x : Bool) (xs fs : List Bool) :
    childGaps b p (x :: xs) (true :: fs) = childGaps b p' (x :: xs) (true :: fs) := by
  rw [childGaps, childGaps, Bool.or_true, Bool.or_true]

/-- The gap vectors below the root: the initial value of the previous bit has the effect of a flag at
the first bit. -/
theorem childGaps_root (b p x : Bool) (xs fs : List Bool) :
    childGaps b (!x) (x :: xs) (false :: fs) = childGaps b p (x :: xs) (true :: fs) := by
  rw [childGaps, childGaps, Bool.or_true, Bool.or_false]
  cases x <;> rfl

theorem childGaps_length (b : Bool) : ∀ (p : Bool) (xs fs : List Bool), fs.length = xs.length →
    (childGaps b p xs fs).length = xs.count b
  | _, [], [], _ => rfl
  | _, [], _ :: _, h => by simp at h
  | _, _ :: _, [], h => by simp at h
  | p, x :: xs, f :: fs, h => by
    rw [childGaps, List.count_cons]
    have ih := childGaps_length b x xs fs (by simpa using h)
    by_cases hx : x = b
    · rw [if_pos hx, List.length_cons, ih]; simp [hx]
    · rw [if_neg hx, ih]; simp [hx]

theorem FlagsOk.both {β : UInt8 → Bool} {S : List UInt8} (hinj : ∀ x ∈ S, ∀ y ∈ S, β x = β y → x = y) :
    ∀ {xs : List UInt8} {fs : List Bool} {prev : Option UInt8} {pb : Bool}, (∀ x ∈ xs, x ∈ S) →
    (∀ y, prev = some y → pb = β y ∧ y ∈ S) → FlagsOk prev xs fs → BothOk pb (xs.map β) fs
  | [], [], _, _, _, _, _ => trivial
  | [], _ :: _, _, _, _, _, h => h.elim
  | _ :: _, [], _, _, _, _, h => h.elim
  | x :: xs, f :: fs, prev, pb, hS, hp, h => by
    refine ⟨?_, FlagsOk.both hinj (fun y hy => hS y (List.mem_cons_of_mem _ hy))
      (fun y e => by rw [Option.some.injEq] at e; rw [← e]; exact ⟨rfl, hS x (by simp)⟩) h.2⟩
    intro hf
    rcases h.1 with hf' | ⟨y, hy, hne⟩
    · rw [hf] at hf'; simp at hf'
    · have hb : β x ≠ β y := fun e => hne (hinj x (hS x (by simp)) y (hp y hy).2 e).symm
      rw [(hp y hy).1]
      cases e1 : β x <;> cases e2 : β y <;> simp_all

theorem FlagsOk.mixed {β : UInt8 → Bool} {S : List UInt8} {leftSym : Bool}
    (hinj : leftSym = true → ∀ x ∈ S, ∀ y ∈ S, β x = false → β y = false → x = y) :
    ∀ {xs : List UInt8} {fs : List Bool} {prev : Option UInt8} {pb : Bool}, (∀ x ∈ xs, x ∈ S) →
    (∀ y, prev = some y → pb = β y ∧ y ∈ S) → FlagsOk prev xs fs → MixedOk leftSym pb (xs.map β) fs
  | [], [], _, _, _, _, _ => trivial
  | [], _ :: _, _, _, _, _, h => h.elim
  | _ :: _, [], _, _, _, _, h => h.elim
  | x :: xs, f :: fs, prev, pb, hS, hp, h => by
    refine ⟨?_, FlagsOk.mixed hinj (fun y hy => hS y (List.mem_cons_of_mem _ hy))
      (fun y e => by rw [Option.some.injEq] at e; rw [← e]; exact ⟨rfl, hS x (by simp)⟩) h.2⟩
    intro hl hf hpb
    rcases h.1 with hf' | ⟨y, hy, hne⟩
    · rw [hf] at hf'; simp at hf'
    · cases e : β x with
      | true => rfl
      | false => exact absurd (hinj hl x (hS x (by simp)) y (hp y hy).2 e (by rw [← (hp y hy).1, hpb])).symm hne

/-! ## Totality of the loops of the encoder -/

/-- All calls are defined on the states satisfying `I`, which the calls preserve, and the probabilities are at
most 4096. -/
structure Total {σ : Type} (M : Model σ) (I : σ → Prop) : Prop where
  update : ∀ s b, I s → ∃ s', M.update s b = some s' ∧ I s'
  updateState : ∀ s b, I s → ∃ s', M.updateState s b = some s' ∧ I s'
  reset : ∀ s, I s → ∃ s', M.reset s = some s' ∧ I s'
  prob : ∀ s, I s → ∃ p, M.prob s = some p ∧ p ≤ 4096

theorem Safe.total {σ : Type} {M : Model σ} {I : σ → Prop} (h : Safe M I) : Total M I where
  update := fun s b hs => h.step s (.update b) hs
  updateState := fun s b hs => h.step s (.updateState b) hs
  reset := fun s hs => h.step s .reset hs
  prob := fun s hs => by
    obtain ⟨p, h1, _, h2⟩ := h.prob s hs
    exact ⟨p, h1, by omega⟩

section
variable {σ₁ σ₃ : Type} {P : Model σ₁} {A : Model σ₃} {I : σ₁ → Prop} {J : σ₃ → Prop}

theorem encBit_total {σ : Type} {M : Model σ} {I : σ → Prop} (hM : Total M I) (s : σ) (b : Bool) (hs : I s) :
    ∃ p s', encBit M s b = some (p, s') ∧ I s' ∧ p ≤ 4096 := by
  obtain ⟨p, h1, h2⟩ := hM.prob s hs
  obtain ⟨s', h3, h4⟩ := hM.update s b hs
  refine ⟨p, s', ?_, h4, h2⟩
  rw [encBit, h1]
  simp only [Option.bind_eq_bind, Option.bind_some, h3]
  rfl

theorem encBits_total {σ : Type} {M : Model σ} {I : σ → Prop} (hM : Total M I) : ∀ (bits : List Bool) (s : σ), I s →
    ∃ it s', encBits M bits s = some (it, s') ∧ I s' ∧ ∀ x ∈ it, x.2 ≤ 4096
  | [], s, hs => ⟨[], s, rfl, hs, by simp⟩
  | b :: bs, s, hs => by
    obtain ⟨p, s1, h1, h2, h3⟩ := encBit_total hM s b hs
    obtain ⟨it, s2, h4, h5, h6⟩ := encBits_total hM bs s1 h2
    refine ⟨(b, p) :: it, s2, ?_, h5, ?_⟩
    · rw [encBits, h1]
      simp only [Option.bind_eq_bind, Option.bind_some, h4]
      rfl
    · intro x hx
      rcases List.mem_cons.mp hx with rfl | hx
      · exact h3
      · exact h6 x hx

theorem encBoth_total (hA : Total A J) : ∀ (bits flags : List Bool) (s : σ₃), flags.length = bits.length → J s →
    ∃ it s', encBoth A bits flags s = some (it, s') ∧ J s' ∧ ∀ x ∈ it, x.2 ≤ 4096
  | [], _, s, _, hs => ⟨[], s, by rw [encBoth], hs, by simp⟩
  | _ :: _, [], _, h, _ => by simp at h
  | _ :: bs, false :: gs, s, h, hs => by
    obtain ⟨it, s', h1, h2⟩ := encBoth_total hA bs gs s (by simpa using h) hs
    exact ⟨it, s', by rw [encBoth]; exact h1, h2⟩
  | b :: bs, true :: gs, s, h, hs => by
    obtain ⟨p, s1, h1, h2, h3⟩ := encBit_total hA s b hs
    obtain ⟨it, s2, h4, h5, h6⟩ := encBoth_total hA bs gs s1 (by simpa using h) h2
    refine ⟨(b, p) :: it, s2, ?_, h5, ?_⟩
    · rw [encBoth, h1]
      simp only [Option.bind_eq_bind, Option.bind_some, h4]
      rfl
    · intro x hx
      rcases List.mem_cons.mp hx with rfl | hx
      · exact h3
      · exact h6 x hx

theorem encMixed_total (hP : Total P I) (hA : Total A J) (leftSym : Bool) : ∀ (bits flags : List Bool) (prev : Bool)
    (s1 : σ₁) (s3 : σ₃), flags.length = bits.length → I s1 → J s3 →
    ∃ it t1 t3, encMixed P A leftSym prev bits flags s1 s3 = some (it, t1, t3) ∧ I t1 ∧ J t3 ∧ ∀ x ∈ it, x.2 ≤ 4096
  | [], _, _, s1, s3, _, h1, h3 => ⟨[], s1, s3, by rw [encMixed], h1, h3, by simp⟩
  | _ :: _, [], _, _, _, h, _, _ => by simp at h
  | b :: bs, true :: gs, prev, s1, s3, h, i1, i3 => by
    obtain ⟨p, t3, h1, h2, h3⟩ := encBit_total hA s3 b i3
    obtain ⟨t1, h7, h8⟩ := hP.updateState s1 b i1
    obtain ⟨it, u1, u3, h4, h5, h5', h6⟩ := encMixed_total hP hA leftSym bs gs b t1 t3 (by simpa using h) h8 h2
    refine ⟨(b, p) :: it, u1, u3, ?_, h5, h5', ?_⟩
    · rw [encMixed, h1]
      simp only [Option.bind_eq_bind, Option.bind_some, h7, h4]
      rfl
    · intro x hx
      rcases List.mem_cons.mp hx with rfl | hx
      · exact h3
      · exact h6 x hx
  | b :: bs, false :: gs, prev, s1, s3, h, i1, i3 => by
    rw [encMixed]
    split
    · exact encMixed_total hP hA leftSym bs gs b s1 s3 (by simpa using h) i1 i3
    · obtain ⟨p, t1, h1, h2, h3⟩ := encBit_total hP s1 b i1
      obtain ⟨it, u1, u3, h4, h5, h5', h6⟩ := encMixed_total hP hA leftSym bs gs b t1 s3 (by simpa using h) h2 i3
      refine ⟨(b, p) :: it, u1, u3, ?_, h5, h5', ?_⟩
      · rw [h1]
        simp only [Option.bind_eq_bind, Option.bind_some, h4]
        rfl
      · intro x hx
        rcases List.mem_cons.mp hx with rfl | hx
        · exact h3
        · exact h6 x hx

end

end Bwtc.Wave
