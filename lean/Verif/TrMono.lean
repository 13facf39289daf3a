import Verif.TrDriver

/-!
# A larger stack

What `trsort` does with a stack of some size it does with every larger stack.
-/

set_option autoImplicit false

namespace Bwtc.Tr
open Ss (pop)

/-- If there is a result, the other one is the same. -/
def Sub {α : Type} (x y : Option α) : Prop := ∀ r, x = some r → y = some r

theorem Sub.refl {α : Type} (x : Option α) : Sub x x := fun _ h => h

theorem Sub.bind {α β : Type} {x y : Option α} {f g : α → Option β} (h : Sub x y) (h' : ∀ a, Sub (f a) (g a)) : Sub (x >>= f) (y >>= g) := by
  intro r hr
  cases x with
  | none => exact absurd hr (by simp)
  | some a =>
    rw [h a rfl]
    exact h' a r hr

theorem Sub.ite {α : Type} {c : Prop} [Decidable c] {x y x' y' : Option α} (h : Sub x x') (h' : Sub y y') : Sub (if c then x else y) (if c then x' else y') := by
  by_cases hc : c
  · rw [if_pos hc, if_pos hc]; exact h
  · rw [if_neg hc, if_neg hc]; exact h'

variable {cap cap' : Nat} (hcap : cap ≤ cap')
include hcap

theorem push_sub (st : List Frame) (f : Frame) : Sub (push cap st f) (push cap' st f) := by
  intro r hr
  unfold push at hr ⊢
  by_cases h : st.length < cap
  · rw [if_pos h] at hr
    rw [if_pos (by omega)]; exact hr
  · rw [if_neg h] at hr; exact absurd hr (by simp)

macro "grow" : tactic => `(tactic| repeat' (first | with_reducible exact Sub.refl _ | with_reducible exact push_sub ‹_› _ _ | with_reducible refine Sub.ite ?_ ?_ |
  with_reducible refine Sub.bind ?_ (fun _ => ?_) | split))

theorem tandemGo_sub (isad first a b last : Nat) (tl : Int) (st : List Frame) : Sub (tandemGo cap isad first a b last tl st) (tandemGo cap' isad first a b last tl st) := by
  unfold tandemGo
  grow

theorem tandemPush_sub (isad first a b last : Nat) (tl : Int) (st : List Frame) : Sub (tandemPush cap isad first a b last tl st) (tandemPush cap' isad first a b last tl st) := by
  unfold tandemPush
  grow

theorem tandemStep_sub (isa incr : Nat) (sa : List Int) (bud : Budget) (st : List Frame) (f : Frame) : Sub (tandemStep cap isa incr sa bud st f) (tandemStep cap' isa incr sa bud st f) := by
  unfold tandemStep
  grow
  · exact tandemPush_sub hcap _ _ _ _ _ _ _
  · exact tandemGo_sub hcap _ _ _ _ _ _ _

theorem sortedGo_sub (isad incr first a last : Nat) (next tl : Int) (bud : Budget) (st : List Frame) :
    Sub (sortedGo cap isad incr first a last next tl bud st) (sortedGo cap' isad incr first a last next tl bud st) := by
  unfold sortedGo
  grow

theorem sortedStep_sub (isa incr : Nat) (sa : List Int) (bud : Budget) (st : List Frame) (f : Frame) : Sub (sortedStep cap isa incr sa bud st f) (sortedStep cap' isa incr sa bud st f) := by
  unfold sortedStep
  grow
  exact sortedGo_sub hcap _ _ _ _ _ _ _ _ _

theorem chooseAll_sub (isad incr first a b last : Nat) (limit next tl : Int) (st : List Frame) :
    Sub (chooseAll cap isad incr first a b last limit next tl st) (chooseAll cap' isad incr first a b last limit next tl st) := by
  unfold chooseAll
  grow

theorem chooseTwo_sub (isad first a b last : Nat) (limit tl : Int) (st : List Frame) :
    Sub (chooseTwo cap isad first a b last limit tl st) (chooseTwo cap' isad first a b last limit tl st) := by
  unfold chooseTwo
  grow

theorem partGo_sub (isad incr first a b last : Nat) (limit next tl : Int) (bud : Budget) (st : List Frame) :
    Sub (partGo cap isad incr first a b last limit next tl bud st) (partGo cap' isad incr first a b last limit next tl bud st) := by
  unfold partGo
  grow
  · exact chooseAll_sub hcap _ _ _ _ _ _ _ _ _ _
  · exact chooseTwo_sub hcap _ _ _ _ _ _ _ _
  · exact chooseTwo_sub hcap _ _ _ _ _ _ _ _

theorem partStep_sub (isa incr : Nat) (sa : List Int) (bud : Budget) (st : List Frame) (f : Frame) : Sub (partStep cap isa incr sa bud st f) (partStep cap' isa incr sa bud st f) := by
  unfold partStep
  grow
  exact partGo_sub hcap _ _ _ _ _ _ _ _ _ _ _

theorem step_sub (isa incr : Nat) (sa : List Int) (bud : Budget) (st : List Frame) (f : Frame) : Sub (step cap isa incr sa bud st f) (step cap' isa incr sa bud st f) := by
  unfold step
  grow
  · exact tandemStep_sub hcap _ _ _ _ _ _
  · exact sortedStep_sub hcap _ _ _ _ _ _
  · exact partStep_sub hcap _ _ _ _ _ _

theorem loop_sub (isa incr : Nat) (sa : List Int) (bud : Budget) (st : List Frame) (f : Frame) : Sub (loop cap isa incr sa bud st f) (loop cap' isa incr sa bud st f) := by
  intro r hr
  refine loop.partial_correctness cap isa incr (fun sa bud st f r => loop cap' isa incr sa bud st f = some r) ?_ sa bud st f r hr
  intro loop0 ih sa bud st f r hr
  rw [loop]
  refine Sub.bind (step_sub hcap isa incr sa bud st f) (fun ⟨sa, bud, o⟩ => ?_) r hr
  cases o with
  | none => exact Sub.refl _
  | some p => exact fun r hr => ih _ _ _ _ _ hr

theorem introsort_sub (isa incr : Nat) (sa : List Int) (bud : Budget) (first last : Nat) : Sub (introsort cap isa incr sa bud first last) (introsort cap' isa incr sa bud first last) := by
  unfold introsort
  grow
  exact loop_sub hcap _ _ _ _ _ _

theorem group_sub (isa incr : Nat) (p : Pass) (first last : Nat) : Sub (group cap isa incr p first last) (group cap' isa incr p first last) := by
  unfold Tr.group
  grow
  exact introsort_sub hcap _ _ _ _ _ _

theorem passStep_sub (isa incr : Nat) (p : Pass) (first : Nat) : Sub (passStep cap isa incr p first) (passStep cap' isa incr p first) := by
  unfold passStep
  grow
  exact group_sub hcap _ _ _ _ _

theorem pass_sub (isa incr n : Nat) (p : Pass) (first : Nat) : Sub (pass cap isa incr n p first) (pass cap' isa incr n p first) := by
  intro r hr
  refine pass.partial_correctness cap isa incr n (fun p first r => pass cap' isa incr n p first = some r) ?_ p first r hr
  intro pass0 ih p first r hr
  rw [pass]
  refine Sub.bind (passStep_sub hcap isa incr p first) (fun ⟨p, first⟩ => ?_) r hr
  exact Sub.ite (fun r hr => ih _ _ _ hr) (Sub.refl _)

theorem passes_sub (isa n : Nat) (sa : List Int) (bud : Budget) (depth : Nat) : Sub (passes cap isa n sa bud depth) (passes cap' isa n sa bud depth) := by
  intro r hr
  refine passes.partial_correctness cap isa n (fun sa bud depth r => passes cap' isa n sa bud depth = some r) ?_ sa bud depth r hr
  intro passes0 ih sa bud depth r hr
  rw [passes]
  revert r hr
  show Sub _ _
  grow
  · exact pass_sub hcap _ _ _ _ _
  · exact fun r hr => ih _ _ _ _ hr

/-- What `trsort` does with a stack of some size it does with every larger stack. -/
theorem trsort_sub (sa : List Int) (isa n depth : Nat) : Sub (trsort cap sa isa n depth) (trsort cap' sa isa n depth) := by
  unfold trsort
  grow
  exact passes_sub hcap _ _ _ _ _

end Bwtc.Tr
