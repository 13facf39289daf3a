import Verif.MinHeap
import Verif.HuffOpt

/-!
# The tree built by `createHuffmanShape` is greedy
-/

set_option autoImplicit false

namespace Bwtc.MinHeap
open Wave Huff

/-- The trees that occur in the heap: a symbol in every leaf, two children below every inner node. -/
inductive Good : Sh → Prop
  | leaf (s : Nat) : Good (.leaf s)
  | node (l r : Sh) : Good l → Good r → Good (.node none l r)

/-- The weighted tree of a code tree, when `f` is the weight of a symbol; the children are exchanged. -/
def weigh (f : Nat → Nat) : Sh → Tree
  | .nil => .leaf 0
  | .node (some s) _ _ => .leaf (f s)
  | .node none l r => .node 0 (weigh f r) (weigh f l)

/-- The symbols of the leaves. -/
def syms : Sh → List Nat
  | .nil => []
  | .node (some s) _ _ => [s]
  | .node none l r => syms l ++ syms r

theorem weigh_lws (f : Nat → Nat) {t : Sh} (h : Good t) : (weigh f t).lws.Perm ((syms t).map f) := by
  induction h with
  | leaf s => simp [weigh, syms, Sh.leaf, Tree.lws]
  | node l r _ _ ihl ihr =>
    simp only [weigh, syms, Tree.lws, List.map_append]
    exact (ihr.append ihl).trans List.perm_append_comm

theorem Good.ne {t : Sh} (h : Good t) : ∃ s l r, t = .node s l r := by
  cases h with
  | leaf s => exact ⟨_, _, _, rfl⟩
  | node l r _ _ => exact ⟨_, _, _, rfl⟩

/-- The codes of a good tree: one for every leaf, of the length of its depth, none a prefix of another one. -/
theorem collect_good (f : Nat → Nat) {t : Sh} (h : Good t) : ∀ vec, ∃ cs, collect t vec = some cs ∧ cs.map (·.1) = syms t ∧
    (∀ p ∈ cs, vec <+: p.2) ∧ (cs.map fun p => (f p.1, p.2.length)).Perm ((weigh f t).leaves vec.length) ∧
    cs.Pairwise (fun a b => ¬ a.2 <+: b.2 ∧ ¬ b.2 <+: a.2) := by
  induction h with
  | leaf s =>
    intro vec
    refine ⟨[(s, vec)], by simp [Sh.leaf, collect], by simp [syms, Sh.leaf], by simp, ?_, by simp⟩
    simp [weigh, Sh.leaf, Tree.leaves]
  | node l r hl hr ihl ihr =>
    intro vec
    obtain ⟨a, a1, a2, a3, a4, a5⟩ := ihl (vec ++ [false])
    obtain ⟨b, b1, b2, b3, b4, b5⟩ := ihr (vec ++ [true])
    have hc : collect (.node none l r) vec = some (a ++ b) := by
      obtain ⟨s, x, y, rfl⟩ := hl.ne
      obtain ⟨s', x', y', rfl⟩ := hr.ne
      rw [collect, a1, b1]
      rfl
    have pre : ∀ (c : Bool) (w : List Bool), vec ++ [c] <+: w → vec <+: w ∧ w[vec.length]? = some c := by
      intro c w ⟨u, hu⟩
      subst hu
      exact ⟨⟨[c] ++ u, by simp⟩, by simp⟩
    refine ⟨a ++ b, hc, by rw [List.map_append, a2, b2]; simp [syms], ?_, ?_, ?_⟩
    · intro p hp
      rcases List.mem_append.mp hp with hp | hp
      · exact (pre _ _ (a3 p hp)).1
      · exact (pre _ _ (b3 p hp)).1
    · rw [List.map_append]
      simp only [weigh, Tree.leaves]
      simp only [List.length_append, List.length_cons, List.length_nil] at a4 b4
      exact (a4.append b4).trans List.perm_append_comm
    · rw [List.pairwise_append]
      refine ⟨a5, b5, ?_⟩
      intro p hp q hq
      have h1 := (pre _ _ (a3 p hp)).2
      have h2 := (pre _ _ (b3 q hq)).2
      have differ : ∀ (u v : List Bool) (c d : Bool), c ≠ d → u[vec.length]? = some c → v[vec.length]? = some d → ¬ u <+: v := by
        intro u v c d hcd hu hv ⟨w, hw⟩
        subst hw
        have : vec.length < u.length := (List.getElem?_eq_some_iff.mp hu).1
        rw [List.getElem?_append_left this, hu] at hv
        exact hcd (Option.some.inj hv)
      exact ⟨differ _ _ _ _ (by decide) h1 h2, differ _ _ _ _ (by decide) h2 h1⟩

/-- The entries of the heap carry the weights of their trees. -/
def Fits (f : Nat → Nat) (h : List (Sh × Nat)) : Prop := ∀ e ∈ h, Good e.1 ∧ e.2 = (weigh f e.1).wt

/-- The pool of trees in the heap. -/
def pool (f : Nat → Nat) (h : List (Sh × Nat)) : List Tree := h.map fun e => weigh f e.1

theorem fits_perm {f : Nat → Nat} {a b : List (Sh × Nat)} (hp : a.Perm b) (h : Fits f b) : Fits f a :=
  fun e he => h e (hp.mem_iff.mp he)

theorem greedy_perm {P Q : List Tree} {T : Tree} (h : P.Perm Q) (hg : Greedy Q T) : Greedy P T := by
  cases hg with
  | done T =>
    have : P = [T] := List.perm_singleton.mp h
    rw [this]
    exact Greedy.done T
  | step _ R t a b T hp h1 h2 hg => exact Greedy.step P R t a b T (h.trans hp) h1 h2 hg

theorem wt_sum (f : Nat → Nat) (h : List (Sh × Nat)) (hf : Fits f h) : (h.map (·.2)).sum = ((pool f h).map Tree.wt).sum := by
  rw [pool, List.map_map]
  congr 1
  exact List.map_congr_left fun e he => (hf e he).2

/-- The loop joins the two lightest trees until one is left. -/
theorem merge_spec (f : Nat → Nat) : ∀ (fuel : Nat) (h : List (Sh × Nat)), h.length ≤ fuel → h ≠ [] → IsHeap h → Fits f h →
    (h.map (·.2)).sum < 2 ^ 64 →
    ∃ t, merge fuel h = some t ∧ Good t ∧ Greedy (pool f h) (weigh f t) ∧ (syms t).Perm (h.flatMap fun e => syms e.1) := by
  intro fuel
  induction fuel with
  | zero =>
    intro h hl hne
    exact absurd (List.length_eq_zero_iff.mp (Nat.le_zero.mp hl)) hne
  | succ fuel ih =>
    intro h hl hne hh hf hs
    obtain ⟨p1, h1, e1, e2, e3, e4⟩ := deleteMin_spec hh hne
    have hl1 := e2.length_eq
    simp only [List.length_cons] at hl1
    rw [merge]
    by_cases hgt : h.length > 1
    · rw [if_pos hgt]
      have hne1 : h1 ≠ [] := by
        intro hc
        rw [hc] at hl1
        simp at hl1
        omega
      obtain ⟨p2, h2, f1, f2, f3, f4⟩ := deleteMin_spec e4 hne1
      have hl2 := f2.length_eq
      simp only [List.length_cons] at hl2
      have hp12 : h.Perm (p1 :: p2 :: h2) := e2.trans (f2.cons p1)
      have hfits := fits_perm hp12.symm hf
      have g1 := hfits p1 (by simp)
      have g2 := hfits p2 (by simp)
      have hsum : p1.2 + (p2.2 + (h2.map (·.2)).sum) = (h.map (·.2)).sum := by
        have := (hp12.map (·.2)).sum_nat
        rw [this]
        simp
      have hmod : (p1.2 + p2.2) % 2 ^ 64 = p1.2 + p2.2 := Nat.mod_eq_of_lt (by omega)
      have hle : p1.2 ≤ p2.2 := e3 p2 (f2.mem_iff.mpr (by simp))
      obtain ⟨h3, i1, i2, i3⟩ := insert_spec f4 (Sh.node none p2.1 p1.1, p1.2 + p2.2)
      have hl3 := i2.length_eq
      simp only [List.length_cons] at hl3
      have hfits3 : Fits f h3 := by
        refine fits_perm i2 ?_
        intro e he
        rcases List.mem_cons.mp he with rfl | he
        · refine ⟨Good.node _ _ g2.1 g1.1, ?_⟩
          simp only [weigh, Tree.wt]
          rw [g1.2, g2.2]
        · exact hfits e (by simp [he])
      obtain ⟨t, t1, t2, t3, t4⟩ := ih h3 (by omega) (by intro hc; rw [hc] at hl3; simp at hl3) i3 hfits3
        (by
          rw [(i2.map (·.2)).sum_nat]
          simp only [List.map_cons, List.sum_cons]
          omega)
      refine ⟨t, ?_, t2, ?_, ?_⟩
      · rw [e1]
        simp only [Option.bind_eq_bind, Option.bind_some, f1, hmod, i1, t1]
      · refine Greedy.step _ (pool f h2) 0 (weigh f p1.1) (weigh f p2.1) _ (by simpa [pool] using hp12.map fun e => weigh f e.1)
          (by rw [← g1.2, ← g2.2]; exact hle) ?_ ?_
        · intro x hx
          obtain ⟨e, he, rfl⟩ := List.mem_map.mp hx
          rw [← g2.2, ← (hfits e (by simp [he])).2]
          exact f3 e he
        · refine greedy_perm ?_ t3
          have := (i2.map fun e => weigh f e.1).symm
          simp only [List.map_cons, weigh] at this
          refine List.Perm.trans ?_ this
          exact List.perm_append_singleton _ _
      · refine t4.trans ?_
        refine (i2.flatMap_right _).trans ?_
        refine List.Perm.trans ?_ (hp12.flatMap_right _).symm
        simp only [List.flatMap_cons, syms]
        rw [← List.append_assoc]
        exact List.Perm.append_right _ List.perm_append_comm
    · rw [if_neg hgt, e1]
      have h10 : h1 = [] := List.length_eq_zero_iff.mp (by omega)
      rw [h10] at e2
      have he : h = [p1] := List.perm_singleton.mp e2
      have hg := hf p1 (by rw [he]; simp)
      refine ⟨p1.1, rfl, hg.1, ?_, ?_⟩
      · rw [he]
        exact Greedy.done _
      · rw [he]
        simp

/-- The first loop: a leaf for every symbol with a positive frequency. -/
theorem fill_spec : ∀ (fs : List Nat) (b : Nat) (h : List (Sh × Nat)), IsHeap h →
    ∃ h', fill b fs h = some h' ∧ IsHeap h' ∧
      h'.Perm ((((fs.zipIdx b).filter fun p => p.1 ≠ 0).map fun p => (Sh.leaf p.2, p.1)) ++ h) := by
  intro fs
  induction fs with
  | nil =>
    intro b h hh
    exact ⟨h, rfl, hh, List.Perm.refl _⟩
  | cons f fs ih =>
    intro b h hh
    rw [fill, List.zipIdx_cons, List.filter_cons]
    by_cases hf : f ≠ 0
    · rw [if_pos hf, if_pos (by simpa using hf)]
      obtain ⟨h1, e1, e2, e3⟩ := insert_spec hh (Sh.leaf b, f)
      obtain ⟨h', f1, f2, f3⟩ := ih (b + 1) h1 e3
      rw [e1]
      refine ⟨h', f1, f2, f3.trans ?_⟩
      refine (e2.append_left _).trans ?_
      simp only [List.map_cons, List.cons_append]
      exact List.perm_middle
    · rw [if_neg hf, if_neg (by simpa using hf)]
      exact ih (b + 1) h hh

end Bwtc.MinHeap
