import Verif.Basic

/-!
# Huffman trees

Abstract theory used to verify `calculateCodeLengths`: binary trees, the greedy merging
relation, its optimality and the bound on the height.  Nothing here models code.
-/

set_option autoImplicit false

namespace Bwtc.Huff

/-- Trees with weighted leaves and labelled inner nodes. -/
inductive Tree
  | leaf (w : Nat)
  | node (t : Nat) (l r : Tree)

namespace Tree

def wt : Tree → Nat
  | leaf w => w
  | node _ l r => l.wt + r.wt

/-- Sum of the weights of the inner nodes. -/
def cost : Tree → Nat
  | leaf _ => 0
  | node _ l r => l.wt + r.wt + l.cost + r.cost

def height : Tree → Nat
  | leaf _ => 0
  | node _ l r => max l.height r.height + 1

/-- Leaves with their depths, the root being at depth `d`. -/
def leaves : Nat → Tree → List (Nat × Nat)
  | d, leaf w => [(w, d)]
  | d, node _ l r => leaves (d + 1) l ++ leaves (d + 1) r

def labels : Tree → List Nat
  | leaf _ => []
  | node t l r => t :: (l.labels ++ r.labels)

/-- Depths of the inner nodes. -/
def inner : Nat → Tree → List Nat
  | _, leaf _ => []
  | d, node _ l r => d :: (inner (d + 1) l ++ inner (d + 1) r)

def lws : Tree → List Nat
  | leaf w => [w]
  | node _ l r => l.lws ++ r.lws

def root : Tree → Option Nat
  | leaf _ => none
  | node t _ _ => some t

/-- (child, parent) pairs of inner nodes. -/
def par : Tree → List (Nat × Nat)
  | leaf _ => []
  | node t l r => (l.root.toList.map fun c => (c, t)) ++ (r.root.toList.map fun c => (c, t)) ++
      l.par ++ r.par

end Tree

open Tree

theorem leaves_fst (d : Nat) (T : Tree) : (T.leaves d).map (·.1) = T.lws := by
  induction T generalizing d with
  | leaf w => rfl
  | node t l r ihl ihr => simp [leaves, lws, ihl, ihr]

theorem inner_length (d : Nat) (T : Tree) : (T.inner d).length + 1 = T.lws.length := by
  induction T generalizing d with
  | leaf w => rfl
  | node t l r ihl ihr =>
    have h1 := ihl (d + 1)
    have h2 := ihr (d + 1)
    simp only [inner, lws, List.length_cons, List.length_append]
    omega

theorem labels_length (d : Nat) (T : Tree) : (T.inner d).length = T.labels.length := by
  induction T generalizing d with
  | leaf w => rfl
  | node t l r ihl ihr => simp [inner, labels, ihl, ihr]

/-- Weighted sum of depths. -/
def wsum (l : List (Nat × Nat)) : Nat := (l.map fun p => p.1 * p.2).sum

theorem wsum_append (a b : List (Nat × Nat)) : wsum (a ++ b) = wsum a + wsum b := by
  simp [wsum, List.sum_append]

theorem wsum_leaves (d : Nat) (T : Tree) : wsum (T.leaves d) = T.wt * d + T.cost := by
  induction T generalizing d with
  | leaf w => simp [leaves, wsum, wt, cost]
  | node t l r ihl ihr =>
    rw [leaves, wsum_append, ihl, ihr, wt, cost, Nat.mul_add, Nat.mul_add, Nat.add_mul]
    omega

theorem leaves_depth_le (d : Nat) (T : Tree) : ∀ p ∈ T.leaves d, d ≤ p.2 ∧ p.2 ≤ d + T.height := by
  induction T generalizing d with
  | leaf w => simp [leaves, height]
  | node t l r ihl ihr =>
    intro p hp
    rw [leaves, List.mem_append] at hp
    rw [height]
    rcases hp with hp | hp
    · have := ihl (d + 1) p hp
      omega
    · have := ihr (d + 1) p hp
      omega

theorem height_lt (T : Tree) : T.height < T.lws.length := by
  induction T with
  | leaf w => simp [height, lws]
  | node t l r ihl ihr =>
    simp only [height, lws, List.length_append]
    omega

/-- Number of leaves at depth `k`. -/
theorem level_count (d : Nat) (T : Tree) (k : Nat) :
    ((T.leaves d).map (·.2)).count k + (T.inner d).count k =
      (if k = d then 1 else 0) + if k = 0 then 0 else 2 * (T.inner d).count (k - 1) := by
  induction T generalizing d with
  | leaf w =>
    simp only [leaves, inner, List.map_cons, List.map_nil, List.count_nil, List.count_cons]
    have : (d == k) = decide (k = d) := by
      by_cases h : k = d
      · simp [h]
      · have h' : ¬ d = k := fun hc => h hc.symm
        simp [h, h']
    simp [this]
  | node t l r ihl ihr =>
    have h1 := ihl (d + 1)
    have h2 := ihr (d + 1)
    simp only [leaves, inner, List.map_append, List.count_append, List.count_cons]
    have e1 : (d == k) = decide (k = d) := by
      by_cases h : k = d
      · simp [h]
      · have h' : ¬ d = k := fun hc => h hc.symm
        simp [h, h']
    have e2 : (d == k - 1) = decide (k - 1 = d) := by
      by_cases h : k - 1 = d
      · simp [h]
      · have h' : ¬ d = k - 1 := fun hc => h hc.symm
        simp [h, h']
    simp only [e1, e2, decide_eq_true_eq]
    generalize List.count k ((l.leaves (d + 1)).map (·.2)) = a at *
    generalize List.count k ((r.leaves (d + 1)).map (·.2)) = b at *
    generalize List.count k (l.inner (d + 1)) = c at *
    generalize List.count k (r.inner (d + 1)) = e at *
    generalize List.count (k - 1) (l.inner (d + 1)) = f at *
    generalize List.count (k - 1) (r.inner (d + 1)) = g at *
    split at h1 <;> split at h1 <;> (try split at h2) <;> (try split at h2) <;> split <;>
      (try split) <;> (try split) <;> omega

/-! ### Kraft sums -/

/-- Kraft sum scaled by `2^m`. -/
def kraft (m : Nat) (ls : List Nat) : Nat := (ls.map fun l => 2 ^ (m - l)).sum

theorem kraft_append (m : Nat) (a b : List Nat) : kraft m (a ++ b) = kraft m a + kraft m b := by
  simp [kraft, List.sum_append]

theorem kraft_cons (m l : Nat) (ls : List Nat) : kraft m (l :: ls) = 2 ^ (m - l) + kraft m ls := by
  simp [kraft]

theorem kraft_perm (m : Nat) {a b : List Nat} (h : a.Perm b) : kraft m a = kraft m b :=
  (h.map _).sum_nat

theorem kraft_scale (m k : Nat) (ls : List Nat) (h : ∀ l ∈ ls, l ≤ m) :
    kraft (m + k) ls = 2 ^ k * kraft m ls := by
  induction ls with
  | nil => simp [kraft]
  | cons l ls ih =>
    have hl := h l (by simp)
    rw [kraft_cons, kraft_cons, ih (fun x hx => h x (by simp [hx])), Nat.mul_add,
      show m + k - l = k + (m - l) by omega, Nat.pow_add]

theorem kraft_tree (d m : Nat) (T : Tree) (h : d + T.height ≤ m) :
    kraft m ((T.leaves d).map (·.2)) = 2 ^ (m - d) := by
  induction T generalizing d with
  | leaf w => simp [leaves, kraft]
  | node t l r ihl ihr =>
    rw [height] at h
    rw [leaves, List.map_append, kraft_append, ihl (d + 1) (by omega), ihr (d + 1) (by omega)]
    rw [show m - d = (m - (d + 1)) + 1 by omega, Nat.pow_succ]
    omega

/-! ### Rearrangement -/

/-- Scalar product. -/
def dot : List Nat → List Nat → Nat
  | a :: as, b :: bs => a * b + dot as bs
  | _, _ => 0

theorem swap_le {a b x y : Nat} (h : a ≤ b) (h2 : x ≤ y) : a * y + b * x ≤ a * x + b * y := by
  obtain ⟨c, rfl⟩ := Nat.exists_eq_add_of_le h
  obtain ⟨z, rfl⟩ := Nat.exists_eq_add_of_le h2
  simp only [Nat.mul_add, Nat.add_mul]
  omega

/-- Exchanging the first length with the maximal one does not increase the product. -/
theorem dot_exchange : ∀ (ws ls : List Nat) (w l m : Nat), ws.length = ls.length →
    (∀ x ∈ ws, w ≤ x) → m ∈ ls → l ≤ m →
    ∃ ls', (l :: ls).Perm (m :: ls') ∧ dot (w :: ws) (m :: ls') ≤ dot (w :: ws) (l :: ls) ∧
      ls'.length = ls.length := by
  intro ws
  induction ws with
  | nil =>
    intro ls w l m hlen _ hm _
    cases ls with
    | nil => simp at hm
    | cons a as => simp at hlen
  | cons v ws ih =>
    intro ls w l m hlen hw hm hle
    cases ls with
    | nil => simp at hm
    | cons a as =>
      simp only [List.length_cons, Nat.add_right_cancel_iff] at hlen
      rcases List.mem_cons.mp hm with rfl | hm
      · refine ⟨l :: as, List.Perm.swap _ _ _, ?_, rfl⟩
        simp only [dot]
        have := swap_le (hw v (by simp)) hle
        omega
      · obtain ⟨ls', h1, h2, h3⟩ := ih as w l m hlen (fun x hx => hw x (by simp [hx])) hm hle
        refine ⟨a :: ls', ?_, ?_, by simp [h3]⟩
        · exact (List.Perm.swap a l as).trans ((h1.cons a).trans (List.Perm.swap m a ls'))
        · simp only [dot] at h2 ⊢
          omega

theorem dot_sorted_le : ∀ (ws ls ls' : List Nat), ws.length = ls.length →
    ws.Pairwise (· ≤ ·) → ls'.Perm ls → ls'.Pairwise (· ≥ ·) → dot ws ls' ≤ dot ws ls := by
  intro ws
  induction ws with
  | nil => intro ls ls' _ _ _ _; simp [dot]
  | cons w ws ih =>
    intro ls ls' hlen hws hp hls'
    cases ls' with
    | nil => simp [dot]
    | cons m ls' =>
      cases ls with
      | nil => simp at hlen
      | cons l ls =>
        simp only [List.length_cons, Nat.add_right_cancel_iff] at hlen
        rw [List.pairwise_cons] at hws hls'
        have hmem : m ∈ l :: ls := hp.mem_iff.mp (by simp)
        have hmax : ∀ x ∈ l :: ls, x ≤ m := by
          intro x hx
          rcases List.mem_cons.mp (hp.mem_iff.mpr hx) with rfl | h
          · exact Nat.le_refl _
          · exact hls'.1 x h
        rcases List.mem_cons.mp hmem with rfl | hmem
        · have := ih ls ls' hlen hws.2 ((List.perm_cons _).mp hp) hls'.2
          simp only [dot]
          omega
        · obtain ⟨ls2, h1, h2, h3⟩ := dot_exchange ws ls w l m hlen hws.1 hmem (hmax l (by simp))
          have := ih ls2 ls' (by omega) hws.2 ((List.perm_cons m).mp (hp.trans h1)) hls'.2
          simp only [dot] at h2 ⊢
          omega

/-! ### Greedy merging -/

/-- `T` arises from the pool `P` by repeatedly merging two lightest trees. -/
inductive Greedy : List Tree → Tree → Prop
  | done (T : Tree) : Greedy [T] T
  | step (P R : List Tree) (t : Nat) (a b T : Tree) : P.Perm (a :: b :: R) → a.wt ≤ b.wt →
      (∀ x ∈ R, b.wt ≤ x.wt) → Greedy (R ++ [Tree.node t a b]) T → Greedy P T

theorem sum_map_le_of_forall {α : Type} (l : List α) (f g : α → Nat) (h : ∀ x ∈ l, f x ≤ g x) :
    (l.map f).sum ≤ (l.map g).sum := by
  induction l with
  | nil => simp
  | cons a l ih =>
    have := h a (by simp)
    have := ih (fun x hx => h x (by simp [hx]))
    simp only [List.map_cons, List.sum_cons]
    omega

/-- Weighted length of a pool with lengths attached. -/
def pcost (l : List (Tree × Nat)) : Nat := (l.map fun p => p.1.wt * p.2).sum

theorem pcost_perm {a b : List (Tree × Nat)} (h : a.Perm b) : pcost a = pcost b := (h.map _).sum_nat

theorem dot_zip (l : List (Tree × Nat)) : dot (l.map (·.1.wt)) (l.map (·.2)) = pcost l := by
  induction l with
  | nil => rfl
  | cons p l ih =>
    simp only [List.map_cons, dot, ih, pcost, List.sum_cons]

theorem dot_zip' : ∀ (P : List Tree) (ls : List Nat), P.length = ls.length →
    dot (P.map (·.wt)) ls = pcost (P.zip ls)
  | [], [], _ => rfl
  | [], _ :: _, h => by simp at h
  | _ :: _, [], h => by simp at h
  | p :: P, l :: ls, h => by
    simp only [List.length_cons, Nat.add_right_cancel_iff] at h
    simp only [List.map_cons, dot, dot_zip' P ls h, List.zip_cons_cons, pcost, List.sum_cons]

/-- Any list has a decreasingly sorted permutation. -/
theorem exists_sorted_desc (l : List Nat) : ∃ l' : List Nat, l'.Perm l ∧ l'.Pairwise (· ≥ ·) := by
  refine ⟨l.mergeSort (fun a b => decide (a ≥ b)), List.mergeSort_perm _ _, ?_⟩
  have := List.pairwise_mergeSort (le := fun a b : Nat => decide (a ≥ b))
    (by intro a b c; simp; omega) (by intro a b; simp; omega) l
  exact this.imp (by simp)

/-- The trees in a list sorted ascending by weight. -/
theorem exists_sorted_trees (l : List Tree) : ∃ l' : List Tree, l'.Perm l ∧ l'.Pairwise (fun a b => a.wt ≤ b.wt) := by
  refine ⟨l.mergeSort (fun a b => decide (a.wt ≤ b.wt)), List.mergeSort_perm _ _, ?_⟩
  have := List.pairwise_mergeSort (le := fun a b : Tree => decide (a.wt ≤ b.wt))
    (by intro a b c; simp; omega) (by intro a b; simp; omega) l
  exact this.imp (by simp)

/-- Pools can be reordered together with their lengths. -/
theorem exists_zip_perm {α β : Type} {P P' : List α} (h : P.Perm P') : ∀ (ls : List β), P.length = ls.length →
    ∃ ls', ls'.Perm ls ∧ (P.zip ls).Perm (P'.zip ls') ∧ P'.length = ls'.length := by
  induction h with
  | nil => intro ls h; exact ⟨ls, List.Perm.refl _, by simp, h⟩
  | cons x h ih =>
    intro ls hl
    cases ls with
    | nil => simp at hl
    | cons l ls =>
      obtain ⟨ls', h1, h2, h3⟩ := ih ls (by simpa using hl)
      exact ⟨l :: ls', h1.cons _, by simpa using h2, by simpa using h3⟩
  | swap x y l =>
    intro ls hl
    match ls, hl with
    | a :: b :: ls, hl =>
      exact ⟨b :: a :: ls, List.Perm.swap _ _ _, by simpa using List.Perm.swap _ _ _, by simpa using hl⟩
  | trans h1 h2 ih1 ih2 =>
    intro ls hl
    obtain ⟨ls1, g1, g2, g3⟩ := ih1 ls hl
    obtain ⟨ls2, k1, k2, k3⟩ := ih2 ls1 g3
    exact ⟨ls2, k1.trans g1, g2.trans k2, k3⟩

/-- Greedy merging is optimal: any lengths satisfying Kraft's inequality cost at least as much. -/
theorem greedy_optimal {P : List Tree} {T : Tree} (h : Greedy P T) :
    ∀ (ls : List Nat) (m : Nat), P.length = ls.length → (∀ l ∈ ls, l ≤ m) → kraft m ls ≤ 2 ^ m →
      T.cost ≤ pcost (P.zip ls) + (P.map Tree.cost).sum := by
  induction h with
  | done T => intro ls m _ _ _; simp
  | step P R t a b T hp hab hb hg ih =>
    intro ls m hlen hle hk
    obtain ⟨R', hR', hRs⟩ := exists_sorted_trees R
    have hp' : P.Perm (a :: b :: R') := hp.trans ((hR'.symm.cons b).cons a)
    have hlen' : (a :: b :: R').length = ls.length := by rw [← hp'.length_eq, hlen]
    obtain ⟨ls1, q1, q2, q3⟩ := exists_zip_perm hp' ls hlen
    obtain ⟨ls2, r1, r2⟩ := exists_sorted_desc ls1
    have hsorted : ((a :: b :: R').map (·.wt)).Pairwise (· ≤ ·) := by
      rw [List.pairwise_map, List.pairwise_cons, List.pairwise_cons]
      refine ⟨?_, ?_, hRs⟩
      · intro x hx
        rcases List.mem_cons.mp hx with rfl | hx
        · exact hab
        · exact Nat.le_trans hab (hb x (hR'.mem_iff.mp hx))
      · intro x hx
        exact hb x (hR'.mem_iff.mp hx)
    have hdot := dot_sorted_le ((a :: b :: R').map (·.wt)) ls1 ls2 (by rw [List.length_map]; exact q3)
      hsorted r1 r2
    have hl2 : ls2.length = ls1.length := r1.length_eq
    rw [dot_zip' _ _ q3, dot_zip' _ _ (by omega)] at hdot
    rw [pcost_perm q2]
    have hmem2 : ∀ l ∈ ls2, l ≤ m := fun l hl => hle l (q1.mem_iff.mp (r1.mem_iff.mp hl))
    have hk2 : kraft m ls2 ≤ 2 ^ m := by rw [kraft_perm m (r1.trans q1)]; exact hk
    match ls2, hl2, r2, hmem2, hk2, hdot with
    | [], hl2, _, _, _, _ => rw [← q3] at hl2; simp at hl2
    | [x], hl2, _, _, _, _ => rw [← q3] at hl2; simp at hl2
    | x :: y :: rest, hl2, r2, hmem2, hk2, hdot =>
      rw [List.pairwise_cons, List.pairwise_cons] at r2
      obtain ⟨r2a, r2b, r2c⟩ := r2
      have hxy : y ≤ x := r2a y (by simp)
      have hxm : x ≤ m := hmem2 x (by simp)
      -- Kraft sums at scale `y`
      have hrest : ∀ l ∈ rest, l ≤ y := r2b
      have hall : ∀ l ∈ y :: rest, l ≤ y := by
        intro l hl
        rcases List.mem_cons.mp hl with rfl | hl
        · exact Nat.le_refl _
        · exact hrest l hl
      have hsum : kraft y (y :: rest) + 1 ≤ 2 ^ y := by
        have e1 : kraft m (y :: rest) = 2 ^ (m - y) * kraft y (y :: rest) := by
          have := kraft_scale y (m - y) (y :: rest) hall
          rwa [show y + (m - y) = m by omega] at this
        rw [kraft_cons, e1] at hk2
        have e2 : 2 ^ m = 2 ^ (m - y) * 2 ^ y := by rw [← Nat.pow_add]; congr 1; omega
        rw [e2] at hk2
        have hpos : 0 < 2 ^ (m - x) := Nat.pow_pos (by omega)
        have : 2 ^ (m - y) * kraft y (y :: rest) < 2 ^ (m - y) * 2 ^ y := by omega
        have := Nat.lt_of_mul_lt_mul_left this
        omega
      rw [kraft_cons, Nat.sub_self] at hsum
      have hy : 1 ≤ y := by
        rcases Nat.eq_zero_or_pos y with rfl | h
        · simp at hsum
        · exact h
      have hlenR : R'.length = rest.length := by
        have := hl2
        rw [← q3] at this
        simpa using this.symm
      obtain ⟨rest', s1, s2, s3⟩ := exists_zip_perm hR' rest hlenR
      have := ih (rest' ++ [y - 1]) y (by simp [s3]) (by
        intro l hl
        rcases List.mem_append.mp hl with hl | hl
        · exact hrest l (s1.mem_iff.mp hl)
        · simp at hl
          omega) (by
        rw [kraft_append, kraft_perm y s1]
        have : kraft y [y - 1] = 2 := by
          rw [kraft_cons, show y - (y - 1) = 1 by omega]
          simp [kraft]
        omega)
      refine Nat.le_trans this ?_
      rw [List.zip_append s3]
      have e3 : pcost (R.zip rest' ++ [Tree.node t a b].zip [y - 1]) =
          pcost (R'.zip rest) + (a.wt + b.wt) * (y - 1) := by
        rw [pcost_perm (s2.symm.append_right _)]
        simp [pcost, List.sum_append, Tree.wt]
      rw [e3]
      have e4 : (P.map Tree.cost).sum = a.cost + b.cost + (R.map Tree.cost).sum := by
        rw [(hp.map Tree.cost).sum_nat]
        simp
        omega
      rw [e4]
      have e5 : pcost ((a :: b :: R').zip (x :: y :: rest)) = a.wt * x + b.wt * y + pcost (R'.zip rest) := by
        simp [pcost]
        omega
      rw [e5] at hdot
      refine Nat.le_trans ?_ (Nat.add_le_add_right hdot _)
      rw [List.map_append, List.sum_append]
      simp only [List.map_cons, List.map_nil, List.sum_cons, List.sum_nil, Tree.cost]
      have h1 : a.wt * y ≤ a.wt * x := Nat.mul_le_mul_left _ hxy
      have h2 : (a.wt + b.wt) * (y - 1) + (a.wt + b.wt) = a.wt * y + b.wt * y := by
        rw [← Nat.add_mul]
        obtain ⟨z, rfl⟩ := Nat.exists_eq_add_of_le hy
        rw [show 1 + z - 1 = z by omega, Nat.mul_add]
        omega
      omega

/-! ### Height -/

/-- Fibonacci numbers 1, 2, 3, 5, … -/
def fib : Nat → Nat
  | 0 => 1
  | 1 => 2
  | n + 2 => fib (n + 1) + fib n

theorem fib_mono_succ (n : Nat) : fib n ≤ fib (n + 1) := by
  induction n with
  | zero => decide
  | succ n ih =>
    rw [show n + 1 + 1 = n + 2 by rfl, fib]
    omega

theorem fib_mono {a b : Nat} (h : a ≤ b) : fib a ≤ fib b := by
  induction h with
  | refl => exact Nat.le_refl _
  | step _ ih => exact Nat.le_trans ih (fib_mono_succ _)

/-- Weights of the children. -/
def Tree.kids : Tree → List Tree
  | leaf _ => []
  | node _ l r => [l, r]

/-- Each subtree is at least as heavy as the children of its sibling. -/
def Tree.Bal : Tree → Prop
  | leaf w => 1 ≤ w
  | node _ l r => (∀ k ∈ l.kids, k.wt ≤ r.wt) ∧ (∀ k ∈ r.kids, k.wt ≤ l.wt) ∧ l.Bal ∧ r.Bal

theorem bal_kids {T : Tree} (h : T.Bal) : ∀ k ∈ T.kids, k.Bal := by
  cases T with
  | leaf w => simp [Tree.kids]
  | node t l r =>
    intro k hk
    simp only [Tree.kids, List.mem_cons, List.not_mem_nil, or_false] at hk
    rcases hk with rfl | rfl
    · exact h.2.2.1
    · exact h.2.2.2

theorem bal_pos {T : Tree} (h : T.Bal) : 1 ≤ T.wt := by
  induction T with
  | leaf w => exact h
  | node t l r ihl ihr =>
    have := ihl h.2.2.1
    rw [Tree.wt]
    omega

theorem height_kid {T : Tree} (h : 0 < T.height) : ∃ k ∈ T.kids, k.height + 1 = T.height := by
  cases T with
  | leaf w => simp [Tree.height] at h
  | node t l r =>
    by_cases hlr : r.height ≤ l.height
    · exact ⟨l, by simp [Tree.kids], by rw [Tree.height]; omega⟩
    · exact ⟨r, by simp [Tree.kids], by rw [Tree.height]; omega⟩

theorem fib_le_wt (n : Nat) : ∀ (T : Tree), T.height ≤ n → T.Bal → fib T.height ≤ T.wt := by
  induction n using Nat.strongRecOn with
  | _ n ih =>
    intro T hn hb
    cases T with
    | leaf w =>
      simp only [Tree.height, fib, Tree.wt]
      exact hb
    | node t l r =>
      obtain ⟨b1, b2, b3, b4⟩ := hb
      have main : ∀ c s : Tree, c.Bal → s.Bal → (∀ k ∈ c.kids, k.wt ≤ s.wt) → c.height < n →
          fib (c.height + 1) ≤ c.wt + s.wt := by
        intro c s hc hs hk hlt
        have h1 := ih c.height hlt c (Nat.le_refl _) hc
        have h2 := bal_pos hs
        rcases Nat.eq_zero_or_pos c.height with h0 | h0
        · rw [h0] at h1 ⊢
          simp only [fib] at h1 ⊢
          omega
        · obtain ⟨k, hk1, hk2⟩ := height_kid h0
          have h3 := ih k.height (by omega) k (Nat.le_refl _) (bal_kids hc k hk1)
          have h4 := hk k hk1
          rw [← hk2] at h1 ⊢
          rw [fib]
          omega
      have hh : (Tree.node t l r).height = max l.height r.height + 1 := rfl
      by_cases hlr : r.height ≤ l.height
      · rw [show (Tree.node t l r).height = l.height + 1 by rw [hh]; omega, Tree.wt]
        exact main l r b3 b4 b1 (by omega)
      · rw [show (Tree.node t l r).height = r.height + 1 by rw [hh]; omega, Tree.wt, Nat.add_comm l.wt]
        exact main r l b4 b3 b2 (by omega)

/-- Trees made greedily are balanced in the above sense. -/
theorem greedy_bal {P : List Tree} {T : Tree} (h : Greedy P T) (hb : ∀ x ∈ P, x.Bal)
    (hk : ∀ x ∈ P, ∀ y ∈ P, ∀ k ∈ x.kids, k.wt ≤ y.wt) : T.Bal := by
  induction h with
  | done T => exact hb T (by simp)
  | step P R t a b T hp hab hbR hg ih =>
    have ma : a ∈ P := hp.mem_iff.mpr (by simp)
    have mb : b ∈ P := hp.mem_iff.mpr (by simp)
    have mR : ∀ x ∈ R, x ∈ P := fun x hx => hp.mem_iff.mpr (by simp [hx])
    apply ih
    · intro x hx
      rcases List.mem_append.mp hx with hx | hx
      · exact hb x (mR x hx)
      · simp at hx
        subst hx
        exact ⟨hk a ma b mb, hk b mb a ma, hb a ma, hb b mb⟩
    · intro x hx y hy k hkk
      have hkR : ∀ z ∈ R, k.wt ≤ z.wt ∧ k.wt ≤ a.wt + b.wt := by
        intro z hz
        rcases List.mem_append.mp hx with hx | hx
        · have h1 := hk x (mR x hx) a ma k hkk
          exact ⟨hk x (mR x hx) z (mR z hz) k hkk, by omega⟩
        · simp at hx
          subst hx
          have hbz := hbR z hz
          simp only [Tree.kids, List.mem_cons, List.not_mem_nil, or_false] at hkk
          rcases hkk with rfl | rfl <;> exact ⟨by omega, by omega⟩
      rcases List.mem_append.mp hy with hy | hy
      · exact (hkR y hy).1
      · simp at hy
        subst hy
        rw [Tree.wt]
        rcases List.mem_append.mp hx with hx | hx
        · have := hk x (mR x hx) a ma k hkk
          omega
        · simp at hx
          subst hx
          simp only [Tree.kids, List.mem_cons, List.not_mem_nil, or_false] at hkk
          rcases hkk with rfl | rfl <;> omega

theorem greedy_wt {P : List Tree} {T : Tree} (h : Greedy P T) : T.wt = (P.map Tree.wt).sum := by
  induction h with
  | done T => simp
  | step P R t a b T hp _ _ _ ih =>
    rw [ih, (hp.map Tree.wt).sum_nat]
    simp [List.sum_append, Tree.wt]
    omega

end Bwtc.Huff
