import Verif.HeapTree

/-!
# C61, C62: the priority queue and the tree built with it
-/

set_option autoImplicit false

namespace Bwtc.Props
open MinHeap Wave Huff

/-- Something done with a priority queue. -/
inductive QueueOp (α : Type)
  | insert (value : α) (weight : Nat)
  | deleteMin

/-- The answers of a priority queue that holds the given pairs: a removal returns one of the pairs held of the least weight, and it
is held once less afterwards. -/
inductive QueueRun {α : Type} : List (α × Nat) → List (QueueOp α) → List (α × Nat) → Prop
  | done (held : List (α × Nat)) : QueueRun held [] []
  | insert (held : List (α × Nat)) (v : α) (w : Nat) (ops : List (QueueOp α)) (out : List (α × Nat)) :
      QueueRun ((v, w) :: held) ops out → QueueRun held (.insert v w :: ops) out
  | remove (before after : List (α × Nat)) (x : α × Nat) (ops : List (QueueOp α)) (out : List (α × Nat)) :
      (∀ y ∈ before ++ after, x.2 ≤ y.2) → QueueRun (before ++ after) ops out →
      QueueRun (before ++ x :: after) (.deleteMin :: ops) (x :: out)

/-- Every removal is preceded by an insertion of its own: `n` pairs are held at the beginning. -/
def Matched {α : Type} : Nat → List (QueueOp α) → Prop
  | _, [] => True
  | n, .insert _ _ :: ops => Matched (n + 1) ops
  | 0, .deleteMin :: _ => False
  | n + 1, .deleteMin :: ops => Matched n ops

/-- The program: the operations carried out on a heap one after another. -/
def heapRun {α : Type} : List (α × Nat) → List (QueueOp α) → Option (List (α × Nat))
  | _, [] => some []
  | h, .insert v w :: ops => (MinHeap.insert h (v, w)).bind fun h => heapRun h ops
  | h, .deleteMin :: ops => (MinHeap.deleteMin h).bind fun p => (heapRun p.2 ops).map fun out => p.1 :: out

theorem queueRun_perm {α : Type} {a b : List (α × Nat)} {ops : List (QueueOp α)} {out : List (α × Nat)} (hp : a.Perm b)
    (h : QueueRun a ops out) : QueueRun b ops out := by
  induction h generalizing b with
  | done held => exact QueueRun.done b
  | insert held v w ops out _ ih => exact QueueRun.insert b v w ops out (ih (hp.cons _))
  | remove before after x ops out hle _ ih =>
    have hx : x ∈ b := hp.mem_iff.mp (by simp)
    obtain ⟨s, t, rfl⟩ := List.append_of_mem hx
    have hp' : (before ++ after).Perm (s ++ t) := by
      have h1 := (List.perm_middle.symm.trans hp).trans List.perm_middle
      exact h1.cons_inv
    exact QueueRun.remove s t x ops out (fun y hy => hle y (hp'.mem_iff.mpr hy)) (ih hp')

theorem heapRun_spec {α : Type} : ∀ (ops : List (QueueOp α)) (h : List (α × Nat)), IsHeap h →
    (Matched h.length ops → ∃ out, heapRun h ops = some out) ∧
      (¬ Matched h.length ops → heapRun h ops = none) ∧
      ∀ out, heapRun h ops = some out → QueueRun h ops out := by
  intro ops
  induction ops with
  | nil =>
    intro h _
    refine ⟨fun _ => ⟨[], rfl⟩, fun hc => absurd trivial hc, ?_⟩
    intro out ho
    simp only [heapRun, Option.some.injEq] at ho
    subst ho
    exact QueueRun.done h
  | cons op ops ih =>
    intro h hh
    cases op with
    | insert v w =>
      obtain ⟨h', e1, e2, e3⟩ := insert_spec hh (v, w)
      obtain ⟨i1, i2, i3⟩ := ih h' e3
      have hl : h'.length = h.length + 1 := by simpa using e2.length_eq
      rw [hl] at i1 i2
      refine ⟨fun hm => ?_, fun hm => ?_, fun out ho => ?_⟩
      · obtain ⟨out, ho⟩ := i1 hm
        exact ⟨out, by simp [heapRun, e1, ho]⟩
      · simp [heapRun, e1, i2 hm]
      · rw [heapRun, e1] at ho
        exact QueueRun.insert h v w ops out (queueRun_perm e2 (i3 out ho))
    | deleteMin =>
      by_cases hne : h = []
      · subst hne
        have hd : MinHeap.deleteMin ([] : List (α × Nat)) = none := rfl
        refine ⟨fun hm => absurd hm id, fun _ => by simp [heapRun, hd], fun out ho => ?_⟩
        simp [heapRun, hd] at ho
      · obtain ⟨x, h', e1, e2, e3, e4⟩ := deleteMin_spec hh hne
        obtain ⟨i1, i2, i3⟩ := ih h' e4
        have hl : h.length = h'.length + 1 := by simpa using e2.length_eq
        rw [hl]
        refine ⟨fun hm => ?_, fun hm => ?_, fun out ho => ?_⟩
        · obtain ⟨out, ho⟩ := i1 hm
          exact ⟨x :: out, by simp [heapRun, e1, ho]⟩
        · have := i2 hm
          simp [heapRun, e1, this]
        · simp only [heapRun, e1, Option.bind_some, Option.map_eq_some_iff] at ho
          obtain ⟨o, ho, rfl⟩ := ho
          exact queueRun_perm e2.symm (QueueRun.remove [] h' x ops o (by simpa using e3) (by simpa using i3 o ho))

/-- C61.  Whatever sequence of insertions and removals is carried out on an empty heap, every removal returns a pair of the least
weight among those inserted and not yet removed, nothing is lost or duplicated, and the sequence is well-defined exactly when no
removal meets an empty heap. -/
theorem C61_heap_is_a_priority_queue {α : Type} (ops : List (QueueOp α)) :
    ((∃ out, heapRun [] ops = some out) ↔ Matched 0 ops) ∧ ∀ out, heapRun [] ops = some out → QueueRun [] ops out := by
  obtain ⟨h1, h2, h3⟩ := heapRun_spec ops [] isHeap_nil
  refine ⟨⟨fun ⟨out, ho⟩ => ?_, h1⟩, h3⟩
  apply Classical.byContradiction
  intro hc
  rw [h2 hc] at ho
  simp at ho

/-- Non-vacuity: the operations of the second test of the project and an insertion between the removals. -/
example : Matched 0 [.insert 4 4, .insert 20 5, .deleteMin, .insert 16 3, .deleteMin, QueueOp.deleteMin] ∧
    heapRun [] [.insert 4 4, .insert 20 5, .deleteMin, .insert 16 3, .deleteMin, QueueOp.deleteMin] = some [(4, 4), (16, 3), (20, 5)] := by
  exact ⟨trivial, by decide⟩

/-- A queue run that removes everything it inserted: the weights come out in ascending order. -/
theorem queueRun_sorted {α : Type} : ∀ (held out : List (α × Nat)),
    QueueRun held (List.replicate held.length .deleteMin) out → out.Perm held ∧ (out.map (·.2)).Pairwise (· ≤ ·) := by
  intro held
  induction hn : held.length generalizing held with
  | zero =>
    intro out h
    have : held = [] := List.length_eq_zero_iff.mp hn
    rw [List.replicate_zero] at h
    rw [this]
    generalize hops : ([] : List (QueueOp α)) = ops at h
    cases h with
    | done => simp
    | insert => cases hops
    | remove => cases hops
  | succ n ih =>
    intro out h
    rw [List.replicate_succ] at h
    cases h with
    | remove before after x ops out hle h =>
      have hl : (before ++ after).length = n := by
        simp only [List.length_append, List.length_cons] at hn ⊢
        omega
      obtain ⟨h1, h2⟩ := ih (before ++ after) hl out h
      refine ⟨(h1.cons x).trans List.perm_middle.symm, ?_⟩
      rw [List.map_cons, List.pairwise_cons]
      refine ⟨?_, h2⟩
      intro w hw
      obtain ⟨y, hy, rfl⟩ := List.mem_map.mp hw
      exact hle y (h1.mem_iff.mp hy)

theorem queueRun_inserts {α : Type} : ∀ (items held : List (α × Nat)) (ops : List (QueueOp α)) (out : List (α × Nat)),
    QueueRun held (items.map (fun p => QueueOp.insert p.1 p.2) ++ ops) out → QueueRun (items.reverse ++ held) ops out := by
  intro items
  induction items with
  | nil => intro held ops out h; exact h
  | cons x items ih =>
    intro held ops out h
    rw [List.map_cons, List.cons_append] at h
    cases h with
    | insert _ _ _ _ _ h =>
      have := ih _ _ _ h
      simpa using this

theorem matched_removals {α : Type} : ∀ n : Nat, Matched (α := α) n (List.replicate n .deleteMin)
  | 0 => trivial
  | n + 1 => by
    rw [List.replicate_succ]
    exact matched_removals n

theorem matched_inserts {α : Type} : ∀ (items : List (α × Nat)) (n : Nat) (ops : List (QueueOp α)),
    Matched n (items.map (fun p => QueueOp.insert p.1 p.2) ++ ops) ↔ Matched (n + items.length) ops
  | [], _, _ => Iff.rfl
  | x :: items, n, ops => by
    rw [List.map_cons, List.cons_append, Matched, matched_inserts items (n + 1) ops, List.length_cons]
    rw [show n + 1 + items.length = n + (items.length + 1) by omega]

/-- C61, sorting: all pairs inserted and then all removed come out in the order of their weights, each of them once. -/
theorem C61_heap_sorts {α : Type} (items : List (α × Nat)) :
    ∃ out, heapRun [] (items.map (fun p => QueueOp.insert p.1 p.2) ++ List.replicate items.length .deleteMin) = some out ∧
      out.Perm items ∧ (out.map (·.2)).Pairwise (· ≤ ·) := by
  obtain ⟨h1, h2⟩ := C61_heap_is_a_priority_queue (items.map (fun p => QueueOp.insert p.1 p.2) ++ List.replicate items.length .deleteMin)
  obtain ⟨out, ho⟩ := h1.mpr ((matched_inserts items 0 _).mpr (by rw [Nat.zero_add]; exact matched_removals _))
  have h3 := queueRun_inserts items [] _ out (h2 out ho)
  rw [List.append_nil, ← List.length_reverse] at h3
  obtain ⟨h4, h5⟩ := queueRun_sorted _ _ h3
  exact ⟨out, ho, h4.trans (List.reverse_perm items), h5⟩

/-! ## The tree -/

theorem zipIdx_range (w : Nat → Nat) (n : Nat) :
    (((List.range n).map w).zipIdx.filter fun p => p.1 ≠ 0) = ((List.range n).filter fun i => 0 < w i).map fun i => (w i, i) := by
  have h1 : ((List.range n).map w).zipIdx = (List.range n).map fun i => (w i, i) := by
    apply List.ext_getElem
    · simp
    · intro i h1 h2
      simp
  rw [h1, List.filter_map]
  congr 1
  apply List.filter_congr
  intro i _
  simp [Nat.pos_iff_ne_zero]

theorem sum_filter_pos (w : Nat → Nat) (l : List Nat) : ((l.filter fun i => 0 < w i).map w).sum = (l.map w).sum := by
  induction l with
  | nil => rfl
  | cons a l ih =>
    rw [List.filter_cons]
    by_cases h : 0 < w a
    · simp [h, ih]
    · simp [h, ih]; omega

/-- C62.  For every table of frequencies with at least two positive entries and a sum below `2^64`, the tree built with the heap
gives every occurring symbol exactly one code, no code is a prefix of another one, and no prefix-free code of the occurring symbols
needs fewer bits in total. -/
theorem C62_shape_is_optimal (n : Nat) (w : Nat → Nat) (occurring : List Nat)
    (ho : occurring = (List.range n).filter fun i => 0 < w i) (h2 : 2 ≤ occurring.length)
    (hsum : ((List.range n).map w).sum < 2 ^ 64) :
    ∃ t codes, createHuffmanShape ((List.range n).map w) = some t ∧ collect t [] = some codes ∧
      (codes.map (·.1)).Perm occurring ∧ codes.Pairwise (fun a b => ¬ a.2 <+: b.2 ∧ ¬ b.2 <+: a.2) ∧
      ∀ word : Nat → List Bool, (∀ i ∈ occurring, ∀ j ∈ occurring, i ≠ j → ¬ word i <+: word j) →
        (codes.map fun p => w p.1 * p.2.length).sum ≤ (occurring.map fun s => w s * (word s).length).sum := by
  obtain ⟨h, f1, f2, f3⟩ := fill_spec ((List.range n).map w) 0 [] isHeap_nil
  rw [List.append_nil, zipIdx_range w n, ← ho, List.map_map] at f3
  have hl : h.length = occurring.length := by simpa using f3.length_eq
  have hfits : Fits w h := by
    intro e he
    obtain ⟨i, _, rfl⟩ := List.mem_map.mp (f3.mem_iff.mp he)
    exact ⟨Good.leaf i, rfl⟩
  have hws : (h.map (·.2)).sum < 2 ^ 64 := by
    rw [(f3.map (·.2)).sum_nat, List.map_map]
    have e : (occurring.map ((fun x : Sh × Nat => x.2) ∘ ((fun p : Nat × Nat => (Sh.leaf p.2, p.1)) ∘ fun i => (w i, i)))) =
        occurring.map w := rfl
    rw [e, ho, sum_filter_pos]
    exact hsum
  obtain ⟨t, t1, t2, t3, t4⟩ := merge_spec w (h.length + 1) h (by omega) (by intro hc; rw [hc] at hl; simp at hl; omega) f2 hfits hws
  obtain ⟨cs, c1, c2, c3, c4, c5⟩ := collect_good w t2 []
  refine ⟨t, cs, ?_, c1, ?_, c5, ?_⟩
  · rw [createHuffmanShape, f1]
    simp only [Option.bind_eq_bind, Option.bind_some]
    rw [if_neg (by omega)]
    exact t1
  · rw [c2]
    refine t4.trans ((f3.flatMap_right _).trans ?_)
    rw [List.flatMap_map]
    have : (occurring.flatMap fun a => syms (((fun p : Nat × Nat => (Sh.leaf p.2, p.1)) ∘ fun i => (w i, i)) a).1) = occurring := by
      have : (fun a => syms (((fun p : Nat × Nat => (Sh.leaf p.2, p.1)) ∘ fun i => (w i, i)) a).1) = fun a => [a] := rfl
      rw [this]
      simp
    rw [this]
  · intro word hfree
    -- the cost of the tree
    have hcost : (cs.map fun p => w p.1 * p.2.length).sum = (weigh w t).cost := by
      have e1 := (c4.map fun p : Nat × Nat => p.1 * p.2).sum_nat
      rw [List.map_map] at e1
      have e2 := wsum_leaves 0 (weigh w t)
      simp only [wsum, Nat.mul_zero, Nat.zero_add] at e2
      rw [List.length_nil, e2] at e1
      exact e1
    rw [hcost]
    obtain ⟨m, hm⟩ : ∃ m, ∀ i ∈ occurring, (word i).length ≤ m := by
      have bound : ∀ l : List Nat, ∃ m, ∀ i ∈ l, (word i).length ≤ m := by
        intro l
        induction l with
        | nil => exact ⟨0, by simp⟩
        | cons a l ih =>
          obtain ⟨m, hm⟩ := ih
          refine ⟨max m (word a).length, ?_⟩
          intro i hi
          rcases List.mem_cons.mp hi with rfl | hi
          · omega
          · have := hm i hi
            omega
      exact bound occurring
    have hnd : occurring.Nodup := by
      rw [ho]
      exact List.Pairwise.filter _ List.nodup_range
    have hk : kraft m (occurring.map fun i => (word i).length) ≤ 2 ^ m := by
      have hpf : PrefixFree (occurring.map word) := by
        unfold PrefixFree
        rw [List.pairwise_map]
        rw [List.nodup_iff_pairwise_ne] at hnd
        refine List.Pairwise.imp_of_mem ?_ hnd
        intro a b ha hb hab
        exact ⟨hfree a ha b hb hab, hfree b hb a ha (Ne.symm hab)⟩
      have := kraft_inequality m _ hpf (by
        intro u hu
        obtain ⟨i, hi, rfl⟩ := List.mem_map.mp hu
        exact hm i hi)
      rwa [List.map_map] at this
    have hpool : (pool w h).Perm (occurring.map fun i => Tree.leaf (w i)) := by
      have := f3.map fun e => weigh w e.1
      rw [List.map_map] at this
      exact this
    have hg := greedy_perm hpool.symm t3
    have hopt := greedy_optimal hg (occurring.map fun i => (word i).length) m (by simp)
      (by
        intro l hl
        obtain ⟨i, hi, rfl⟩ := List.mem_map.mp hl
        exact hm i hi) hk
    have hz : ((occurring.map fun i => Tree.leaf (w i)).map Tree.cost).sum = 0 := by
      have zero : ∀ l : List Nat, ((l.map fun i => Tree.leaf (w i)).map Tree.cost).sum = 0 := by
        intro l
        induction l with
        | nil => rfl
        | cons a l ih => rw [List.map_cons, List.map_cons, List.sum_cons, ih]; rfl
      exact zero occurring
    rw [hz, Nat.add_zero, List.zip_map', pcost, List.map_map] at hopt
    exact hopt

/-- C62, one symbol: it gets the code 0.  Without any symbol the program reads from an empty vector. -/
theorem C62_few_symbols (n : Nat) (w : Nat → Nat) :
    (∀ s, (List.range n).filter (fun i => 0 < w i) = [s] →
      ∃ t, createHuffmanShape ((List.range n).map w) = some t ∧ collect t [] = some [(s, [false])]) ∧
      ((List.range n).filter (fun i => 0 < w i) = [] → createHuffmanShape ((List.range n).map w) = none) := by
  obtain ⟨h, f1, f2, f3⟩ := fill_spec ((List.range n).map w) 0 [] isHeap_nil
  rw [List.append_nil, zipIdx_range w n, List.map_map] at f3
  refine ⟨fun s hs => ?_, fun hs => ?_⟩
  · rw [hs] at f3
    have he : h = [(Sh.leaf s, w s)] := List.perm_singleton.mp f3
    refine ⟨.node none (.leaf s) .nil, ?_, rfl⟩
    rw [createHuffmanShape, f1, he]
    rfl
  · rw [hs] at f3
    have he : h = [] := List.perm_nil.mp f3
    rw [createHuffmanShape, f1, he]
    rfl

/-- Non-vacuity: the second test of the project, four symbols. -/
example : (List.range 256).filter (fun i => 0 < (if i = 97 then 6 else if i = 98 then 5 else if i = 99 then 4 else if i = 100 then 20 else 0)) =
    [97, 98, 99, 100] := by decide +kernel

end Bwtc.Props
