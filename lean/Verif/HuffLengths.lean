import Verif.HuffTree

/-!
# Huffman code lengths

Model of `calculateHuffmanLengths` and `calculateCodeLengths` (Utils.cpp:399-473) and the proof
that the in-place algorithm computes the leaf depths of a greedily built tree.
-/

set_option autoImplicit false

namespace Bwtc.Huff

/-- Size of the range of `uint64`. -/
def W64 : Nat := 2 ^ 64

/-- The condition `s >= n || (r < t && freqs[r] < freqs[s])` (Utils.cpp:441, 447). -/
def fromInternal (n t s r : Nat) (A : List Nat) : Option Bool :=
  if n ≤ s then some true
  else if r < t then
    match A[r]?, A[s]? with
    | some x, some y => some (decide (x < y))
    | _, _ => none
  else some false

/-- One of the two choices of a round: `add = false` is the first (Utils.cpp:441-446, the cell
`freqs[t]` is overwritten), `add = true` the second (Utils.cpp:447-452, `+=` modulo `W`). -/
def pick (W n t : Nat) (add : Bool) (A : List Nat) (s r : Nat) : Option (List Nat × Nat × Nat) :=
  match A[t]?, fromInternal n t s r A with
  | some old, some true =>
    match A[r]? with
    | some v => some ((A.set t (if add then (old + v) % W else v)).set r t, s, r + 1)
    | none => none
  | some old, some false =>
    match A[s]? with
    | some v => some (A.set t (if add then (old + v) % W else v), s + 1, r)
    | none => none
  | _, _ => none

/-- The first loop (Utils.cpp:439-453) with `k` rounds left. -/
def mergeLoop (W n : Nat) : Nat → Nat → List Nat → Nat → Nat → Option (List Nat)
  | 0, _, A, _, _ => some A
  | k + 1, t, A, s, r =>
    match pick W n t false A s r with
    | none => none
    | some (A, s, r) =>
      match pick W n t true A s r with
      | none => none
      | some (A, s, r) => mergeLoop W n k (t + 1) A s r

/-- The second loop (Utils.cpp:456-458), `t` rounds left. -/
def depthLoop : Nat → List Nat → Option (List Nat)
  | 0, A => some A
  | t + 1, A =>
    match A[t]? with
    | none => none
    | some p =>
      match A[p]? with
      | none => none
      | some d => depthLoop t (A.set t (d + 1))

/-- `while(t >= 0 && freqs[t] == depth) { ++u; --t; }` (Utils.cpp:463); `ts` is `t + 1`. -/
def countLoop (A : List Nat) (depth : Nat) : Nat → Nat → Option (Nat × Nat)
  | 0, u => some (0, u)
  | ts + 1, u =>
    match A[ts]? with
    | none => none
    | some v => if v = depth then countLoop A depth ts (u + 1) else some (ts + 1, u)

/-- `while(a > u) { freqs[x] = depth; --x; --a; }` (Utils.cpp:464); `xs` is `x + 1`; the first
argument is the number of rounds. -/
def fillLoop (depth : Nat) : Nat → Nat → List Nat → Option (Nat × List Nat)
  | 0, xs, A => some (xs, A)
  | _ + 1, 0, _ => none
  | k + 1, xs + 1, A => if xs < A.length then fillLoop depth k xs (A.set xs depth) else none

/-- The third loop (Utils.cpp:462-468).  The first argument bounds the number of rounds; running
out of it stands for non-termination. -/
def levelLoop : Nat → Nat → Nat → Nat → Nat → List Nat → Option (List Nat)
  | 0, _, _, _, _, _ => none
  | fuel + 1, a, ts, xs, depth, A =>
    if a = 0 then some A
    else
      match countLoop A depth ts 0 with
      | none => none
      | some (ts, u) =>
        match fillLoop depth (a - u) xs A with
        | none => none
        | some (xs, A) => levelLoop fuel (2 * u) ts xs (depth + 1) A

/-- Utils.cpp:439-468 on the array of `n ≥ 2` frequencies. -/
def lengths (W : Nat) (A : List Nat) : Option (List Nat) :=
  match mergeLoop W A.length (A.length - 1) 0 A 0 0 with
  | none => none
  | some A =>
    match depthLoop (A.length - 2) (A.set (A.length - 2) 0) with
    | none => none
    | some A => levelLoop (A.length + 1) 1 (A.length - 1) A.length 0 A

/-- Order of pairs used by `std::sort` (Utils.cpp:433). -/
def pairLe (a b : Nat × Nat) : Bool := decide (a.1 < b.1 ∨ (a.1 = b.1 ∧ a.2 ≤ b.2))

/-- Insertion into a sorted list; helper of `sortPairs`. -/
def insertPair (p : Nat × Nat) : List (Nat × Nat) → List (Nat × Nat)
  | [] => [p]
  | q :: l => if pairLe p q then p :: q :: l else q :: insertPair p l

/-- `std::sort(codeLengths.begin(), codeLengths.end())` (Utils.cpp:433).  The order is total on
pairs, so every correct sorting algorithm gives the same result. -/
def sortPairs : List (Nat × Nat) → List (Nat × Nat)
  | [] => []
  | p :: l => insertPair p (sortPairs l)

/-- `calculateCodeLengths` (Utils.cpp:422-473) with `sorted = false`; pairs (weight, symbol) to
pairs (length, symbol).  Simplification: the workspace array is separate from the caller's. -/
def calculateCodeLengths (ps : List (Nat × Nat)) : Option (List (Nat × Nat)) :=
  match ps with
  | [] => none
  | [p] => some [(1, p.2)]
  | _ :: _ :: _ =>
    let sorted := sortPairs ps
    match lengths W64 (sorted.map (·.1)) with
    | none => none
    | some ls => some (ls.zip (sorted.map (·.2)))

/-- `calculateHuffmanLengths` (Utils.cpp:411-420) for the given table of frequencies. -/
def calculateHuffmanLengths (freqs : List Nat) : Option (List (Nat × Nat)) :=
  calculateCodeLengths (freqs.zipIdx.filter fun p => p.1 ≠ 0)

/-! ## Refinement: the merging loop builds a tree -/

open Tree

/-- Contents of the cell that stands for a tree. -/
def val (W : Nat) : Tree → Nat
  | .leaf w => w
  | .node _ l r => (l.wt + r.wt) % W

/-- Taking the next tree from the two queues. -/
def take (W : Nat) : List Nat → List Tree → Option (Tree × List Nat × List Tree)
  | [], [] => none
  | [], q :: Q => some (q, [], Q)
  | l :: L, [] => some (.leaf l, L, [])
  | l :: L, q :: Q => if val W q < l then some (q, l :: L, Q) else some (.leaf l, L, q :: Q)

/-- The two-queue algorithm. -/
def absRun (W : Nat) : Nat → Nat → List Nat → List Tree → Option (List Nat × List Tree)
  | 0, _, L, Q => some (L, Q)
  | k + 1, t, L, Q =>
    match take W L Q with
    | none => none
    | some (a, L, Q) =>
      match take W L Q with
      | none => none
      | some (b, L, Q) => absRun W k (t + 1) L (Q ++ [.node t a b])

/-- Relation between the array and the queues; `X` are the trees already taken in this round. -/
structure Core (W : Nat) (W0 : List Nat) (n t : Nat) (A : List Nat) (s r : Nat) (L : List Nat)
    (Q X : List Tree) : Prop where
  len : A.length = n
  tn : t + 1 < n
  sn : s ≤ n
  drop : A.drop s = L
  sr : s + r = 2 * t + X.length
  qlen : Q.length + r = t
  queue : ∀ (i : Nat) (q : Tree), Q[i]? = some q → q.root = some (r + i) ∧ A[r + i]? = some (val W q)
  pars : ∀ q ∈ Q ++ X, ∀ c p, (c, p) ∈ q.par → A[c]? = some p ∧ c < r
  xs : ∀ x ∈ X, ∀ c, x.root = some c → c < r ∧ A[c]? = some t
  up : ∀ i, i < r → ∃ p, A[i]? = some p ∧ i < p ∧ p ≤ t
  mono : ∀ (i j p q : Nat), i < j → j < r → A[i]? = some p → A[j]? = some q → p ≤ q
  labs : ((Q ++ X).flatMap Tree.labels).Perm (List.range t)
  leaves : ((Q ++ X).flatMap Tree.lws ++ L).Perm W0

theorem getElem?_set' {l : List Nat} {i j v : Nat} (h : i < l.length) :
    (l.set i v)[j]? = if j = i then some v else l[j]? := by
  by_cases hj : j = i
  · subst hj
    rw [List.getElem?_set_self h]
    simp
  · rw [List.getElem?_set_ne (fun hc => hj hc.symm)]
    simp [hj]

theorem drop_set_lt {l : List Nat} {i k v : Nat} (h : i < k) : (l.set i v).drop k = l.drop k := by
  rw [List.drop_set]
  simp [h]

theorem drop_eq_cons {l : List Nat} {s a : Nat} {as : List Nat} (h : l.drop s = a :: as) :
    l[s]? = some a ∧ l.drop (s + 1) = as ∧ s < l.length := by
  have hlt : s < l.length := by
    apply Classical.byContradiction
    intro hc
    rw [List.drop_eq_nil_of_le (by omega)] at h
    simp at h
  rw [List.drop_eq_getElem_cons hlt] at h
  simp only [List.cons.injEq] at h
  exact ⟨by rw [List.getElem?_eq_getElem hlt, h.1], h.2, hlt⟩

theorem pick_core {W : Nat} {W0 : List Nat} {n t : Nat} {A : List Nat} {s r : Nat} {L : List Nat}
    {Q X : List Tree} (h : Core W W0 n t A s r L Q X) (hX : X.length ≤ 1) (add : Bool) :
    ∃ (a : Tree) (L' : List Nat) (Q' : List Tree) (A' : List Nat) (s' r' old : Nat),
      take W L Q = some (a, L', Q') ∧ A[t]? = some old ∧
      pick W n t add A s r = some (A', s', r') ∧ Core W W0 n t A' s' r' L' Q' (X ++ [a]) ∧
      A'[t]? = some (if add then (old + val W a) % W else val W a) := by
  obtain ⟨hlen, htn, hsn, hdrop, hsr, hqlen, hqueue, hpars, hxs, hup, hmono, hlabs, hleaves⟩ := h
  obtain ⟨old, hold⟩ : ∃ old, A[t]? = some old := ⟨A[t], List.getElem?_eq_getElem (by omega)⟩
  have hLlen : L.length = n - s := by rw [← hdrop, List.length_drop, hlen]
  -- taking a tree from the queue
  have internal : ∀ (q : Tree) (Q' : List Tree), Q = q :: Q' → fromInternal n t s r A = some true →
      ∃ (A' : List Nat) (s' r' : Nat), pick W n t add A s r = some (A', s', r') ∧
        Core W W0 n t A' s' r' L Q' (X ++ [q]) ∧
        A'[t]? = some (if add then (old + val W q) % W else val W q) := by
    intro q Q' hQ hfi
    subst hQ
    obtain ⟨hq1, hq2⟩ := hqueue 0 q (by simp)
    rw [Nat.add_zero] at hq1 hq2
    simp only [List.length_cons] at hqlen
    have hrt : r < t := by omega
    refine ⟨(A.set t (if add then (old + val W q) % W else val W q)).set r t, s, r + 1, ?_, ?_, ?_⟩
    · simp only [pick, hold, hfi, hq2]
    · generalize (if add then (old + val W q) % W else val W q) = v
      have hget : ∀ j, ((A.set t v).set r t)[j]? = if j = r then some t else if j = t then some v else A[j]? := by
        intro j
        rw [getElem?_set' (by rw [List.length_set]; omega), getElem?_set' (by omega)]
      refine ⟨by simpa using hlen, htn, hsn, ?_, by simp; omega, by omega, ?_, ?_, ?_, ?_, ?_, ?_, ?_⟩
      · rw [drop_set_lt (by omega), drop_set_lt (by omega), hdrop]
      · intro i q' hq'
        obtain ⟨g1, g2⟩ := hqueue (i + 1) q' (by simpa using hq')
        have hi : i < Q'.length := (List.getElem?_eq_some_iff.mp hq').1
        rw [hget, if_neg (by omega), if_neg (by omega), show r + 1 + i = r + (i + 1) by omega]
        exact ⟨g1, g2⟩
      · intro q' hq' c p hcp
        obtain ⟨g1, g2⟩ := hpars q' (by
          simp only [List.mem_append, List.mem_cons, List.not_mem_nil, or_false] at hq' ⊢
          rcases hq' with h | h | h
          · exact Or.inl (Or.inr h)
          · exact Or.inr h
          · exact Or.inl (Or.inl h)) c p hcp
        rw [hget, if_neg (by omega), if_neg (by omega)]
        exact ⟨g1, by omega⟩
      · intro x hx c hc
        rcases List.mem_append.mp hx with hx | hx
        · obtain ⟨g1, g2⟩ := hxs x hx c hc
          rw [hget, if_neg (by omega), if_neg (by omega)]
          exact ⟨by omega, g2⟩
        · simp at hx
          subst hx
          rw [hq1] at hc
          simp at hc
          subst hc
          rw [hget, if_pos rfl]
          exact ⟨by omega, rfl⟩
      · intro i hi
        rw [hget]
        by_cases hir : i = r
        · rw [if_pos hir]
          exact ⟨t, rfl, by omega, Nat.le_refl _⟩
        · rw [if_neg hir, if_neg (by omega)]
          exact hup i (by omega)
      · intro i j p q' hij hj hp hq'
        rw [hget, if_neg (by omega), if_neg (by omega)] at hp
        rw [hget] at hq'
        obtain ⟨p', e1, e2, e3⟩ := hup i (by omega)
        rw [hp] at e1
        simp at e1
        subst e1
        by_cases hjr : j = r
        · rw [if_pos hjr] at hq'
          simp at hq'
          omega
        · rw [if_neg hjr, if_neg (by omega)] at hq'
          exact hmono i j p q' hij (by omega) hp hq'
      · refine List.Perm.trans ?_ hlabs
        have : (Q' ++ (X ++ [q])).Perm (q :: Q' ++ X) := by
          rw [← List.append_assoc]
          exact List.perm_append_singleton _ _
        exact this.flatMap_right _
      · refine List.Perm.trans ?_ hleaves
        have : (Q' ++ (X ++ [q])).Perm (q :: Q' ++ X) := by
          rw [← List.append_assoc]
          exact List.perm_append_singleton _ _
        exact (this.flatMap_right _).append_right _
    · rw [getElem?_set' (by rw [List.length_set]; omega), if_neg (by omega), getElem?_set' (by omega),
        if_pos rfl]
  -- taking a leaf
  have leafcase : ∀ (l : Nat) (L' : List Nat), L = l :: L' → fromInternal n t s r A = some false →
      ∃ (A' : List Nat) (s' r' : Nat), pick W n t add A s r = some (A', s', r') ∧
        Core W W0 n t A' s' r' L' Q (X ++ [.leaf l]) ∧
        A'[t]? = some (if add then (old + val W (.leaf l)) % W else val W (.leaf l)) := by
    intro l L' hL hfi
    subst hL
    obtain ⟨hl1, hl2, hl3⟩ := drop_eq_cons hdrop
    refine ⟨A.set t (if add then (old + l) % W else l), s + 1, r, ?_, ?_, ?_⟩
    · simp only [pick, hold, hfi, hl1]
    · generalize (if add then (old + l) % W else l) = v
      have hget : ∀ j, (A.set t v)[j]? = if j = t then some v else A[j]? := by
        intro j
        rw [getElem?_set' (by omega)]
      refine ⟨by simpa using hlen, htn, by omega, ?_, by simp; omega, by omega, ?_, ?_, ?_, ?_, ?_, ?_, ?_⟩
      · rw [drop_set_lt (by omega), hl2]
      · intro i q' hq'
        obtain ⟨g1, g2⟩ := hqueue i q' hq'
        have hi : i < Q.length := (List.getElem?_eq_some_iff.mp hq').1
        rw [hget, if_neg (by omega)]
        exact ⟨g1, g2⟩
      · intro q' hq' c p hcp
        rw [← List.append_assoc] at hq'
        rcases List.mem_append.mp hq' with hq' | hq'
        · obtain ⟨g1, g2⟩ := hpars q' hq' c p hcp
          rw [hget, if_neg (by omega)]
          exact ⟨g1, g2⟩
        · simp at hq'
          subst hq'
          simp [Tree.par] at hcp
      · intro x hx c hc
        rcases List.mem_append.mp hx with hx | hx
        · obtain ⟨g1, g2⟩ := hxs x hx c hc
          rw [hget, if_neg (by omega)]
          exact ⟨by omega, g2⟩
        · simp at hx
          subst hx
          simp [Tree.root] at hc
      · intro i hi
        rw [hget, if_neg (by omega)]
        exact hup i hi
      · intro i j p q' hij hj hp hq'
        rw [hget, if_neg (by omega)] at hp hq'
        exact hmono i j p q' hij hj hp hq'
      · simp only [List.flatMap_append, List.flatMap_cons, Tree.labels, List.flatMap_nil, List.append_nil] at hlabs ⊢
        exact hlabs
      · refine List.Perm.trans ?_ hleaves
        simp only [List.flatMap_append, List.flatMap_cons, Tree.lws, List.flatMap_nil, List.append_assoc,
          List.append_nil, List.singleton_append]
        exact List.Perm.refl _
    · rw [getElem?_set' (by omega), if_pos rfl]
      rfl
  -- the decision
  cases L with
  | nil =>
    have hs : n ≤ s := by simp at hLlen; omega
    cases Q with
    | nil => simp at hqlen; omega
    | cons q Q' =>
      obtain ⟨A', s', r', e1, e2, e3⟩ := internal q Q' rfl (by rw [fromInternal, if_pos hs])
      exact ⟨q, [], Q', A', s', r', old, rfl, hold, e1, e2, e3⟩
  | cons l L' =>
    have hs : ¬ n ≤ s := by simp at hLlen; omega
    obtain ⟨hl1, hl2, hl3⟩ := drop_eq_cons hdrop
    cases Q with
    | nil =>
      simp at hqlen
      obtain ⟨A', s', r', e1, e2, e3⟩ := leafcase l L' rfl (by
        rw [fromInternal, if_neg hs, if_neg (by omega)])
      exact ⟨.leaf l, L', [], A', s', r', old, rfl, hold, e1, e2, e3⟩
    | cons q Q' =>
      obtain ⟨hq1, hq2⟩ := hqueue 0 q (by simp)
      rw [Nat.add_zero] at hq2
      simp only [List.length_cons] at hqlen
      have hfi : fromInternal n t s r A = some (decide (val W q < l)) := by
        rw [fromInternal, if_neg hs, if_pos (by omega), hq2, hl1]
      by_cases hc : val W q < l
      · obtain ⟨A', s', r', e1, e2, e3⟩ := internal q Q' rfl (by rw [hfi]; simp [hc])
        exact ⟨q, l :: L', Q', A', s', r', old, by simp [take, hc], hold, e1, e2, e3⟩
      · obtain ⟨A', s', r', e1, e2, e3⟩ := leafcase l L' rfl (by rw [hfi]; simp [hc])
        exact ⟨.leaf l, L', q :: Q', A', s', r', old, by simp [take, hc], hold, e1, e2, e3⟩

/-- State between rounds. -/
structure Bound (W : Nat) (W0 : List Nat) (n t : Nat) (A : List Nat) (s r : Nat) (L : List Nat)
    (Q : List Tree) : Prop where
  len : A.length = n
  tn : t < n
  sn : s ≤ n
  drop : A.drop s = L
  sr : s + r = 2 * t
  qlen : Q.length + r = t
  queue : ∀ (i : Nat) (q : Tree), Q[i]? = some q → q.root = some (r + i) ∧ A[r + i]? = some (val W q)
  pars : ∀ q ∈ Q, ∀ c p, (c, p) ∈ q.par → A[c]? = some p ∧ c < r
  up : ∀ i, i < r → ∃ p, A[i]? = some p ∧ i < p ∧ p < t
  mono : ∀ (i j p q : Nat), i < j → j < r → A[i]? = some p → A[j]? = some q → p ≤ q
  labs : (Q.flatMap Tree.labels).Perm (List.range t)
  leaves : (Q.flatMap Tree.lws ++ L).Perm W0

theorem Bound.core {W : Nat} {W0 : List Nat} {n t : Nat} {A : List Nat} {s r : Nat} {L : List Nat}
    {Q : List Tree} (h : Bound W W0 n t A s r L Q) (ht : t + 1 < n) : Core W W0 n t A s r L Q [] := by
  obtain ⟨h1, h2, h3, h4, h5, h6, h7, h8, h9, h10, h11, h12⟩ := h
  refine ⟨h1, ht, h3, h4, by simpa using h5, h6, h7, by simpa using h8, by simp, ?_, h10, by simpa using h11,
    by simpa using h12⟩
  intro i hi
  obtain ⟨p, e1, e2, e3⟩ := h9 i hi
  exact ⟨p, e1, e2, by omega⟩

theorem val_node (W t : Nat) (a b : Tree) : (val W a + val W b) % W = val W (.node t a b) := by
  have h : ∀ x : Tree, val W x % W = x.wt % W := by
    intro x
    cases x with
    | leaf w => rfl
    | node t l r => simp [val, Tree.wt]
  rw [val, Nat.add_mod, h a, h b, ← Nat.add_mod]

theorem round {W : Nat} {W0 : List Nat} {n t : Nat} {A : List Nat} {s r : Nat} {L : List Nat}
    {Q : List Tree} (h : Bound W W0 n t A s r L Q) (ht : t + 1 < n) :
    ∃ a L1 Q1 b L2 Q2 A1 s1 r1 A2 s2 r2, take W L Q = some (a, L1, Q1) ∧ take W L1 Q1 = some (b, L2, Q2) ∧
      pick W n t false A s r = some (A1, s1, r1) ∧ pick W n t true A1 s1 r1 = some (A2, s2, r2) ∧
      Bound W W0 n (t + 1) A2 s2 r2 L2 (Q2 ++ [.node t a b]) := by
  obtain ⟨a, L1, Q1, A1, s1, r1, old, e1, e2, e3, e4, e5⟩ := pick_core (h.core ht) (by simp) false
  obtain ⟨b, L2, Q2, A2, s2, r2, old2, f1, f2, f3, f4, f5⟩ := pick_core e4 (by simp) true
  rw [e5] at f2
  simp only [Bool.false_eq_true, if_false, if_true, Option.some.injEq] at f2 f5
  rw [← f2, val_node W t] at f5
  refine ⟨a, L1, Q1, b, L2, Q2, A1, s1, r1, A2, s2, r2, e1, f1, e3, f3, ?_⟩
  obtain ⟨h1, h2, h3, h4, h5, h6, h7, h8, h9, h10, h11, h12, h13⟩ := f4
  simp only [List.nil_append, List.singleton_append, List.length_cons, List.length_nil] at h5 h8 h9 h12 h13
  refine ⟨h1, by omega, h3, h4, by omega, by simp; omega, ?_, ?_, ?_, h11, ?_, ?_⟩
  · intro i q hq
    by_cases hi : i < Q2.length
    · rw [List.getElem?_append_left hi] at hq
      exact h7 i q hq
    · have hlt := (List.getElem?_eq_some_iff.mp hq).1
      simp at hlt
      have hi' : i = Q2.length := by omega
      subst hi'
      rw [List.getElem?_append_right (Nat.le_refl _)] at hq
      simp at hq
      subst hq
      rw [show r2 + Q2.length = t by omega]
      exact ⟨rfl, f5⟩
  · intro q hq c p hcp
    rcases List.mem_append.mp hq with hq | hq
    · exact h8 q (by simp [hq]) c p hcp
    · simp at hq
      subst hq
      simp only [Tree.par, List.mem_append, List.mem_map, Option.mem_toList] at hcp
      rcases hcp with ((⟨c', g1, g2⟩ | ⟨c', g1, g2⟩) | g) | g
      · simp at g2
        obtain ⟨rfl, rfl⟩ := g2
        have := h9 a (by simp) c' g1
        exact ⟨this.2, this.1⟩
      · simp at g2
        obtain ⟨rfl, rfl⟩ := g2
        have := h9 b (by simp) c' g1
        exact ⟨this.2, this.1⟩
      · exact h8 a (by simp) c p g
      · exact h8 b (by simp) c p g
  · intro i hi
    obtain ⟨p, g1, g2, g3⟩ := h10 i hi
    exact ⟨p, g1, g2, by omega⟩
  · simp only [List.flatMap_append, List.flatMap_cons, List.flatMap_nil, List.append_nil, Tree.labels] at h12 ⊢
    rw [List.range_succ]
    have : (List.flatMap Tree.labels Q2 ++ t :: (a.labels ++ b.labels)).Perm
        ((List.flatMap Tree.labels Q2 ++ (a.labels ++ b.labels)) ++ [t]) :=
      List.perm_middle.trans (List.perm_append_singleton _ _).symm
    exact this.trans (h12.append_right _)
  · simp only [List.flatMap_append, List.flatMap_cons, List.flatMap_nil, List.append_nil, Tree.lws] at h13 ⊢
    exact h13

theorem mergeLoop_spec {W : Nat} {W0 : List Nat} {n : Nat} : ∀ (k t : Nat) (A : List Nat) (s r : Nat)
    (L : List Nat) (Q : List Tree), Bound W W0 n t A s r L Q → t + k + 1 = n →
    ∃ A' s' r' L' Q', mergeLoop W n k t A s r = some A' ∧ absRun W k t L Q = some (L', Q') ∧
      Bound W W0 n (t + k) A' s' r' L' Q' := by
  intro k
  induction k with
  | zero => intro t A s r L Q h _; exact ⟨A, s, r, L, Q, rfl, rfl, h⟩
  | succ k ih =>
    intro t A s r L Q h hn
    obtain ⟨a, L1, Q1, b, L2, Q2, A1, s1, r1, A2, s2, r2, e1, e2, e3, e4, e5⟩ := round h (by omega)
    obtain ⟨A', s', r', L', Q', f1, f2, f3⟩ := ih (t + 1) A2 s2 r2 L2 _ e5 (by omega)
    refine ⟨A', s', r', L', Q', ?_, ?_, ?_⟩
    · rw [mergeLoop, e3]
      simp only
      rw [e4]
      exact f1
    · rw [absRun, e1]
      simp only
      rw [e2]
      exact f2
    · rw [show t + (k + 1) = t + 1 + k by omega]
      exact f3

/-- The result of the first loop. -/
theorem mergeLoop_tree (W : Nat) (A : List Nat) (hn : 2 ≤ A.length) :
    ∃ A' T, mergeLoop W A.length (A.length - 1) 0 A 0 0 = some A' ∧
      absRun W (A.length - 1) 0 A [] = some ([], [T]) ∧ A'.length = A.length ∧
      T.root = some (A.length - 2) ∧ (∀ c p, (c, p) ∈ T.par → A'[c]? = some p) ∧
      (∀ i, i < A.length - 2 → ∃ p, A'[i]? = some p ∧ i < p ∧ p ≤ A.length - 2) ∧
      (∀ (i j p q : Nat), i < j → j < A.length - 2 → A'[i]? = some p → A'[j]? = some q → p ≤ q) ∧
      T.labels.Perm (List.range (A.length - 1)) ∧ T.lws.Perm A := by
  have h0 : Bound W A A.length 0 A 0 0 A [] :=
    ⟨rfl, by omega, by omega, rfl, rfl, rfl, by simp, by simp, by intro i hi; omega,
      by intro i j p q _ hj; omega, by simp, by simp⟩
  obtain ⟨A', s', r', L', Q', e1, e2, e3⟩ := mergeLoop_spec (A.length - 1) 0 A 0 0 A [] h0 (by omega)
  obtain ⟨h1, h2, h3, h4, h5, h6, h7, h8, h9, h10, h11, h12⟩ := e3
  simp only [Nat.zero_add] at h5 h6 h9 h11
  have hLl : L'.length = A.length - s' := by rw [← h4, List.length_drop, h1]
  have hQne : Q'.length = 1 ∧ L' = [] := by
    -- there are as many leaves as inner nodes plus queued trees
    have hcount : (Q'.flatMap Tree.lws).length = (Q'.flatMap Tree.labels).length + Q'.length := by
      clear h6 h7 h8 h11 h12 e2
      induction Q' with
      | nil => rfl
      | cons q Q' ih =>
        have := inner_length 0 q
        rw [labels_length] at this
        simp only [List.flatMap_cons, List.length_append, List.length_cons]
        omega
    have hl1 := h11.length_eq
    have hl2 := h12.length_eq
    rw [List.length_range] at hl1
    rw [List.length_append] at hl2
    have : Q'.length + L'.length = 1 := by omega
    have hQ : Q' ≠ [] := by
      rintro rfl
      simp at hl1
      omega
    have : 0 < Q'.length := List.length_pos_iff.mpr hQ
    exact ⟨by omega, List.eq_nil_of_length_eq_zero (by omega)⟩
  obtain ⟨hQ1, hL1⟩ := hQne
  obtain ⟨T, rfl⟩ := List.length_eq_one_iff.mp hQ1
  subst hL1
  have hr : r' = A.length - 2 := by simp at h6; omega
  subst hr
  refine ⟨A', T, e1, e2, h1, ?_, ?_, ?_, ?_, ?_, ?_⟩
  · exact (h7 0 T (by simp)).1
  · intro c p hcp
    exact (h8 T (by simp) c p hcp).1
  · intro i hi
    obtain ⟨p, g1, g2, g3⟩ := h9 i hi
    exact ⟨p, g1, g2, by omega⟩
  · exact h10
  · simpa using h11
  · simpa using h12

/-! ### The depth loop -/

theorem depthLoop_spec : ∀ (k : Nat) (A : List Nat), k ≤ A.length →
    (∀ i, i < k → ∃ p, A[i]? = some p ∧ i < p ∧ p < A.length) →
    ∃ B, depthLoop k A = some B ∧ B.length = A.length ∧ (∀ i, k ≤ i → B[i]? = A[i]?) ∧
      ∀ i p, i < k → A[i]? = some p → ∃ d, B[p]? = some d ∧ B[i]? = some (d + 1) := by
  intro k
  induction k with
  | zero => intro A _ _; exact ⟨A, rfl, rfl, fun _ _ => rfl, fun i p hi => by omega⟩
  | succ t ih =>
    intro A hk hp
    obtain ⟨p, e1, e2, e3⟩ := hp t (by omega)
    obtain ⟨d, hd⟩ : ∃ d, A[p]? = some d := ⟨A[p], List.getElem?_eq_getElem e3⟩
    have hget : ∀ j, (A.set t (d + 1))[j]? = if j = t then some (d + 1) else A[j]? := by
      intro j
      rw [getElem?_set' (by omega)]
    obtain ⟨B, f1, f2, f3, f4⟩ := ih (A.set t (d + 1)) (by simp; omega) (by
      intro i hi
      obtain ⟨p', g1, g2, g3⟩ := hp i (by omega)
      refine ⟨p', ?_, g2, by simpa using g3⟩
      rw [hget, if_neg (by omega)]
      exact g1)
    refine ⟨B, ?_, by simpa using f2, ?_, ?_⟩
    · rw [depthLoop, e1]
      simp only
      rw [hd]
      exact f1
    · intro i hi
      rw [f3 i (by omega), hget, if_neg (by omega)]
    · intro i p' hi hp'
      by_cases hit : i = t
      · subst hit
        rw [e1] at hp'
        simp at hp'
        subst hp'
        refine ⟨d, ?_, ?_⟩
        · rw [f3 p (by omega), hget, if_neg (by omega)]
          exact hd
        · rw [f3 i (Nat.le_refl _), hget, if_pos rfl]
      · apply f4 i p' (by omega)
        rw [hget, if_neg hit]
        exact hp'

theorem labels_depth (B : List Nat) (T : Tree) : ∀ (d : Nat),
    (∀ c p, (c, p) ∈ T.par → ∃ e, B[p]? = some e ∧ B[c]? = some (e + 1)) →
    (∀ t, T.root = some t → B[t]? = some d) →
    T.labels.map (fun i => B[i]?) = (T.inner d).map some := by
  induction T with
  | leaf w => intro d _ _; rfl
  | node t l r ihl ihr =>
    intro d hp hr
    have ht := hr t rfl
    have hchild : ∀ c : Tree, (∀ x, c.root = some x → (x, t) ∈ (Tree.node t l r).par) →
        ∀ x, c.root = some x → B[x]? = some (d + 1) := by
      intro c hc x hx
      obtain ⟨e, g1, g2⟩ := hp x t (hc x hx)
      rw [ht] at g1
      simp at g1
      subst g1
      exact g2
    simp only [Tree.labels, Tree.inner, List.map_cons, List.map_append]
    rw [ht, ihl (d + 1), ihr (d + 1)]
    · intro c p hcp
      exact hp c p (by simp [Tree.par, hcp])
    · apply hchild r
      intro x hx
      simp [Tree.par, hx]
    · intro c p hcp
      exact hp c p (by simp [Tree.par, hcp])
    · apply hchild l
      intro x hx
      simp [Tree.par, hx]

theorem map_get_range (B : List Nat) (k : Nat) (h : k ≤ B.length) :
    (List.range k).map (fun i => B[i]?) = (B.take k).map some := by
  apply List.ext_getElem?
  intro i
  by_cases hi : i < k
  · simp [List.getElem?_map, List.getElem?_range hi, List.getElem?_take_of_lt hi,
      List.getElem?_eq_getElem (show i < B.length by omega)]
  · rw [List.getElem?_eq_none (by simp; omega), List.getElem?_eq_none (by simp; omega)]

theorem perm_of_map_some {a b : List Nat} (h : (a.map some).Perm (b.map some)) : a.Perm b := by
  have := h.filterMap id
  simpa [List.filterMap_map, Function.comp_def] using this

/-! ### The level loop -/

theorem countLoop_spec (A : List Nat) (d : Nat) : ∀ (hi : List Nat) (u : Nat), A.take hi.length = hi →
    hi.Pairwise (· ≥ ·) → (∀ x ∈ hi, d ≤ x) →
    ∃ hi', countLoop A d hi.length u = some (hi'.length, u + hi.count d) ∧
      hi = hi' ++ List.replicate (hi.count d) d ∧ (∀ x ∈ hi', d < x) := by
  intro hi
  generalize hk : hi.length = k
  induction k generalizing hi with
  | zero =>
    intro u _ _ _
    have : hi = [] := List.eq_nil_of_length_eq_zero hk
    subst this
    exact ⟨[], rfl, rfl, by simp⟩
  | succ k ih =>
    intro u htake hs hge
    have hne : hi ≠ [] := by rintro rfl; simp at hk
    obtain ⟨hi0, v, rfl⟩ : ∃ hi0 v, hi = hi0 ++ [v] := ⟨_, _, (List.dropLast_concat_getLast hne).symm⟩
    have hk0 : hi0.length = k := by simpa using hk
    have hAv : A[k]? = some v := by
      have : (A.take (k + 1))[k]? = some v := by
        rw [htake, ← hk0]
        simp
      rwa [List.getElem?_take_of_lt (by omega)] at this
    have htake0 : A.take k = hi0 := by
      have := congrArg (List.take k) htake
      rw [List.take_take, show min k (k + 1) = k by omega, List.take_left' hk0] at this
      exact this
    rw [List.pairwise_append] at hs
    rw [countLoop, hAv]
    simp only
    by_cases hv : v = d
    · subst hv
      rw [if_pos rfl]
      obtain ⟨hi', e1, e2, e3⟩ := ih hi0 hk0 (u + 1) htake0 hs.1 (fun x hx => hge x (by simp [hx]))
      refine ⟨hi', ?_, ?_, e3⟩
      · rw [e1, List.count_append]
        simp
        omega
      · have hcnt : List.count v (hi0 ++ [v]) = List.count v hi0 + 1 := by
          rw [List.count_append]
          simp
        rw [hcnt, List.replicate_succ', ← List.append_assoc, ← e2]
    · rw [if_neg hv]
      have hvd : d < v := by
        have := hge v (by simp)
        omega
      have hall : ∀ x ∈ hi0 ++ [v], d < x := by
        intro x hx
        rcases List.mem_append.mp hx with hx | hx
        · have := hs.2.2 x hx v (by simp)
          omega
        · simp at hx
          omega
      have hc : List.count d (hi0 ++ [v]) = 0 := by
        rw [List.count_eq_zero]
        intro hc
        have := hall d hc
        omega
      refine ⟨hi0 ++ [v], ?_, ?_, hall⟩
      · rw [hc, hk]
        rfl
      · rw [hc]
        simp

theorem fillLoop_spec (d : Nat) : ∀ (k xs : Nat) (A : List Nat), k ≤ xs → xs ≤ A.length →
    ∃ A', fillLoop d k xs A = some (xs - k, A') ∧ A'.length = A.length ∧
      A'.take (xs - k) = A.take (xs - k) ∧ A'.drop (xs - k) = List.replicate k d ++ A.drop xs := by
  intro k
  induction k with
  | zero => intro xs A _ _; exact ⟨A, rfl, rfl, rfl, by simp⟩
  | succ k ih =>
    intro xs A hk hxs
    cases xs with
    | zero => omega
    | succ xs =>
      obtain ⟨A', e1, e2, e3, e4⟩ := ih xs (A.set xs d) (by omega) (by simp; omega)
      refine ⟨A', ?_, by simpa using e2, ?_, ?_⟩
      · rw [fillLoop, if_pos (by omega), e1, show xs + 1 - (k + 1) = xs - k by omega]
      · rw [show xs + 1 - (k + 1) = xs - k by omega, e3, List.take_set_of_le (by omega)]
      · rw [show xs + 1 - (k + 1) = xs - k by omega, e4, List.replicate_succ', List.append_assoc]
        congr 1
        rw [List.drop_eq_getElem_cons (by simp; omega), drop_set_lt (by omega)]
        simp

/-- The numbers `leaf` and `inner` of nodes at each depth of a tree. -/
structure Levels (n : Nat) (leafs inner : List Nat) : Prop where
  lvl : ∀ k, leafs.count k + inner.count k =
    (if k = 0 then 1 else 0) + if k = 0 then 0 else 2 * inner.count (k - 1)
  ln : leafs.length = n
  inn : inner.length + 1 = n

theorem Levels.zero {n : Nat} {leafs inner : List Nat} (h : Levels n leafs inner) {d : Nat}
    (hd : leafs.count d + inner.count d = 0) : ∀ k, leafs.count (d + k) = 0 ∧ inner.count (d + k) = 0 := by
  intro k
  induction k with
  | zero => rw [Nat.add_zero]; omega
  | succ k ih =>
    have := h.lvl (d + (k + 1))
    rw [if_neg (by omega), if_neg (by omega), show d + (k + 1) - 1 = d + k by omega] at this
    omega

theorem levelLoop_spec {n : Nat} {leafs inner : List Nat} (h : Levels n leafs inner) :
    ∀ (fuel a xs d : Nat) (hi A O : List Nat),
      A.length = n → A.take hi.length = hi → hi.Pairwise (· ≥ ·) → (∀ x ∈ hi, d ≤ x) →
      (∀ k, d ≤ k → hi.count k = inner.count k) →
      a = leafs.count d + inner.count d → n - xs + a = n - hi.length → hi.length ≤ xs → xs ≤ n →
      hi.length ≤ n →
      A.drop xs = O → O.Pairwise (· ≥ ·) → (∀ k, O.count k = if k < d then leafs.count k else 0) →
      (if a = 0 then 1 else hi.length + 2) ≤ fuel →
      ∃ out, levelLoop fuel a hi.length xs d A = some out ∧ out.Pairwise (· ≥ ·) ∧ out.Perm leafs := by
  intro fuel
  induction fuel with
  | zero =>
    intro a xs d hi A O _ _ _ _ _ _ _ _ _ _ _ _ _ hf
    split at hf <;> omega
  | succ fuel ih =>
    intro a xs d hi A O hlen htake hs hge hcnt ha hbal hts hxs hhn hdrop hO hOc hf
    rw [levelLoop]
    by_cases ha0 : a = 0
    · rw [if_pos ha0]
      have hz := h.zero (d := d) (by omega)
      have hhi : hi = [] := by
        cases hi with
        | nil => rfl
        | cons x hi =>
          exfalso
          have hx := hge x (by simp)
          have h1 := hcnt x hx
          have h2 := (hz (x - d)).2
          rw [show d + (x - d) = x by omega] at h2
          rw [h2, List.count_cons_self] at h1
          omega
      subst hhi
      have hxs0 : xs = 0 := by simp at hbal; omega
      subst hxs0
      rw [List.drop_zero] at hdrop
      subst hdrop
      refine ⟨A, rfl, hO, ?_⟩
      rw [List.perm_iff_count]
      intro k
      rw [hOc k]
      split
      · rfl
      · have := (hz (k - d)).1
        rw [show d + (k - d) = k by omega] at this
        omega
    · rw [if_neg ha0]
      rw [if_neg ha0] at hf
      obtain ⟨hi', e1, e2, e3⟩ := countLoop_spec A d hi 0 htake hs hge
      rw [e1]
      simp only [Nat.zero_add]
      have hu : hi.count d = inner.count d := hcnt d (Nat.le_refl _)
      generalize hcu : hi.count d = u at *
      have hl : hi.length = hi'.length + u := by
        have := congrArg List.length e2
        simpa using this
      obtain ⟨A', f1, f2, f3, f4⟩ := fillLoop_spec d (a - u) xs A (by omega) (by omega)
      rw [f1]
      simp only
      have hlvl := h.lvl (d + 1)
      rw [if_neg (by omega), if_neg (by omega), show d + 1 - 1 = d by omega] at hlvl
      have hau : a - u = leafs.count d := by omega
      apply ih (2 * u) (xs - (a - u)) (d + 1) hi' A' _ (by omega) ?_ ?_ ?_ ?_ (by omega) (by omega) (by omega)
        (by omega) (by omega) f4 ?_ ?_ ?_
      · have h1 : A'.take hi'.length = (A'.take (xs - (a - u))).take hi'.length := by
          rw [List.take_take, show min hi'.length (xs - (a - u)) = hi'.length by omega]
        rw [h1, f3, List.take_take, show min hi'.length (xs - (a - u)) = hi'.length by omega]
        have h2 := congrArg (List.take hi'.length) htake
        rw [List.take_take, show min hi'.length hi.length = hi'.length by omega] at h2
        rw [h2, e2]
        simp
      · rw [e2, List.pairwise_append] at hs
        exact hs.1
      · intro x hx
        have := e3 x hx
        omega
      · intro k hk
        rw [← hcnt k (by omega), e2, List.count_append, List.count_replicate]
        have : (d == k) = false := by simp; omega
        simp [this]
      · rw [hdrop, List.pairwise_append]
        refine ⟨List.pairwise_replicate.mpr (Or.inr (Nat.le_refl _)), hO, ?_⟩
        intro x hx y hy
        rw [List.mem_replicate] at hx
        have h1 : 0 < O.count y := List.count_pos_iff.mpr hy
        rw [hOc y] at h1
        split at h1
        · omega
        · omega
      · intro k
        rw [hdrop, List.count_append, List.count_replicate, hOc k]
        by_cases hkd : k = d
        · subst hkd
          simp [hau]
        · have : (d == k) = false := by simp; omega
          simp only [this, Bool.false_eq_true, if_false]
          split <;> split <;> omega
      · split <;> omega

/-! ### Putting the loops together -/

theorem lengths_spec (W : Nat) (A : List Nat) (hn : 2 ≤ A.length) :
    ∃ out T, lengths W A = some out ∧ absRun W (A.length - 1) 0 A [] = some ([], [T]) ∧
      out.Pairwise (· ≥ ·) ∧ out.Perm ((T.leaves 0).map (·.2)) ∧ T.lws.Perm A := by
  obtain ⟨A1, T, e1, e2, e3, e4, e5, e6, e7, e8, e9⟩ := mergeLoop_tree W A hn
  generalize hN : A.length = n at *
  have hget : ∀ j, (A1.set (n - 2) 0)[j]? = if j = n - 2 then some 0 else A1[j]? := by
    intro j
    rw [getElem?_set' (by omega)]
  obtain ⟨B, f1, f2, f3, f4⟩ := depthLoop_spec (n - 2) (A1.set (n - 2) 0) (by simp; omega) (by
    intro i hi
    obtain ⟨p, g1, g2, g3⟩ := e6 i hi
    refine ⟨p, ?_, g2, by simp; omega⟩
    rw [hget, if_neg (by omega)]
    exact g1)
  rw [List.length_set] at f2
  have hB0 : B[n - 2]? = some 0 := by rw [f3 _ (Nat.le_refl _), hget, if_pos rfl]
  have hBp : ∀ i p, i < n - 2 → A1[i]? = some p → ∃ d, B[p]? = some d ∧ B[i]? = some (d + 1) := by
    intro i p hi hp
    apply f4 i p hi
    rw [hget, if_neg (by omega)]
    exact hp
  -- labels of non-root inner nodes are smaller than `n - 2`
  have hlab : T.labels.map (fun i => B[i]?) = (T.inner 0).map some := by
    apply labels_depth B T 0
    · intro c p hcp
      have h1 := e5 c p hcp
      have hc : c < n - 2 := by
        -- `c` has a parent above it which is at most `n - 2`
        have hcl : c ∈ T.labels.tail ∧ T.labels.Nodup := by
          refine ⟨?_, e8.nodup_iff.mpr List.nodup_range⟩
          have key : ∀ (T : Tree) c p, (c, p) ∈ T.par → c ∈ T.labels.tail := by
            intro T
            induction T with
            | leaf w => intro c p h; simp [Tree.par] at h
            | node t l r ihl ihr =>
              intro c p h
              have hroot : ∀ (S : Tree) x, S.root = some x → x ∈ S.labels := by
                intro S x hx
                cases S with
                | leaf w => simp [Tree.root] at hx
                | node t l r => simp [Tree.root] at hx; subst hx; simp [Tree.labels]
              simp only [Tree.par, List.mem_append, List.mem_map, Option.mem_toList] at h
              simp only [Tree.labels, List.tail_cons, List.mem_append]
              rcases h with ((⟨c', g1, g2⟩ | ⟨c', g1, g2⟩) | g) | g
              · simp at g2
                exact Or.inl (hroot l c (by rw [← g2.1]; exact g1))
              · simp at g2
                exact Or.inr (hroot r c (by rw [← g2.1]; exact g1))
              · exact Or.inl (List.mem_of_mem_tail (ihl c p g))
              · exact Or.inr (List.mem_of_mem_tail (ihr c p g))
          exact key T c p hcp
        obtain ⟨hc1, hc2⟩ := hcl
        have hcr : c < n - 1 := List.mem_range.mp (e8.mem_iff.mp (List.mem_of_mem_tail hc1))
        have hne : c ≠ n - 2 := by
          rintro rfl
          cases T with
          | leaf w => simp [Tree.root] at e4
          | node t l r =>
            simp [Tree.root] at e4
            subst e4
            simp only [Tree.labels, List.tail_cons] at hc1 hc2
            rw [List.nodup_cons] at hc2
            exact hc2.1 hc1
        omega
      exact hBp c p hc h1
    · intro t ht
      rw [e4] at ht
      simp at ht
      subst ht
      exact hB0
  have hinner : (B.take (n - 1)).Perm (T.inner 0) := by
    apply perm_of_map_some
    rw [← map_get_range B (n - 1) (by omega), ← hlab]
    exact (e8.map _).symm
  have hmono : ∀ (k i j : Nat) (x y : Nat), n - 2 - i = k → i ≤ j → j ≤ n - 2 → B[i]? = some x →
      B[j]? = some y → y ≤ x := by
    intro k
    induction k using Nat.strongRecOn with
    | _ k ih =>
      intro i j x y hk hij hj hx hy
      by_cases he : i = j
      · subst he
        rw [hx] at hy
        simp at hy
        omega
      · by_cases hje : j = n - 2
        · subst hje
          rw [hB0] at hy
          simp at hy
          omega
        · obtain ⟨p, g1, g2, g3⟩ := e6 i (by omega)
          obtain ⟨q, k1, k2, k3⟩ := e6 j (by omega)
          obtain ⟨d, l1, l2⟩ := hBp i p (by omega) g1
          obtain ⟨d', m1, m2⟩ := hBp j q (by omega) k1
          have := ih (n - 2 - p) (by omega) p q d d' rfl (e7 i j p q (by omega) (by omega) g1 k1) k3 l1 m1
          rw [hx] at l2
          rw [hy] at m2
          simp at l2 m2
          omega
  have hsorted : (B.take (n - 1)).Pairwise (· ≥ ·) := by
    rw [List.pairwise_iff_getElem]
    intro i j hi hj hij
    simp only [List.length_take] at hi hj
    have hx : B[i]? = some B[i] := List.getElem?_eq_getElem (by omega)
    have hy : B[j]? = some B[j] := List.getElem?_eq_getElem (by omega)
    have := hmono _ i j _ _ rfl (by omega) (by omega) hx hy
    simpa using this
  have hleaf : ((T.leaves 0).map (·.2)).length = n := by
    have := congrArg List.length (leaves_fst 0 T)
    rw [List.length_map] at this ⊢
    rw [this, e9.length_eq, hN]
  have hlv : Levels n ((T.leaves 0).map (·.2)) (T.inner 0) := by
    refine ⟨fun k => ?_, hleaf, ?_⟩
    · exact level_count 0 T k
    · rw [inner_length, e9.length_eq, hN]
  have htl : (B.take (n - 1)).length = n - 1 := by simp; omega
  obtain ⟨out, g1, g2, g3⟩ := levelLoop_spec hlv (n + 1) 1 n 0 (B.take (n - 1)) B [] (by omega)
    (by rw [htl]) hsorted (by intro x _; omega) (fun k _ => hinner.count_eq k)
    (by have := hlv.lvl 0; simpa using this.symm) (by rw [htl]; omega) (by omega) (by omega) (by omega)
    (by rw [List.drop_eq_nil_of_le (by omega)]) (by simp) (by simp) (by rw [htl, if_neg (by omega)]; omega)
  refine ⟨out, T, ?_, e2, g2, g3, e9⟩
  unfold lengths
  rw [hN, e1]
  simp only
  rw [show A1.length = n by omega, f1]
  simp only
  rw [show B.length = n by omega, htl.symm.trans rfl]
  rw [htl] at g1 ⊢
  exact g1

/-! ### The queues always deliver two lightest trees -/

/-- Queue state of a run with sorted weights whose sum stays below `W`. -/
structure Sorted (W : Nat) (L : List Nat) (Q : List Tree) : Prop where
  ls : L.Pairwise (· ≤ ·)
  qs : Q.Pairwise (fun a b => a.wt ≤ b.wt)
  small : ∀ q ∈ Q, q.wt < W
  dbl : ∀ q ∈ Q, (∀ x ∈ Q, q.wt ≤ 2 * x.wt) ∧ (∀ l ∈ L, q.wt ≤ 2 * l)

theorem val_eq {W : Nat} {q : Tree} (h : q.wt < W) : val W q = q.wt := by
  cases q with
  | leaf w => rfl
  | node t l r => rw [val, Tree.wt]; exact Nat.mod_eq_of_lt h

theorem take_min {W : Nat} {L : List Nat} {Q : List Tree} (hL : L.Pairwise (· ≤ ·))
    (hQ : Q.Pairwise (fun a b => a.wt ≤ b.wt)) (hsm : ∀ q ∈ Q, q.wt < W) {a : Tree} {L' : List Nat}
    {Q' : List Tree} (h : take W L Q = some (a, L', Q')) :
    (L.map Tree.leaf ++ Q).Perm (a :: (L'.map Tree.leaf ++ Q')) ∧
      (∀ l ∈ L', a.wt ≤ l) ∧ (∀ q ∈ Q', a.wt ≤ q.wt) ∧ L'.Pairwise (· ≤ ·) ∧
      Q'.Pairwise (fun a b => a.wt ≤ b.wt) ∧ (∀ l ∈ L', l ∈ L) ∧ (∀ q ∈ Q', q ∈ Q) := by
  match L, Q with
  | [], [] => simp [take] at h
  | [], q :: Q =>
    simp only [take, Option.some.injEq, Prod.mk.injEq] at h
    obtain ⟨rfl, rfl, rfl⟩ := h
    rw [List.pairwise_cons] at hQ
    exact ⟨by simp, by simp, hQ.1, by simp, hQ.2, by simp, fun q hq => by simp [hq]⟩
  | l :: L, [] =>
    simp only [take, Option.some.injEq, Prod.mk.injEq] at h
    obtain ⟨rfl, rfl, rfl⟩ := h
    rw [List.pairwise_cons] at hL
    exact ⟨by simp, hL.1, by simp, hL.2, by simp, fun q hq => by simp [hq], by simp⟩
  | l :: L, q :: Q =>
    rw [take] at h
    rw [List.pairwise_cons] at hL hQ
    rw [val_eq (hsm q (by simp))] at h
    split at h
    · rename_i hlt
      simp only [Option.some.injEq, Prod.mk.injEq] at h
      obtain ⟨rfl, rfl, rfl⟩ := h
      refine ⟨List.perm_middle, ?_, hQ.1, ?_, hQ.2, by simp, fun q hq => by simp [hq]⟩
      · intro x hx
        rcases List.mem_cons.mp hx with rfl | hx
        · omega
        · have := hL.1 x hx
          omega
      · rw [List.pairwise_cons]
        exact hL
    · rename_i hge
      simp only [Option.some.injEq, Prod.mk.injEq] at h
      obtain ⟨rfl, rfl, rfl⟩ := h
      refine ⟨by simp, hL.1, ?_, hL.2, ?_, fun q hq => by simp [hq], by simp⟩
      · intro x hx
        rw [Tree.wt]
        rcases List.mem_cons.mp hx with rfl | hx
        · omega
        · have := hQ.1 x hx
          omega
      · rw [List.pairwise_cons]
        exact hQ

theorem absRun_greedy {W : Nat} : ∀ (k t : Nat) (L : List Nat) (Q : List Tree) (T : Tree), Sorted W L Q →
    L.sum + (Q.map Tree.wt).sum < W → absRun W k t L Q = some ([], [T]) →
    Greedy (L.map Tree.leaf ++ Q) T := by
  intro k
  induction k with
  | zero =>
    intro t L Q T _ _ h
    simp only [absRun, Option.some.injEq, Prod.mk.injEq] at h
    obtain ⟨rfl, rfl⟩ := h
    exact Greedy.done T
  | succ k ih =>
    intro t L Q T hs hsum h
    rw [absRun] at h
    cases h1 : take W L Q with
    | none => rw [h1] at h; simp at h
    | some p =>
      obtain ⟨a, L1, Q1⟩ := p
      rw [h1] at h
      simp only at h
      cases h2 : take W L1 Q1 with
      | none => rw [h2] at h; simp at h
      | some p2 =>
        obtain ⟨b, L2, Q2⟩ := p2
        rw [h2] at h
        simp only at h
        obtain ⟨m1, m2, m3, m4, m5, m6, m7⟩ := take_min hs.ls hs.qs hs.small h1
        obtain ⟨n1, n2, n3, n4, n5, n6, n7⟩ := take_min m4 m5 (fun q hq => hs.small q (m7 q hq)) h2
        have hp : (L.map Tree.leaf ++ Q).Perm (a :: b :: (L2.map Tree.leaf ++ Q2)) := m1.trans (n1.cons a)
        have hpool : ∀ x ∈ L.map Tree.leaf ++ Q, ∀ q ∈ Q, q.wt ≤ 2 * x.wt := by
          intro x hx q hq
          rcases List.mem_append.mp hx with hx | hx
          · obtain ⟨l, hl, rfl⟩ := List.mem_map.mp hx
            exact (hs.dbl q hq).2 l hl
          · exact (hs.dbl q hq).1 x hx
        have hwsum : L.sum + (Q.map Tree.wt).sum = a.wt + b.wt + (L2.sum + (Q2.map Tree.wt).sum) := by
          have h3 := (hp.map Tree.wt).sum_nat
          have h4 : ∀ (M : List Nat), (M.map Tree.leaf).map Tree.wt = M := by
            intro M
            rw [List.map_map]
            simp [Function.comp_def, Tree.wt]
          simp only [List.map_append, h4, List.map_cons, List.sum_cons, List.sum_append] at h3
          omega
        have hab : a.wt ≤ b.wt := by
          have : b ∈ L1.map Tree.leaf ++ Q1 := n1.mem_iff.mpr (by simp)
          rcases List.mem_append.mp this with hb | hb
          · obtain ⟨l, hl, rfl⟩ := List.mem_map.mp hb
            exact m2 l hl
          · exact m3 b hb
        have hbR : ∀ x ∈ L2.map Tree.leaf ++ Q2, b.wt ≤ x.wt := by
          intro x hx
          rcases List.mem_append.mp hx with hx | hx
          · obtain ⟨l, hl, rfl⟩ := List.mem_map.mp hx
            exact n2 l hl
          · exact n3 x hx
        have hqa : ∀ q ∈ Q2, q.wt ≤ a.wt + b.wt := by
          intro q hq
          have := hpool a (hp.mem_iff.mpr (by simp)) q (m7 q (n7 q hq))
          omega
        have hs2 : Sorted W L2 (Q2 ++ [Tree.node t a b]) := by
          refine ⟨n4, ?_, ?_, ?_⟩
          · rw [List.pairwise_append]
            refine ⟨n5, by simp, ?_⟩
            intro x hx y hy
            simp at hy
            subst hy
            exact hqa x hx
          · intro q hq
            rcases List.mem_append.mp hq with hq | hq
            · exact hs.small q (m7 q (n7 q hq))
            · simp at hq
              subst hq
              rw [Tree.wt]
              omega
          · intro q hq
            rcases List.mem_append.mp hq with hq | hq
            · have hqQ := m7 q (n7 q hq)
              refine ⟨?_, ?_⟩
              · intro x hx
                rcases List.mem_append.mp hx with hx | hx
                · exact (hs.dbl q hqQ).1 x (m7 x (n7 x hx))
                · simp at hx
                  subst hx
                  have := hqa q hq
                  rw [Tree.wt]
                  omega
              · intro l hl
                exact (hs.dbl q hqQ).2 l (m6 l (n6 l hl))
            · simp at hq
              subst hq
              refine ⟨?_, ?_⟩
              · intro x hx
                rcases List.mem_append.mp hx with hx | hx
                · have := n3 x hx
                  rw [Tree.wt]
                  omega
                · simp at hx
                  subst hx
                  omega
              · intro l hl
                have := n2 l hl
                rw [Tree.wt]
                omega
        have hg := ih (t + 1) L2 (Q2 ++ [Tree.node t a b]) T hs2 (by
          rw [List.map_append, List.sum_append]
          simp only [List.map_cons, List.map_nil, List.sum_cons, List.sum_nil, Tree.wt]
          omega) h
        rw [← List.append_assoc] at hg
        exact Greedy.step _ _ t a b T hp hab hbR hg

theorem lengths_greedy (W : Nat) (A : List Nat) (hn : 2 ≤ A.length) (hs : A.Pairwise (· ≤ ·))
    (hsum : A.sum < W) :
    ∃ out T, lengths W A = some out ∧ Greedy (A.map Tree.leaf) T ∧
      out.Pairwise (· ≥ ·) ∧ out.Perm ((T.leaves 0).map (·.2)) ∧ T.lws.Perm A := by
  obtain ⟨out, T, h1, h2, h3, h4, h5⟩ := lengths_spec W A hn
  refine ⟨out, T, h1, ?_, h3, h4, h5⟩
  have := absRun_greedy (A.length - 1) 0 A [] T ⟨hs, by simp, by simp, by simp⟩ (by simpa using hsum) h2
  simpa using this

end Bwtc.Huff
