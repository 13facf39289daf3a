import Verif.HuffLengths

/-!
# Facts about the computed Huffman lengths

Consequences of the refinement in `HuffLengths` for `calculateHuffmanLengths`.  No code is
modelled here.
-/

set_option autoImplicit false

namespace Bwtc.Huff

theorem pairLe_trans (a b c : Nat × Nat) : pairLe a b → pairLe b c → pairLe a c := by
  simp only [pairLe, decide_eq_true_eq]
  omega

theorem pairLe_total (a b : Nat × Nat) : pairLe a b || pairLe b a := by
  simp only [pairLe, Bool.or_eq_true, decide_eq_true_eq]
  omega

theorem insertPair_perm (p : Nat × Nat) (l : List (Nat × Nat)) : (insertPair p l).Perm (p :: l) := by
  induction l with
  | nil => exact List.Perm.refl _
  | cons q l ih =>
    rw [insertPair]
    split
    · exact List.Perm.refl _
    · exact (ih.cons q).trans (List.Perm.swap _ _ _)

theorem sortPairs_perm (l : List (Nat × Nat)) : (sortPairs l).Perm l := by
  induction l with
  | nil => exact List.Perm.refl _
  | cons p l ih => exact (insertPair_perm p _).trans (ih.cons p)

theorem insertPair_sorted (p : Nat × Nat) (l : List (Nat × Nat)) (h : l.Pairwise (fun a b => pairLe a b)) :
    (insertPair p l).Pairwise (fun a b => pairLe a b) := by
  induction l with
  | nil => simp [insertPair]
  | cons q l ih =>
    have h' := List.pairwise_cons.mp h
    rw [insertPair]
    split
    · rename_i hpq
      rw [List.pairwise_cons]
      refine ⟨?_, h⟩
      intro x hx
      rcases List.mem_cons.mp hx with rfl | hx
      · exact hpq
      · exact pairLe_trans _ _ _ hpq (h'.1 x hx)
    · rename_i hpq
      rw [List.pairwise_cons]
      refine ⟨?_, ih h'.2⟩
      intro x hx
      rcases List.mem_cons.mp ((insertPair_perm p l).mem_iff.mp hx) with rfl | hx
      · have := pairLe_total q x
        simpa [hpq] using this
      · exact h'.1 x hx

theorem sortPairs_sorted (l : List (Nat × Nat)) : (sortPairs l).Pairwise (fun a b => pairLe a b) := by
  induction l with
  | nil => simp [sortPairs]
  | cons p l ih => exact insertPair_sorted p _ ih

theorem sorted_fst (ps : List (Nat × Nat)) : ((sortPairs ps).map (·.1)).Pairwise (· ≤ ·) := by
  rw [List.pairwise_map]
  refine (sortPairs_sorted ps).imp ?_
  intro a b h
  simp only [pairLe, decide_eq_true_eq] at h
  omega

/-- Everything known about the result for at least two pairs. -/
theorem code_spec (ps : List (Nat × Nat)) (hn : 2 ≤ ps.length) :
    ∃ (ls : List Nat) (T : Tree), calculateCodeLengths ps = some (ls.zip ((sortPairs ps).map (·.2))) ∧
      ls.length = ps.length ∧ ls.Pairwise (· ≥ ·) ∧ ls.Perm ((T.leaves 0).map (·.2)) ∧
      T.lws.Perm ((sortPairs ps).map (·.1)) ∧
      ((ps.map (·.1)).sum < W64 → Greedy (((sortPairs ps).map (·.1)).map Tree.leaf) T) := by
  have hlen : (sortPairs ps).length = ps.length := (sortPairs_perm ps).length_eq
  generalize hS : sortPairs ps = S at *
  have hsorted : (S.map (·.1)).Pairwise (· ≤ ·) := by rw [← hS]; exact sorted_fst ps
  obtain ⟨out, T, h1, h2, h3, h4, h5⟩ := lengths_spec W64 (S.map (·.1)) (by simp; omega)
  refine ⟨out, T, ?_, ?_, h3, h4, h5, ?_⟩
  · match ps, hn with
    | a :: b :: rest, _ =>
      rw [calculateCodeLengths]
      simp only [hS, h1]
  · rw [h4.length_eq]
    have := congrArg List.length (leaves_fst 0 T)
    rw [List.length_map] at this ⊢
    rw [this, h5.length_eq, List.length_map, hlen]
  · intro hsum
    have hperm : (S.map (·.1)).Perm (ps.map (·.1)) := by
      rw [← hS]
      exact (sortPairs_perm ps).map _
    have hsum' : (S.map (·.1)).sum < W64 := by rw [hperm.sum_nat]; exact hsum
    have := absRun_greedy _ 0 (S.map (·.1)) [] T ⟨hsorted, by simp, by simp, by simp⟩ (by simpa using hsum') h2
    simpa using this

theorem zip_map_snd {α β : Type} : ∀ (a : List α) (b : List β), a.length = b.length → (a.zip b).map (·.2) = b
  | [], [], _ => rfl
  | [], _ :: _, h => by simp at h
  | _ :: _, [], h => by simp at h
  | x :: a, y :: b, h => by
    rw [List.zip_cons_cons, List.map_cons, zip_map_snd a b (by simpa using h)]

theorem zip_map_fst {α β : Type} : ∀ (a : List α) (b : List β), a.length = b.length → (a.zip b).map (·.1) = a
  | [], [], _ => rfl
  | [], _ :: _, h => by simp at h
  | _ :: _, [], h => by simp at h
  | x :: a, y :: b, h => by
    rw [List.zip_cons_cons, List.map_cons, zip_map_fst a b (by simpa using h)]

theorem tree_lengths {T : Tree} (h : 2 ≤ T.lws.length) :
    (∀ l ∈ (T.leaves 0).map (·.2), 1 ≤ l ∧ l ≤ T.height) ∧
      ∀ m, T.height ≤ m → kraft m ((T.leaves 0).map (·.2)) = 2 ^ m := by
  refine ⟨?_, fun m hm => kraft_tree 0 m T (by omega)⟩
  intro l hl
  obtain ⟨p, hp, rfl⟩ := List.mem_map.mp hl
  have h1 := leaves_depth_le 0 T p hp
  refine ⟨?_, by omega⟩
  cases T with
  | leaf w => simp [Tree.lws] at h
  | node t a b =>
    rw [Tree.leaves, List.mem_append] at hp
    rcases hp with hp | hp
    · exact (leaves_depth_le 1 a p hp).1
    · exact (leaves_depth_le 1 b p hp).1

theorem greedy_height {ws : List Nat} {T : Tree} (h : Greedy (ws.map Tree.leaf) T) (hpos : ∀ w ∈ ws, 1 ≤ w) :
    fib T.height ≤ ws.sum := by
  have hb : T.Bal := by
    apply greedy_bal h
    · intro x hx
      obtain ⟨w, hw, rfl⟩ := List.mem_map.mp hx
      exact hpos w hw
    · intro x hx y _ k hk
      obtain ⟨w, hw, rfl⟩ := List.mem_map.mp hx
      simp [Tree.kids] at hk
  have h1 := fib_le_wt T.height T (Nat.le_refl _) hb
  rw [greedy_wt h] at h1
  have h4 : (ws.map Tree.leaf).map Tree.wt = ws := by
    rw [List.map_map]
    simp [Function.comp_def, Tree.wt]
  rw [h4] at h1
  exact h1

theorem fib_45 : fib 45 = 2971215073 := by decide +kernel

theorem height_le_44 {T : Tree} {w : Nat} (h : fib T.height ≤ w) (hw : w < 2 ^ 31) : T.height ≤ 44 := by
  apply Classical.byContradiction
  intro hc
  have := fib_mono (show 45 ≤ T.height by omega)
  rw [fib_45] at this
  omega

/-- The lengths cost at most as much as any others satisfying Kraft's inequality. -/
theorem lengths_optimal {ws out : List Nat} {T : Tree} (hs : ws.Pairwise (· ≤ ·))
    (hg : Greedy (ws.map Tree.leaf) T) (hd : out.Pairwise (· ≥ ·))
    (hp : out.Perm ((T.leaves 0).map (·.2))) (hl : T.lws.Perm ws) (ls : List Nat) (m : Nat)
    (hlen : ws.length = ls.length) (hm : ∀ l ∈ ls, l ≤ m) (hk : kraft m ls ≤ 2 ^ m) :
    dot ws out ≤ dot ws ls := by
  have h1 := greedy_optimal hg ls m (by simpa using hlen) hm hk
  have hwt : (ws.map Tree.leaf).map (·.wt) = ws := by
    rw [List.map_map]
    simp [Function.comp_def, Tree.wt]
  have hc0 : ((ws.map Tree.leaf).map Tree.cost).sum = 0 := by
    rw [List.map_map]
    clear hs hg hl hlen h1 hwt
    induction ws with
    | nil => rfl
    | cons w ws ih => simp [Tree.cost] at ih ⊢; exact ih
  rw [hc0, Nat.add_zero, ← dot_zip' (ws.map Tree.leaf) ls (by simpa using hlen), hwt] at h1
  refine Nat.le_trans ?_ h1
  have hcost : wsum (T.leaves 0) = T.cost := by
    have := wsum_leaves 0 T
    rw [this]
    omega
  rw [← hcost]
  have hfst := leaves_fst 0 T
  have hzip : (T.leaves 0) = (T.lws).zip ((T.leaves 0).map (·.2)) := by
    rw [← hfst]
    have : ∀ l : List (Nat × Nat), l = (l.map (·.1)).zip (l.map (·.2)) := by
      intro l
      induction l with
      | nil => rfl
      | cons p l ih =>
        rw [List.map_cons, List.map_cons, List.zip_cons_cons, ← ih]
    exact this _
  have hll : T.lws.length = ((T.leaves 0).map (·.2)).length := by
    rw [← hfst]
    simp
  obtain ⟨ls', q1, q2, q3⟩ := exists_zip_perm hl ((T.leaves 0).map (·.2)) hll
  have hw2 : wsum (T.leaves 0) = dot ws ls' := by
    rw [hzip]
    have e1 : wsum (T.lws.zip ((T.leaves 0).map (·.2))) = wsum (ws.zip ls') := (q2.map _).sum_nat
    rw [e1]
    have e2 : ∀ (a b : List Nat), a.length = b.length → wsum (a.zip b) = dot a b := by
      intro a
      induction a with
      | nil => intro b _; rfl
      | cons x a ih =>
        intro b hb
        cases b with
        | nil => simp at hb
        | cons y b =>
          have := ih b (by simpa using hb)
          simp only [wsum, List.zip_cons_cons, List.map_cons, List.sum_cons, dot] at this ⊢
          omega
    exact e2 _ _ q3
  rw [hw2]
  exact dot_sorted_le ws ls' out q3 hs (hp.trans q1.symm) hd

/-! ### Kraft's inequality for prefix-free words -/

/-- No word is a prefix of another one. -/
def PrefixFree (ws : List (List Bool)) : Prop := ws.Pairwise fun a b => ¬ a <+: b ∧ ¬ b <+: a

theorem prefixFree_tails {ws : List (List Bool)} (h : PrefixFree ws) (b : Bool) :
    PrefixFree ((ws.filter fun w => w.head? = some b).map List.tail) := by
  unfold PrefixFree
  rw [List.pairwise_map]
  refine List.Pairwise.imp_of_mem ?_ (h.filter _)
  intro x y hx hy hxy
  simp only [List.mem_filter, decide_eq_true_eq] at hx hy
  cases x with
  | nil => simp at hx
  | cons x0 x =>
    cases y with
    | nil => simp at hy
    | cons y0 y =>
      simp only [List.head?_cons, Option.some.injEq] at hx hy
      rw [hx.2, hy.2] at hxy
      simpa [List.cons_prefix_cons] using hxy

theorem kraft_split (m : Nat) : ∀ ws : List (List Bool), [] ∉ ws → (∀ w ∈ ws, w.length ≤ m + 1) →
    kraft (m + 1) (ws.map List.length) =
      kraft m (((ws.filter fun w => w.head? = some false).map List.tail).map List.length) +
      kraft m (((ws.filter fun w => w.head? = some true).map List.tail).map List.length) := by
  intro ws
  induction ws with
  | nil => intro _ _; simp [kraft]
  | cons w ws ih2 =>
    intro hn hl
    have e := ih2 (fun hc => hn (by simp [hc])) (fun x hx => hl x (by simp [hx]))
    cases w with
    | nil => simp at hn
    | cons b w =>
      have hwl := hl (b :: w) (by simp)
      simp only [List.length_cons] at hwl
      rw [List.map_cons, kraft_cons, e]
      cases b
      · simp only [List.filter_cons, List.head?_cons, decide_true, if_true, Option.some.injEq,
          List.map_cons, List.tail_cons, kraft_cons, List.length_cons]
        simp
        omega
      · simp only [List.filter_cons, List.head?_cons, decide_true, if_true, Option.some.injEq,
          List.map_cons, List.tail_cons, kraft_cons, List.length_cons]
        simp
        omega

theorem kraft_inequality : ∀ (m : Nat) (ws : List (List Bool)), PrefixFree ws → (∀ w ∈ ws, w.length ≤ m) →
    kraft m (ws.map List.length) ≤ 2 ^ m := by
  intro m
  have single : ∀ (m : Nat) (ws : List (List Bool)), PrefixFree ws → [] ∈ ws →
      kraft m (ws.map List.length) ≤ 2 ^ m := by
    intro m ws h hmem
    have : ws = [[]] := by
      cases ws with
      | nil => simp at hmem
      | cons a ws =>
        unfold PrefixFree at h
        rw [List.pairwise_cons] at h
        rcases List.mem_cons.mp hmem with h0 | h0
        · cases ws with
          | nil => rw [h0]
          | cons b ws =>
            have := (h.1 b (by simp)).1
            rw [← h0] at this
            exact absurd (List.nil_prefix) this
        · have := (h.1 [] h0).2
          exact absurd (List.nil_prefix) this
    rw [this]
    simp [kraft]
  induction m with
  | zero =>
    intro ws h hle
    cases ws with
    | nil => simp [kraft]
    | cons a ws =>
      have : a = [] := List.eq_nil_of_length_eq_zero (by have := hle a (by simp); omega)
      exact single 0 _ h (by simp [this])
  | succ m ih =>
    intro ws h hle
    by_cases hnil : [] ∈ ws
    · exact single _ ws h hnil
    · have hlen : ∀ b, ∀ w ∈ (ws.filter fun w => w.head? = some b).map List.tail, w.length ≤ m := by
        intro b w hw
        obtain ⟨v, hv, rfl⟩ := List.mem_map.mp hw
        have := hle v (List.mem_filter.mp hv).1
        rw [List.length_tail]
        omega
      rw [kraft_split m ws hnil hle, Nat.pow_succ]
      have h1 := ih _ (prefixFree_tails h false) (hlen false)
      have h2 := ih _ (prefixFree_tails h true) (hlen true)
      omega

/-- A prefix-free code with Kraft sum 1 has a codeword at the start of every long enough string. -/
theorem kraft_complete : ∀ (m : Nat) (ws : List (List Bool)), PrefixFree ws → (∀ w ∈ ws, w.length ≤ m) →
    kraft m (ws.map List.length) = 2 ^ m → ∀ s : List Bool, m ≤ s.length → ∃ w ∈ ws, w <+: s := by
  intro m
  induction m with
  | zero =>
    intro ws h hle hk s _
    cases ws with
    | nil => simp [kraft] at hk
    | cons a ws =>
      have : a = [] := List.eq_nil_of_length_eq_zero (by have := hle a (by simp); omega)
      exact ⟨a, by simp, by rw [this]; exact List.nil_prefix⟩
  | succ m ih =>
    intro ws h hle hk s hs
    by_cases hnil : [] ∈ ws
    · exact ⟨[], hnil, List.nil_prefix⟩
    · have hlen : ∀ b, ∀ w ∈ (ws.filter fun w => w.head? = some b).map List.tail, w.length ≤ m := by
        intro b w hw
        obtain ⟨v, hv, rfl⟩ := List.mem_map.mp hw
        have := hle v (List.mem_filter.mp hv).1
        rw [List.length_tail]
        omega
      rw [kraft_split m ws hnil hle, Nat.pow_succ] at hk
      have h1 := kraft_inequality m _ (prefixFree_tails h false) (hlen false)
      have h2 := kraft_inequality m _ (prefixFree_tails h true) (hlen true)
      cases s with
      | nil => simp at hs
      | cons b s =>
        have hkb : kraft m (((ws.filter fun w => w.head? = some b).map List.tail).map List.length) = 2 ^ m := by
          cases b
          · omega
          · omega
        obtain ⟨w, hw, hpre⟩ := ih _ (prefixFree_tails h b) (hlen b) hkb s (by simpa using hs)
        obtain ⟨v, hv, rfl⟩ := List.mem_map.mp hw
        rw [List.mem_filter, decide_eq_true_eq] at hv
        refine ⟨v, hv.1, ?_⟩
        cases v with
        | nil => simp at hv
        | cons c v =>
          simp at hv
          rw [hv.2, List.cons_prefix_cons]
          exact ⟨rfl, by simpa using hpre⟩

end Bwtc.Huff
