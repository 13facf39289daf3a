import Verif.WaveTrees

/-!
# The search for run-length code parameters

What `bitsForIntegers` and `findParametersForSemiFixedCodes` return, and when they are defined.
-/

set_option autoImplicit false

namespace Bwtc.Wave
open Huff

/-- The integers `select` puts into the table. -/
def deserves (cheap : Nat × Nat → Bool) (p : Nat × Nat) : Bool := decide (cheap p ∧ 10 ≤ p.1)

theorem select_codeLengths (cheap : Nat × Nat → Bool) (l : List (Nat × Nat)) (s : Sel) :
    (select cheap l s).codeLengths = s.codeLengths ++ l.filter (deserves cheap) ∧
      (select cheap l s).removed = s.removed ++ l.map (deserves cheap) := by
  induction l generalizing s with
  | nil => simp [select]
  | cons p l ih =>
    rw [select]
    by_cases h : cheap p ∧ 10 ≤ p.1
    · rw [if_pos h, (ih _).1, (ih _).2]
      have : deserves cheap p = true := decide_eq_true h
      simp [this]
    · rw [if_neg h, (ih _).1, (ih _).2]
      have : deserves cheap p = false := decide_eq_false h
      simp [this]

theorem mapSet_mem {α : Type} {k : Nat} {v : α} {m : List (Nat × α)} {q : Nat × α} (h : q ∈ mapSet k v m) :
    q = (k, v) ∨ q ∈ m := by
  induction m with
  | nil => simpa [mapSet] using h
  | cons r m ih =>
    obtain ⟨k', v'⟩ := r
    rw [mapSet] at h
    split at h
    · simpa using h
    · split at h
      · rw [List.mem_cons] at h
        rcases h with h | h
        · exact Or.inl h
        · exact Or.inr (List.mem_cons_of_mem _ h)
      · rw [List.mem_cons] at h
        rcases h with h | h
        · exact Or.inr (by simp [h])
        · rcases ih h with h | h
          · exact Or.inl h
          · exact Or.inr (List.mem_cons_of_mem _ h)

theorem mapSet_key {α : Type} (k : Nat) (v : α) (m : List (Nat × α)) : k ∈ (mapSet k v m).map (·.1) := by
  induction m with
  | nil => simp [mapSet]
  | cons r m ih =>
    obtain ⟨k', v'⟩ := r
    rw [mapSet]
    split
    · simp
    · split
      · simp
      · simp only [List.map_cons, List.mem_cons]; exact Or.inr ih

theorem mapSet_keep {α : Type} {k : Nat} {v : α} {m : List (Nat × α)} {x : Nat} (h : x ∈ m.map (·.1)) :
    x ∈ (mapSet k v m).map (·.1) := by
  induction m with
  | nil => simp at h
  | cons r m ih =>
    obtain ⟨k', v'⟩ := r
    rw [mapSet]
    rw [List.map_cons, List.mem_cons] at h
    split
    · rw [List.map_cons, List.map_cons, List.mem_cons, List.mem_cons]; exact Or.inr h
    · split
      · next h2 =>
        subst h2
        rw [List.map_cons, List.mem_cons]; exact h
      · rw [List.map_cons, List.mem_cons]
        rcases h with h | h
        · exact Or.inl h
        · exact Or.inr (ih h)

theorem mapSet_sorted {α : Type} {k : Nat} {v : α} {m : List (Nat × α)} (h : (m.map (·.1)).Pairwise (· < ·)) :
    ((mapSet k v m).map (·.1)).Pairwise (· < ·) := by
  induction m with
  | nil => simp [mapSet]
  | cons r m ih =>
    obtain ⟨k', v'⟩ := r
    rw [List.map_cons, List.pairwise_cons] at h
    rw [mapSet]
    split
    · next h1 =>
      rw [List.map_cons, List.pairwise_cons]
      refine ⟨?_, by rw [List.map_cons, List.pairwise_cons]; exact h⟩
      intro x hx
      rw [List.map_cons, List.mem_cons] at hx
      rcases hx with rfl | hx
      · exact h1
      · exact Nat.lt_trans h1 (h.1 x hx)
    · split
      · next h2 =>
        subst h2
        rw [List.map_cons, List.pairwise_cons]; exact h
      · rw [List.map_cons, List.pairwise_cons]
        refine ⟨?_, ih h.2⟩
        intro x hx
        obtain ⟨q, hq, rfl⟩ := List.mem_map.mp hx
        rcases mapSet_mem hq with rfl | hq
        · show k' < k; omega
        · exact h.1 _ (List.mem_map.mpr ⟨q, hq, rfl⟩)

/-- What is known of the map `notRemoved` when the elements of `pre` have been scanned. -/
structure MapOk (cheap : Nat × Nat → Bool) (pre : List (Nat × Nat)) (m : List (Nat × Nat)) : Prop where
  sorted : (m.map (·.1)).Pairwise (· < ·)
  mem : ∀ q ∈ m, ∃ p, pre[q.2]? = some p ∧ p.1 = q.1 ∧ deserves cheap p = false
  keys : ∀ p ∈ pre, deserves cheap p = false → p.1 ∈ m.map (·.1)

theorem select_map (cheap : Nat × Nat → Bool) (l pre : List (Nat × Nat)) (s : Sel)
    (hlen : s.removed.length = pre.length) (h : MapOk cheap pre s.notRemoved) :
    MapOk cheap (pre ++ l) (select cheap l s).notRemoved := by
  induction l generalizing pre s with
  | nil => simpa [select] using h
  | cons p l ih =>
    rw [show pre ++ p :: l = (pre ++ [p]) ++ l by simp, select]
    have hpre : ∀ {i : Nat} {x : Nat × Nat}, pre[i]? = some x → (pre ++ [p])[i]? = some x := by
      intro i x hx
      rw [List.getElem?_append_left (by
        apply Decidable.byContradiction; intro hc
        rw [List.getElem?_eq_none (by omega)] at hx; simp at hx)]
      exact hx
    by_cases hc : cheap p ∧ 10 ≤ p.1
    · rw [if_pos hc]
      refine ih _ _ (by simp [hlen]) ⟨h.sorted, ?_, ?_⟩
      · intro q hq
        obtain ⟨x, h1, h2⟩ := h.mem q hq
        exact ⟨x, hpre h1, h2⟩
      · intro x hx hd
        rw [List.mem_append, List.mem_singleton] at hx
        rcases hx with hx | rfl
        · exact h.keys x hx hd
        · rw [show deserves cheap x = true from decide_eq_true hc] at hd
          simp at hd
    · rw [if_neg hc]
      refine ih _ _ (by simp [hlen]) ⟨mapSet_sorted h.sorted, ?_, ?_⟩
      · intro q hq
        rcases mapSet_mem hq with rfl | hq
        · exact ⟨p, by simp [hlen], rfl, decide_eq_false hc⟩
        · obtain ⟨x, h1, h2⟩ := h.mem q hq
          exact ⟨x, hpre h1, h2⟩
      · intro x hx hd
        rw [List.mem_append, List.mem_singleton] at hx
        rcases hx with hx | rfl
        · exact mapSet_keep (h.keys x hx hd)
        · exact mapSet_key _ _ _

/-- The forced choice: the picked integers, and how many there are. -/
theorem force_spec (depth : Nat) (freqs : List (Nat × Nat)) : ∀ (it : List (Nat × Nat)) (i : Nat)
    (removed : List Bool) (cl : List (Nat × Nat)) (mf : Nat),
    (∀ q ∈ it, ∃ p, freqs[q.2]? = some p ∧ p.1 = q.1) →
    (∀ r, force depth freqs i it removed cl mf = some r →
      ∃ its its', it = its ++ its' ∧ r.2.1.length = cl.length + its.length ∧
        (∃ picks, r.2.1 = cl ++ picks ∧ its.map (fun q => freqs[q.2]?) = picks.map some) ∧
        (cl.length ≤ depth → r.2.1.length ≤ depth) ∧ (i + cl.length < depth → its ≠ [])) ∧
    (force depth freqs i it removed cl mf = none → i + cl.length + 2 * it.length < depth) := by
  intro it
  induction it with
  | nil =>
    intro i removed cl mf _
    rw [force]
    constructor
    · intro r hr
      split at hr
      · simp at hr
      · obtain rfl := (Option.some.inj hr).symm
        exact ⟨[], [], rfl, rfl, ⟨[], by simp, rfl⟩, fun h => h, fun h => by omega⟩
    · intro hn
      split at hn
      · simp; omega
      · simp at hn
  | cons q it ih =>
    intro i removed cl mf hmem
    obtain ⟨f, idx⟩ := q
    obtain ⟨p, hp, hpf⟩ := hmem (f, idx) (by simp)
    simp only at hp hpf
    rw [force]
    by_cases hc : i + cl.length < depth
    · rw [if_pos hc, hp]
      obtain ⟨i1, i2⟩ := ih (i + 1) (removed.set idx true) (cl ++ [p]) (lower mf f)
        (fun q hq => hmem q (List.mem_cons_of_mem _ hq))
      constructor
      · intro r hr
        obtain ⟨its, its', e1, e2, ⟨picks, e3, e4⟩, e5, e6⟩ := i1 r hr
        refine ⟨(f, idx) :: its, its', by rw [e1]; rfl, ?_, ⟨p :: picks, ?_, ?_⟩, ?_, ?_⟩
        · rw [e2]; simp; omega
        · rw [e3]; simp
        · simp only [List.map_cons, hp, e4]
        · intro _
          exact e5 (by simp; omega)
        · simp
      · intro hn
        have := i2 hn
        simp only [List.length_append, List.length_cons, List.length_nil] at this ⊢
        omega
    · rw [if_neg hc]
      constructor
      · intro r hr
        obtain rfl := (Option.some.inj hr).symm
        exact ⟨[], _, rfl, rfl, ⟨[], by simp, rfl⟩, fun h => h, fun h => absurd h hc⟩
      · intro hn
        simp at hn

/-! ## From the chosen integers to the lengths -/

/-- What a usable table of code lengths satisfies. -/
structure Table (lens : List (Nat × Nat)) : Prop where
  two : 2 ≤ lens.length
  sorted : lens.Pairwise (fun a b => pairLe a b)
  nodup : (lens.map (·.2)).Nodup
  zero : 0 ∈ lens.map (·.2)
  pos : ∀ p ∈ lens, 0 < p.1
  bound : ∀ p ∈ lens, p.1 < lens.length
  kraft : ∀ m, (∀ p ∈ lens, p.1 ≤ m) → kraft m (lens.map (·.1)) = 2 ^ m

theorem lastZero_spec {l : List (Nat × Nat)} (h : 0 ∈ l.map (·.2)) :
    ∃ j p, lastZero l.reverse = some j ∧ l[j]? = some p ∧ p.2 = 0 := by
  have gen : ∀ r : List (Nat × Nat), 0 ∈ r.map (·.2) →
      ∃ j p, lastZero r = some j ∧ r.reverse[j]? = some p ∧ p.2 = 0 := by
    intro r
    induction r with
    | nil => intro h; simp at h
    | cons q r ih =>
      intro h
      rw [lastZero]
      by_cases h0 : q.2 = 0
      · refine ⟨r.length, q, if_pos h0, ?_, h0⟩
        simp
      · rw [List.map_cons, List.mem_cons] at h
        obtain ⟨j, p, e1, e2, e3⟩ := ih (by rcases h with h | h; exact absurd h.symm h0; exact h)
        refine ⟨j, p, by rw [if_neg h0]; exact e1, ?_, e3⟩
        rw [List.reverse_cons, List.getElem?_append_left (by
          apply Decidable.byContradiction; intro hc
          rw [List.getElem?_eq_none (by omega)] at e2; simp at e2)]
        exact e2
  have := gen l.reverse (by simpa using h)
  simpa using this

theorem snd_eq_of_nodup {l : List (Nat × Nat)} (h : (l.map (·.2)).Nodup) {p q : Nat × Nat} (hp : p ∈ l)
    (hq : q ∈ l) (e : p.2 = q.2) : p = q := by
  have h' : ((l.map Prod.swap).map (·.1)).Nodup := by
    rw [List.map_map]
    exact h
  have := eq_of_nodup_fst h' (List.mem_map.mpr ⟨p, hp, rfl⟩) (List.mem_map.mpr ⟨q, hq, rfl⟩) e
  simpa using congrArg Prod.swap this

/-- The entry of the fixed codes is never moved when everything before it is shorter than
`depth`. -/
theorem moveZero_stays {depth : Nat} {l : List (Nat × Nat)} {j : Nat} {p : Nat × Nat} (hj : l[j]? = some p)
    (hbefore : ∀ i a, i < j → l[i]? = some a → a.1 < depth) : moveZero depth j l = some (l, j) := by
  cases j with
  | zero => rfl
  | succ j =>
    rw [moveZero]
    have hlt : j + 1 < l.length := by
      apply Decidable.byContradiction; intro hc
      rw [List.getElem?_eq_none (by omega)] at hj; simp at hj
    have ha : l[j]? = some l[j] := List.getElem?_eq_getElem _
    rw [ha, hj]
    simp only
    rw [if_neg (by have := hbefore j l[j] (by omega) ha; omega)]

/-- The tail of `integerLengths`: from the weights to the sorted table. -/
theorem table_of_weights {depth : Nat} {cl0 cl : List (Nat × Nat)} {mf : Nat} (hne : cl0 ≠ [])
    (hnd : (cl0.map (·.2)).Nodup) (hpos : ∀ p ∈ cl0, p.2 ≠ 0)
    (hcl : (cl = sortPairs (cl0 ++ [(mf, 0)]) ∧ cl0.length ≤ depth) ∨ cl = cl0 ++ [(mf, 0)]) :
    ∃ zs j z, codeLengthsSorted cl = some zs ∧ lastZero (sortPairs zs).reverse = some j ∧
      moveZero depth j (sortPairs zs) = some (sortPairs zs, j) ∧ (sortPairs zs)[j]? = some z ∧ z.2 = 0 ∧
      Table (sortPairs zs) ∧ ∀ x ∈ (sortPairs zs).map (·.2), x = 0 ∨ x ∈ cl0.map (·.2) := by
  have hperm : cl.Perm (cl0 ++ [(mf, 0)]) := by
    rcases hcl with ⟨rfl, _⟩ | rfl
    · exact sortPairs_perm _
    · exact List.Perm.refl _
  have hlen : cl.length = cl0.length + 1 := by rw [hperm.length_eq]; simp
  have h0pos : 0 < cl0.length := List.length_pos_iff.mpr hne
  obtain ⟨ls, T, e1, _, e3, e4, e5⟩ := lengths_spec W64 (cl.map (·.1)) (by rw [List.length_map]; omega)
  have hls : ls.length = cl.length := by
    have h1 := e4.length_eq
    have h2 := e5.length_eq
    have h3 := congrArg List.length (leaves_fst 0 T)
    rw [List.length_map] at h1 h2 h3
    omega
  have hlws : T.lws.length = cl0.length + 1 := by rw [e5.length_eq, List.length_map, hlen]
  have hcode : codeLengthsSorted cl = some (ls.zip (cl.map (·.2))) := by
    rw [codeLengthsSorted.eq_def]
    match cl, hlen, e1 with
    | [], h, _ => simp at h
    | [a], h, _ => simp at h; exact absurd h hne
    | a :: b :: cl, _, e1 => simp only [e1]
  generalize hzs : ls.zip (cl.map (·.2)) = zs at hcode
  have hfst : zs.map (·.1) = ls := by rw [← hzs]; exact zip_map_fst _ _ (by simp [hls])
  have hsnd : zs.map (·.2) = cl.map (·.2) := by rw [← hzs]; exact zip_map_snd _ _ (by simp [hls])
  have hp := sortPairs_perm zs
  have hndz : ((sortPairs zs).map (·.2)).Nodup := by
    rw [(hp.map _).nodup_iff, hsnd, (hperm.map _).nodup_iff, List.map_append]
    rw [List.nodup_append]
    refine ⟨hnd, by simp, ?_⟩
    intro a ha b hb
    simp only [List.map_cons, List.map_nil, List.mem_singleton] at hb
    subst hb
    obtain ⟨p, hp, rfl⟩ := List.mem_map.mp ha
    exact hpos p hp
  have hzero : 0 ∈ (sortPairs zs).map (·.2) := by
    rw [(hp.map _).mem_iff, hsnd, (hperm.map _).mem_iff]
    simp
  have hTL := tree_lengths (T := T) (by omega)
  have hmemls : ∀ l ∈ ls, 1 ≤ l ∧ l ≤ cl0.length := by
    intro l hl
    have h1 := hTL.1 l (e4.mem_iff.mp hl)
    have h2 := height_lt T
    omega
  have hpairls : ∀ p ∈ sortPairs zs, p.1 ∈ ls := by
    intro p h
    rw [← hfst]
    exact List.mem_map.mpr ⟨p, hp.mem_iff.mp h, rfl⟩
  obtain ⟨j, z, j1, j2, j3⟩ := lastZero_spec hzero
  have hsorted := sortPairs_sorted zs
  have hbefore : ∀ (i : Nat) a, i < j → (sortPairs zs)[i]? = some a → a.1 < z.1 := by
    intro i a hi ha
    have hjl : j < (sortPairs zs).length := by
      apply Decidable.byContradiction; intro hc
      rw [List.getElem?_eq_none (by omega)] at j2; simp at j2
    have h1 := (List.pairwise_iff_getElem.mp hsorted) i j (by omega) hjl hi
    rw [List.getElem?_eq_getElem (by omega)] at ha j2
    rw [Option.some.inj ha, Option.some.inj j2] at h1
    simp only [pairLe, decide_eq_true_eq] at h1
    rcases h1 with h1 | h1
    · exact h1
    · have hae : a = z := snd_eq_of_nodup hndz
        (by rw [← Option.some.inj ha]; exact List.getElem_mem _)
        (by rw [← Option.some.inj j2]; exact List.getElem_mem _) (by omega)
      exfalso
      have hidx := (List.pairwise_iff_getElem.mp hndz) i j (by simp; omega) (by simp; omega) hi
      apply hidx
      simp only [List.getElem_map]
      rw [Option.some.inj ha, Option.some.inj j2, hae]
  have hzmem : z ∈ sortPairs zs := List.mem_of_getElem? j2
  have hstay : ∀ (i : Nat) a, i < j → (sortPairs zs)[i]? = some a → a.1 < depth := by
    intro i a hi ha
    have h1 := hbefore i a hi ha
    rcases hcl with ⟨_, hd⟩ | rfl
    · have := (hmemls _ (hpairls z hzmem)).2
      omega
    · exfalso
      -- the last weight gets the smallest length
      have hlast : ls.getLast? = some z.1 := by
        have hz' : z ∈ zs := hp.mem_iff.mp hzmem
        have hlz : zs.getLast? = some z := by
          have hne' : zs ≠ [] := by intro h; rw [h] at hz'; simp at hz'
          rw [List.getLast?_eq_some_getLast hne']
          congr 1
          refine snd_eq_of_nodup (l := zs) ?_ (List.getLast_mem hne') hz' ?_
          · rw [← (hp.map (·.2)).nodup_iff]; exact hndz
          · have h2 : (zs.map (·.2)).getLast? = some 0 := by rw [hsnd]; simp
            rw [List.getLast?_map, List.getLast?_eq_some_getLast hne'] at h2
            rw [j3]
            simpa using h2
        rw [← hfst, List.getLast?_map, hlz]
        rfl
      have hamem : a.1 ∈ ls := hpairls a (List.mem_of_getElem? ha)
      obtain ⟨init, hinit⟩ : ∃ init, ls = init ++ [z.1] := by
        have hne' : ls ≠ [] := by intro h; rw [h] at hamem; simp at hamem
        rw [List.getLast?_eq_some_getLast hne'] at hlast
        exact ⟨ls.dropLast, by rw [← Option.some.inj hlast, List.dropLast_concat_getLast hne']⟩
      rw [hinit, List.mem_append, List.mem_singleton] at hamem
      rcases hamem with hamem | hamem
      · rw [hinit] at e3
        have := (List.pairwise_append.mp e3).2.2 a.1 hamem z.1 (by simp)
        omega
      · omega
  refine ⟨zs, j, z, hcode, j1, moveZero_stays j2 hstay, j2, j3, ⟨?_, hsorted, hndz, hzero, ?_, ?_, ?_⟩, ?_⟩
  · rw [hp.length_eq]
    have : zs.length = ls.length := by rw [← hfst]; simp
    omega
  · intro p h
    exact (hmemls _ (hpairls p h)).1
  · intro p h
    have h1 := (hmemls _ (hpairls p h)).2
    have h2 : zs.length = ls.length := by rw [← hfst]; simp
    rw [hp.length_eq]
    omega
  · intro m hm
    have h1 : kraft m ((sortPairs zs).map (·.1)) = kraft m ls := by
      rw [← hfst]; exact kraft_perm m (hp.map _)
    rw [h1, kraft_perm m e4]
    -- the height is the largest length
    have hall : ∀ l ∈ (T.leaves 0).map (·.2), l ≤ m := by
      intro l hl
      have hl' := e4.mem_iff.mpr hl
      rw [← hfst] at hl'
      obtain ⟨p, hp', rfl⟩ := List.mem_map.mp hl'
      exact hm p (hp.mem_iff.mpr hp')
    have h2 := hTL.2 (m + T.height) (by omega)
    rw [kraft_scale m T.height _ hall, Nat.pow_add, Nat.mul_comm] at h2
    exact Nat.eq_of_mul_eq_mul_right (Nat.pos_of_ne_zero (by simp)) h2
  · intro x hx
    rw [(hp.map _).mem_iff, hsnd, (hperm.map _).mem_iff, List.map_append, List.mem_append] at hx
    rcases hx with hx | hx
    · exact Or.inr hx
    · exact Or.inl (by simpa using hx)

theorem cons_cons_of_sorted {m : List (Nat × Nat)} (hs : (m.map (·.1)).Pairwise (· < ·)) {a b : Nat}
    (ha : a ∈ m.map (·.1)) (hb : b ∈ m.map (·.1)) (hab : a ≠ b) : 2 ≤ m.length := by
  match m with
  | [] => simp at ha
  | [x] => simp at ha hb; omega
  | _ :: _ :: _ => simp

theorem nodup_of_nodup_fst {α β : Type} {l : List (α × β)} (h : (l.map (·.1)).Nodup) : l.Nodup := by
  induction l with
  | nil => simp
  | cons p l ih =>
    rw [List.map_cons, List.nodup_cons] at h
    rw [List.nodup_cons]
    exact ⟨fun hm => h.1 (List.mem_map.mpr ⟨p, hm, rfl⟩), ih h.2⟩

theorem nodup_map_snd {freqs l : List (Nat × Nat)} (hnd : (freqs.map (·.2)).Nodup) (hl : l.Nodup)
    (hsub : ∀ p ∈ l, p ∈ freqs) : (l.map (·.2)).Nodup := by
  induction l with
  | nil => simp
  | cons p l ih =>
    rw [List.nodup_cons] at hl
    rw [List.map_cons, List.nodup_cons]
    refine ⟨?_, ih hl.2 (fun q hq => hsub q (List.mem_cons_of_mem _ hq))⟩
    intro hm
    obtain ⟨q, hq, e⟩ := List.mem_map.mp hm
    have := snd_eq_of_nodup hnd (hsub q (List.mem_cons_of_mem _ hq)) (hsub p (by simp)) e
    exact hl.1 (this ▸ hq)

/-- `bitsForIntegers` finds a usable table, except in one situation. -/
theorem integerLengths_cases (cheap : Nat × Nat → Bool) {depth : Nat} {freqs : List (Nat × Nat)}
    (hnd : (freqs.map (·.2)).Nodup) (hpos : ∀ p ∈ freqs, p.2 ≠ 0) (hd1 : 1 ≤ depth) (hd3 : depth ≤ 3)
    (hlen : depth ≤ freqs.length) :
    (∃ removed lens, integerLengths cheap depth freqs = some (removed, lens, 0) ∧ Table lens ∧
      ∀ x ∈ lens.map (·.2), x = 0 ∨ x ∈ freqs.map (·.2)) ∨
    (integerLengths cheap depth freqs = none ∧ depth = 3 ∧ (∀ p ∈ freqs, deserves cheap p = false) ∧
      ∀ p ∈ freqs, ∀ q ∈ freqs, p.1 = q.1) := by
  rw [integerLengths]
  obtain ⟨hs1, hs2⟩ := select_codeLengths cheap freqs ⟨[], [], 0, []⟩
  have hm := select_map cheap freqs [] ⟨[], [], 0, []⟩ rfl ⟨by simp, by simp, by simp⟩
  rw [List.nil_append] at hm
  generalize select cheap freqs ⟨[], [], 0, []⟩ = s at hs1 hs2 hm
  simp only [List.nil_append] at hs1
  have hfnd : freqs.Nodup := by
    have : ((freqs.map Prod.swap).map (·.1)).Nodup := by rw [List.map_map]; exact hnd
    have h2 := nodup_of_nodup_fst this
    rw [List.Nodup, List.pairwise_map] at h2
    exact h2.imp (fun h e => h (by rw [e]))
  have hclsub : ∀ p ∈ s.codeLengths, p ∈ freqs ∧ deserves cheap p = true := by
    intro p hp
    rw [hs1, List.mem_filter] at hp
    exact hp
  have hclnd : s.codeLengths.Nodup := by rw [hs1]; exact List.Pairwise.filter _ hfnd
  -- the common end
  have fin : ∀ (removed : List Bool) (cl0 cl : List (Nat × Nat)) (mf : Nat), cl0 ≠ [] → cl0.Nodup →
      (∀ p ∈ cl0, p ∈ freqs) →
      ((cl = sortPairs (cl0 ++ [(mf, 0)]) ∧ cl0.length ≤ depth) ∨ cl = cl0 ++ [(mf, 0)]) →
      ∃ lens, (do
        let lens ← codeLengthsSorted cl
        let lens := sortPairs lens
        let j ← lastZero lens.reverse
        let (lens, j) ← moveZero depth j lens
        let z ← lens[j]?
        return (removed, lens, z.2)) = some (removed, lens, 0) ∧ Table lens ∧
        ∀ x ∈ lens.map (·.2), x = 0 ∨ x ∈ freqs.map (·.2) := by
    intro removed cl0 cl mf hne hndc hsub hcl
    obtain ⟨zs, j, z, z1, z2, z3, z4, z5, z6, z7⟩ := table_of_weights (depth := depth) hne
      (nodup_map_snd hnd hndc hsub) (fun p hp => hpos p (hsub p hp)) hcl
    refine ⟨sortPairs zs, ?_, z6, ?_⟩
    · simp only [z1, z2, z3, z4, z5, Option.bind_eq_bind, Option.bind_some]
      rfl
    · intro x hx
      rcases z7 x hx with h | h
      · exact Or.inl h
      · obtain ⟨p, hp, rfl⟩ := List.mem_map.mp h
        exact Or.inr (List.mem_map.mpr ⟨p, hsub p hp, rfl⟩)
  by_cases hc : s.codeLengths.length < depth
  · simp only [if_pos hc]
    have hmem : ∀ q ∈ s.notRemoved.reverse, ∃ p, freqs[q.2]? = some p ∧ p.1 = q.1 := by
      intro q hq
      obtain ⟨p, h1, h2, _⟩ := hm.mem q (List.mem_reverse.mp hq)
      exact ⟨p, h1, h2⟩
    obtain ⟨f1, f2⟩ := force_spec depth freqs s.notRemoved.reverse 0 s.removed s.codeLengths s.minFreq hmem
    cases hf : force depth freqs 0 s.notRemoved.reverse s.removed s.codeLengths s.minFreq with
    | none =>
      refine Or.inr ⟨rfl, ?_⟩
      have h1 := f2 hf
      rw [List.length_reverse] at h1
      -- some integer was not removed
      obtain ⟨p0, hp0, hd0⟩ : ∃ p ∈ freqs, deserves cheap p = false := by
        apply Decidable.byContradiction
        intro hno
        have hall : ∀ p ∈ freqs, deserves cheap p = true := by
          intro p hp
          cases hd : deserves cheap p with
          | true => rfl
          | false => exact absurd ⟨p, hp, hd⟩ hno
        rw [hs1, List.filter_eq_self.mpr hall] at hc
        omega
      have hk0 := hm.keys p0 hp0 hd0
      have hlen1 : 1 ≤ s.notRemoved.length := by
        cases hnr : s.notRemoved with
        | nil => rw [hnr] at hk0; simp at hk0
        | cons _ _ => simp
      have hcl0 : s.codeLengths = [] := List.length_eq_zero_iff.mp (by omega)
      have hnone : ∀ p ∈ freqs, deserves cheap p = false := by
        intro p hp
        cases hd : deserves cheap p with
        | false => rfl
        | true =>
          have : p ∈ s.codeLengths := by rw [hs1]; exact List.mem_filter.mpr ⟨hp, hd⟩
          rw [hcl0] at this
          simp at this
      refine ⟨by omega, hnone, ?_⟩
      intro p hp q hq
      apply Decidable.byContradiction
      intro hne
      have := cons_cons_of_sorted hm.sorted (hm.keys p hp (hnone p hp)) (hm.keys q hq (hnone q hq)) hne
      omega
    | some r =>
      refine Or.inl ?_
      obtain ⟨removed, cl, mf⟩ := r
      obtain ⟨its, its', e1, e2, ⟨picks, e3, e4⟩, e5, e6⟩ := f1 _ hf
      simp only at e2 e3 e5
      have hits : its ≠ [] := e6 (by omega)
      -- the picked integers are new and different
      have hpk : ∀ p ∈ picks, ∃ q ∈ its, freqs[q.2]? = some p := by
        intro p hp
        have : some p ∈ its.map (fun q => freqs[q.2]?) := by rw [e4]; exact List.mem_map.mpr ⟨p, hp, rfl⟩
        obtain ⟨q, hq, e⟩ := List.mem_map.mp this
        exact ⟨q, hq, e⟩
      have hitsmem : ∀ q ∈ its, q ∈ s.notRemoved := by
        intro q hq
        have : q ∈ s.notRemoved.reverse := by rw [e1]; exact List.mem_append.mpr (Or.inl hq)
        exact List.mem_reverse.mp this
      have hpicks : ∀ p ∈ picks, p ∈ freqs ∧ deserves cheap p = false := by
        intro p hp
        obtain ⟨q, hq, e⟩ := hpk p hp
        obtain ⟨p', g1, _, g3⟩ := hm.mem q (hitsmem q hq)
        rw [e] at g1
        obtain rfl := Option.some.inj g1
        exact ⟨List.mem_of_getElem? e, g3⟩
      have hfstp : picks.map (·.1) = its.map (·.1) := by
        have h1 : (picks.map some).map (fun o : Option (Nat × Nat) => o.map (·.1)) =
            its.map (fun q => some q.1) := by
          rw [← e4, List.map_map]
          apply List.map_congr_left
          intro q hq
          obtain ⟨p, g1, g2, _⟩ := hm.mem q (hitsmem q hq)
          simp [g1, g2]
        rw [List.map_map] at h1
        have h2 : (picks.map (·.1)).map some = (its.map (·.1)).map some := by
          rw [List.map_map, List.map_map]; exact h1
        exact (List.map_inj_right (fun _ _ h => Option.some.inj h)).mp h2
      have hpnd : picks.Nodup := by
        apply nodup_of_nodup_fst
        rw [hfstp]
        have h1 : (s.notRemoved.map (·.1)).Nodup := hm.sorted.imp (fun h => by omega)
        have h2 : ((s.notRemoved.reverse).map (·.1)).Nodup := by
          rw [((List.reverse_perm s.notRemoved).map _).nodup_iff]; exact h1
        rw [e1, List.map_append] at h2
        exact (List.nodup_append.mp h2).1
      have hndc : cl.Nodup := by
        rw [e3, List.nodup_append]
        refine ⟨hclnd, hpnd, ?_⟩
        intro a ha b hb hab
        subst hab
        have h1 := (hclsub a ha).2
        rw [(hpicks a hb).2] at h1
        simp at h1
      obtain ⟨lens, l1, l2⟩ := fin removed cl (sortPairs (cl ++ [(mf, 0)])) mf
        (by
          intro h; rw [h] at e2
          have := List.length_pos_iff.mpr hits
          simp at e2; omega) hndc
        (by
          intro p hp
          rw [e3, List.mem_append] at hp
          rcases hp with hp | hp
          · exact (hclsub p hp).1
          · exact (hpicks p hp).1)
        (Or.inl ⟨rfl, e5 (by omega)⟩)
      exact ⟨removed, lens, l1, l2⟩
  · simp only [if_neg hc]
    refine Or.inl ?_
    obtain ⟨lens, l1, l2⟩ := fin s.removed s.codeLengths _ s.minFreq
      (by intro h; rw [h] at hc; simp at hc; omega) hclnd (fun p hp => (hclsub p hp).1) (Or.inr rfl)
    exact ⟨s.removed, lens, l1, l2⟩

/-! ## The whole search -/

/-- The distributions on which the search is undefined: at least three run lengths, all with the
same frequency, none of them worth a Huffman code for some `w`. -/
def Trap (cheap : Nat → Nat → Nat × Nat → Bool) (freqs : List (Nat × Nat)) (w : Nat) : Prop :=
  3 ≤ freqs.length ∧ (∀ p ∈ freqs, deserves (cheap w 3) p = false) ∧ ∀ p ∈ freqs, ∀ q ∈ freqs, p.1 = q.1

/-- Invariant of the search. -/
def Found (freqs : List (Nat × Nat)) (st : List (Nat × Nat) × Nat × Nat) : Prop :=
  st.2.2 < 16 ∧ (st.1 = [] ∨ (Table st.1 ∧ ∀ x ∈ st.1.map (·.2), x = 0 ∨ x ∈ freqs.map (·.2)))

theorem searchDepth_spec (cheap : Nat → Nat → Nat × Nat → Bool) {freqs : List (Nat × Nat)}
    (hnd : (freqs.map (·.2)).Nodup) (hpos : ∀ p ∈ freqs, p.2 ≠ 0) {w : Nat} (hw : w < 16) (ds : List Nat)
    (hds : ∀ d ∈ ds, 1 ≤ d ∧ d ≤ 3) (st : List (Nat × Nat) × Nat × Nat) (h : Found freqs st) :
    (∀ st', searchDepth cheap freqs w ds st = some st' → Found freqs st') ∧
      (searchDepth cheap freqs w ds st = none → Trap cheap freqs w) := by
  induction ds generalizing st with
  | nil =>
    simp only [searchDepth]
    exact ⟨fun st' e => Option.some.inj e ▸ h, by simp⟩
  | cons d ds ih =>
    have hd := hds d (by simp)
    have ih' := ih (fun d hd => hds d (List.mem_cons_of_mem _ hd))
    rw [searchDepth, bitsForIntegers]
    by_cases h1 : freqs.length < d
    · simp only [if_pos h1]
      exact ⟨fun st' e => Option.some.inj e ▸ h, by simp⟩
    · rw [if_neg h1, if_neg (by omega)]
      rcases integerLengths_cases (cheap w d) hnd hpos hd.1 hd.2 (by omega) with
        ⟨removed, lens, e1, e2, e3⟩ | ⟨e1, e2, e3, e4⟩
      · rw [e1]
        simp only
        split
        · exact ⟨fun st' e => Option.some.inj e ▸ h, by simp⟩
        · split
          · exact ih' _ ⟨hw, Or.inr ⟨e2, e3⟩⟩
          · exact ih' _ h
      · rw [e1]
        simp only
        subst e2
        exact ⟨by simp, fun _ => ⟨by omega, e3, e4⟩⟩

theorem searchW_spec (cheap : Nat → Nat → Nat × Nat → Bool) {freqs : List (Nat × Nat)}
    (hnd : (freqs.map (·.2)).Nodup) (hpos : ∀ p ∈ freqs, p.2 ≠ 0) (ws : List Nat) (hws : ∀ w ∈ ws, w < 16)
    (st : List (Nat × Nat) × Nat × Nat) (h : Found freqs st) :
    (∀ st', searchW cheap freqs ws st = some st' → Found freqs st') ∧
      (searchW cheap freqs ws st = none → ∃ w ∈ ws, Trap cheap freqs w) := by
  induction ws generalizing st with
  | nil =>
    simp only [searchW]
    exact ⟨fun st' e => Option.some.inj e ▸ h, by simp⟩
  | cons w ws ih =>
    rw [searchW]
    obtain ⟨s1, s2⟩ := searchDepth_spec cheap hnd hpos (hws w (by simp)) [1, 2, 3] (by simp) st h
    cases hs : searchDepth cheap freqs w [1, 2, 3] st with
    | none => exact ⟨by simp, fun _ => ⟨w, by simp, s2 hs⟩⟩
    | some st' =>
      obtain ⟨i1, i2⟩ := ih (fun w hw => hws w (List.mem_cons_of_mem _ hw)) st' (s1 st' hs)
      refine ⟨i1, fun hn => ?_⟩
      obtain ⟨w', hw', ht⟩ := i2 hn
      exact ⟨w', List.mem_cons_of_mem _ hw', ht⟩

theorem bestPlain_lt (freqs : List (Nat × Nat)) : bestPlain freqs < 16 := by
  rw [bestPlain]
  have gen : ∀ (l : List Nat) (b : Nat), b < 16 → (∀ w ∈ l, w < 16) →
      l.foldl (fun best w => if plainCost w freqs < plainCost 0 freqs then w else best) b < 16 := by
    intro l
    induction l with
    | nil => intro b hb _; exact hb
    | cons w l ih =>
      intro b hb hl
      rw [List.foldl_cons]
      refine ih _ ?_ (fun w hw => hl w (List.mem_cons_of_mem _ hw))
      split
      · exact hl w (by simp)
      · exact hb
  exact gen _ 0 (by omega) (fun w hw => List.mem_range.mp hw)

theorem findParameters_spec (cheap : Nat → Nat → Nat × Nat → Bool) {freqs : List (Nat × Nat)}
    (hnd : (freqs.map (·.2)).Nodup) (hpos : ∀ p ∈ freqs, p.2 ≠ 0) :
    (∀ w lens, findParameters cheap freqs = some (w, lens) → w < 16 ∧
      (lens = [] ∨ (Table lens ∧ ∀ x ∈ lens.map (·.2), x = 0 ∨ x ∈ freqs.map (·.2)))) ∧
    (findParameters cheap freqs = none → ∃ w < 16, Trap cheap freqs w) := by
  have hp := sortPairs_perm freqs
  rw [findParameters]
  obtain ⟨s1, s2⟩ := searchW_spec cheap (freqs := sortPairs freqs) (by rw [(hp.map _).nodup_iff]; exact hnd)
    (fun p h => hpos p (hp.mem_iff.mp h)) (List.range 16) (fun w hw => List.mem_range.mp hw)
    ([], plainCost 0 (sortPairs freqs), bestPlain (sortPairs freqs)) ⟨bestPlain_lt _, Or.inl rfl⟩
  cases hs : searchW cheap (sortPairs freqs) (List.range 16)
      ([], plainCost 0 (sortPairs freqs), bestPlain (sortPairs freqs)) with
  | none =>
    refine ⟨by simp, fun _ => ?_⟩
    obtain ⟨w, hw, t1, t2, t3⟩ := s2 hs
    refine ⟨w, List.mem_range.mp hw, by rw [← hp.length_eq]; exact t1, ?_, ?_⟩
    · exact fun p h => t2 p (hp.mem_iff.mpr h)
    · exact fun p h q h' => t3 p (hp.mem_iff.mpr h) q (hp.mem_iff.mpr h')
  | some st =>
    obtain ⟨f1, f2⟩ := s1 st hs
    simp only [Option.bind_eq_bind, Option.bind_some]
    refine ⟨?_, by simp⟩
    intro w lens e
    have e' := Option.some.inj e
    simp only [Prod.mk.injEq] at e'
    rw [← e'.1, ← e'.2]
    refine ⟨f1, f2.imp id (fun ⟨a, b⟩ => ⟨a, fun x hx => (b x hx).imp id (fun h => (hp.map _).mem_iff.mp h)⟩)⟩

end Bwtc.Wave
