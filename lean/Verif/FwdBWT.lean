import Verif.InvBWTWalk

/-!
# Model of the forward transform

`BWTransform::doTransform` (bwtransforms/BWTransform.cpp:39-64), the recording of
the starting points and the in-place handling of the sentinel.  The suffix sorting
itself (divsufsort.c, sssort.c, trsort.c, sais.hxx) enters as "the sorted list of
suffixes", computed here by insertion sort; `sorted_unique` shows that there is only
one such list, so every correct sorter gives the same result.
-/

set_option autoImplicit false

namespace Bwtc.FwdBWT

open Bwtc.BWT Bwtc.InvBWT

/-- `sa` lists the non-empty suffixes of `T` in increasing order. -/
def SortedSuffixes (T : List UInt8) (sa : List Nat) : Prop :=
  sa.Perm (List.range T.length) ∧ sa.Pairwise (fun a b => T.drop a < T.drop b)

/-- Insert a suffix into a sorted list of suffixes. -/
def insertSuffix (T : List UInt8) (a : Nat) : List Nat → List Nat
  | [] => [a]
  | b :: l => if T.drop a < T.drop b then a :: b :: l else b :: insertSuffix T a l

/-- The sorted suffixes of `T`.  Stands for `sort_typeBstar` + `construct_BWT`
(divsufsort.c:36-255, 328-404) and `suffixsort` (sais.hxx:386-760); only the sorted
order is modelled, not the sorting algorithms. -/
def sortSuffixes (T : List UInt8) : List Nat :=
  (List.range T.length).foldr (insertSuffix T) []

/-- The transformed string: `U[i] = T[SA[i] - 1]`, the row of the whole text keeps
the byte that was there (divsufsort.c:466-468 and 506-512, sais.hxx:796-800 and
822-829, with `U = T`). -/
def column (T : List UInt8) : List UInt8 → List Nat → Option (List UInt8)
  | t :: ts, s :: sa => do
    let c ← if s = 0 then some t else T[s - 1]?
    let u ← column T ts sa
    return c :: u
  | _, _ => some []

/-- Recording one starting point (divsufsort.c:350, 381 and 390; sais.hxx:309, 324
and 329): `if((n - s) % x == 0 && s >= y+1) LFpowers[(n-s)/x] = row`. -/
def record (n x y : Nat) (lf : List Nat) (row s : Nat) : Option (List Nat) :=
  if 0 < s ∧ (n - s) % x = 0 ∧ y + 1 ≤ s then
    if (n - s) / x < lf.length then some (lf.set ((n - s) / x) row) else none
  else some lf

/-- Recording all starting points while scanning the suffix array.  The order of the
scan does not matter, every suffix is recorded at most once. -/
def recordAll (n x y : Nat) : List Nat → Nat → List Nat → Option (List Nat)
  | [], _, lf => some lf
  | s :: sa, row, lf => do
    let lf ← record n x y lf row s
    recordAll n x y sa (row + 1) lf

/-- `divbwtf(T, T, 0, n, LFpowers, nLFpowers, freqs)` (divsufsort.c:480-522) and
`saisxx_bwt` (sais.hxx:803-830).  `none`: the remainder by zero when the text is
shorter than the number of starting points. -/
def sorter (T : List UInt8) (lf : List Nat) (freqs : List Nat) :
    Option (List UInt8 × List Nat × List Nat) := do
  if T.length ≤ 1 then return (T, lf, freqs)
  else
    let sa := sortSuffixes T
    let pidx ← sa.findIdx? (· == 0)
    let x := T.length / lf.length
    let y := T.length - x * lf.length
    let lf ← if lf.length ≤ 1 then some lf
      else if x = 0 then none
      else recordAll T.length x y sa 0 lf
    if lf.length = 0 then none
    else
      let u ← column T T sa
      let freqs := u.zipIdx.foldl
        (fun f cp => if cp.2 ≠ pidx then f.modify cp.1.toNat (· + 1) else f) freqs
      return (u, lf.set 0 pidx, freqs)

/-- `BWTBlock::prepareLFpowers` (BWTBlock.cpp:104-108) on a fresh block
(sliceIntoBlocks creates them with an empty vector); new entries are zero. -/
def prepare (length starts : Nat) : List Nat :=
  if length ≤ 256 ∨ starts = 0 then List.replicate 1 0
  else if starts ≤ 256 then List.replicate starts 0
  else List.replicate 256 0

/-- Overwrite `mem[pos .. pos + l.length)`. -/
def blit (mem : List UInt8) (pos : Nat) (l : List UInt8) : List UInt8 :=
  mem.take pos ++ l ++ mem.drop (pos + l.length)

/-- `BWTManager::doTransform(block, freqs)` and `BWTransform::doTransform(block,
freqs)` (BWTManager.cpp:53-58, BWTransform.cpp:52-64) on the memory `mem` holding
the block at `[pos, pos + len)`.  `none`: an access outside of `mem`. -/
def transform (mem : List UInt8) (pos len starts : Nat) (freqs : List Nat) :
    Option (List UInt8 × List Nat × List Nat) := do
  let block := (mem.drop pos).take len
  -- std::reverse(block.begin(), block.end())
  let mem := blit mem pos block.reverse
  let next ← mem[pos + len]?
  -- *block.end() = 0
  let mem := mem.set (pos + len) 0
  let (u, lf, freqs) ← sorter ((mem.drop pos).take (len + 1)) (prepare len starts) freqs
  let mem := blit mem pos u
  -- *(block.begin() + LFpowers[0]) = *block.end()
  let p0 ← lf[0]?
  let last ← mem[pos + len]?
  let _ ← mem[pos + p0]?
  let mem := mem.set (pos + p0) last
  -- *block.end() = next
  return (mem.set (pos + len) next, lf, freqs)

/-! ## Sorting -/

theorem insertSuffix_perm (T : List UInt8) (a : Nat) (l : List Nat) :
    (insertSuffix T a l).Perm (a :: l) := by
  induction l with
  | nil => exact List.Perm.refl _
  | cons b l ih =>
    unfold insertSuffix
    split
    · exact List.Perm.refl _
    · exact (List.Perm.cons b ih).trans (List.Perm.swap a b l)

theorem lt_or_eq_or_gt (u v : List UInt8) : u < v ∨ u = v ∨ v < u := by
  by_cases h1 : u < v
  · exact Or.inl h1
  · by_cases h2 : v < u
    · exact Or.inr (Or.inr h2)
    · exact Or.inr (Or.inl (List.le_antisymm (List.not_lt.mp h2) (List.not_lt.mp h1)))

theorem drop_inj (T : List UInt8) {a b : Nat} (ha : a < T.length) (hb : b < T.length)
    (h : T.drop a = T.drop b) : a = b := by
  have := congrArg List.length h
  rw [List.length_drop, List.length_drop] at this
  omega

theorem insertSuffix_sorted (T : List UInt8) (a : Nat) (l : List Nat) (ha : a < T.length)
    (hl : ∀ b ∈ l, b < T.length) (hn : a ∉ l)
    (hs : l.Pairwise (fun a b => T.drop a < T.drop b)) :
    (insertSuffix T a l).Pairwise (fun a b => T.drop a < T.drop b) := by
  induction l with
  | nil => simp [insertSuffix]
  | cons b l ih =>
    obtain ⟨h1, h2⟩ := List.pairwise_cons.mp hs
    unfold insertSuffix
    split
    · rename_i hlt
      refine List.pairwise_cons.mpr ⟨?_, hs⟩
      intro c hc
      rcases List.mem_cons.mp hc with rfl | hc
      · exact hlt
      · exact List.lt_trans hlt (h1 c hc)
    · rename_i hlt
      refine List.pairwise_cons.mpr ⟨?_, ih (fun c hc => hl c (by simp [hc]))
        (fun hc => hn (by simp [hc])) h2⟩
      intro c hc
      rcases List.mem_cons.mp ((insertSuffix_perm T a l).mem_iff.mp hc) with rfl | hc
      · rcases lt_or_eq_or_gt (T.drop c) (T.drop b) with h | h | h
        · exact absurd h hlt
        · exact absurd (drop_inj T ha (hl b (by simp)) h) (fun e => hn (by simp [e]))
        · exact h
      · exact h1 c hc

theorem sort_aux (T : List UInt8) (l : List Nat) (hl : ∀ b ∈ l, b < T.length) (hn : l.Nodup) :
    (l.foldr (insertSuffix T) []).Perm l ∧
      (l.foldr (insertSuffix T) []).Pairwise (fun a b => T.drop a < T.drop b) := by
  induction l with
  | nil => exact ⟨List.Perm.refl _, List.Pairwise.nil⟩
  | cons a l ih =>
    obtain ⟨h1, h2⟩ := List.nodup_cons.mp hn
    obtain ⟨p, s⟩ := ih (fun b hb => hl b (by simp [hb])) h2
    refine ⟨(insertSuffix_perm T a _).trans (List.Perm.cons a p), ?_⟩
    apply insertSuffix_sorted T a _ (hl a (by simp)) _ _ s
    · intro b hb; exact hl b (by simp [p.mem_iff.mp hb])
    · intro hc; exact h1 (p.mem_iff.mp hc)

theorem sortSuffixes_sorted (T : List UInt8) : SortedSuffixes T (sortSuffixes T) :=
  sort_aux T _ (fun _ hb => List.mem_range.mp hb) List.nodup_range

theorem sorted_unique (T : List UInt8) (sa sa' : List Nat) (h : SortedSuffixes T sa)
    (h' : SortedSuffixes T sa') : sa = sa' := by
  apply List.Perm.eq_of_pairwise _ h.2 h'.2 (h.1.trans h'.1.symm)
  intro a b _ _ h1 h2
  exact absurd h2 (List.lt_asymm h1)

theorem sorted_isSA (w : List UInt8) (sa : List Nat) (h : SortedSuffixes (w ++ [0]) sa) :
    IsSA w sa := by
  obtain ⟨h1, h2⟩ := h
  have hlen : (w ++ [(0 : UInt8)]).length = w.length + 1 := by simp
  rw [hlen] at h1
  refine ⟨h1, ?_⟩
  refine List.Pairwise.imp_of_mem ?_ h2
  intro a b ha hb hab
  have ha := List.mem_range.mp (h1.mem_iff.mp ha)
  have hb := List.mem_range.mp (h1.mem_iff.mp hb)
  exact (sentinel_order w a b (by omega) (by omega)).mp hab

/-! ## The column -/

theorem column_spec (T : List UInt8) (ts : List UInt8) (sa : List Nat)
    (hl : ts.length = sa.length) (hs : ∀ s ∈ sa, s ≤ T.length) :
    ∃ u, column T ts sa = some u ∧ u.length = ts.length ∧
      (∀ j s : Nat, sa[j]? = some (s + 1) → u[j]? = T[s]?) ∧
      (∀ j : Nat, sa[j]? = some 0 → u[j]? = ts[j]?) := by
  induction ts generalizing sa with
  | nil =>
    cases sa with
    | nil => exact ⟨[], rfl, rfl, by simp, by simp⟩
    | cons a sa => simp at hl
  | cons t ts ih =>
    cases sa with
    | nil => simp at hl
    | cons a sa =>
      obtain ⟨u, h1, h2, h3, h4⟩ := ih sa (by simpa using hl) (fun s h => hs s (by simp [h]))
      by_cases ha : a = 0
      · refine ⟨t :: u, by simp [column, ha, h1], by simp [h2], ?_, ?_⟩
        · intro j s hj
          cases j with
          | zero => simp [ha] at hj
          | succ j => simpa using h3 j s (by simpa using hj)
        · intro j hj
          cases j with
          | zero => rfl
          | succ j => simpa using h4 j (by simpa using hj)
      · have hlt : a - 1 < T.length := by
          have := hs a (by simp)
          omega
        refine ⟨T[a - 1] :: u, ?_, by simp [h2], ?_, ?_⟩
        · simp [column, ha, h1, List.getElem?_eq_getElem hlt]
        · intro j s hj
          cases j with
          | zero =>
            simp only [List.getElem?_cons_zero, Option.some.injEq] at hj ⊢
            subst hj
            rw [List.getElem?_eq_getElem (by simpa using hlt)]
            simp
          | succ j => simpa using h3 j s (by simpa using hj)
        · intro j hj
          cases j with
          | zero => simp at hj; exact absurd hj ha
          | succ j => simpa using h4 j (by simpa using hj)

/-! ## Starting points -/

theorem recordAll_spec (n x nl : Nat) (hx : 1 ≤ x) (hn : x * nl ≤ n) (sa : List Nat) (row : Nat)
    (lf : List Nat) (hlf : lf.length = nl) (hs : ∀ s ∈ sa, s < n) (hnd : sa.Nodup) :
    ∃ lf', recordAll n x (n - x * nl) sa row lf = some lf' ∧ lf'.length = nl ∧
      ∀ id, 1 ≤ id → id < nl →
        (∀ j : Nat, sa[j]? = some (n - id * x) → lf'[id]? = some (row + j)) ∧
        (n - id * x ∉ sa → lf'[id]? = lf[id]?) := by
  have hidx : ∀ id, id < nl → id * x + x ≤ x * nl := by
    intro id hid
    have : (id + 1) * x ≤ nl * x := Nat.mul_le_mul_right _ hid
    rw [Nat.add_mul, Nat.one_mul, Nat.mul_comm nl] at this
    exact this
  induction sa generalizing row lf with
  | nil => exact ⟨lf, rfl, hlf, fun id _ _ => ⟨by simp, by simp⟩⟩
  | cons s sa ih =>
    obtain ⟨hd1, hd2⟩ := List.nodup_cons.mp hnd
    have hsn := hs s (by simp)
    unfold recordAll
    by_cases hc : 0 < s ∧ (n - s) % x = 0 ∧ n - x * nl + 1 ≤ s
    · obtain ⟨q, hq⟩ : ∃ q, (n - s) / x = q := ⟨_, rfl⟩
      have hqs : n - s = q * x := by
        have := Nat.div_add_mod (n - s) x
        rw [hq, hc.2.1, Nat.mul_comm] at this
        omega
      have hql : q < nl := by
        apply Decidable.byContradiction
        intro h'
        have : nl * x ≤ q * x := Nat.mul_le_mul_right _ (by omega)
        rw [Nat.mul_comm nl] at this
        omega
      have hrec : record n x (n - x * nl) lf row s = some (lf.set q row) := by
        unfold record
        rw [if_pos hc, hq, if_pos (by omega)]
      obtain ⟨lf', h1, h2, h3⟩ := ih (row + 1) (lf.set q row) (by simp [hlf])
        (fun s h => hs s (by simp [h])) hd2
      refine ⟨lf', by rw [hrec]; exact h1, h2, ?_⟩
      intro id hid1 hid2
      have := hidx id hid2
      obtain ⟨h4, h5⟩ := h3 id hid1 hid2
      refine ⟨?_, ?_⟩
      · intro j hj
        cases j with
        | zero =>
          simp only [List.getElem?_cons_zero, Option.some.injEq] at hj
          have hqid : q = id := by
            have : q * x = id * x := by omega
            exact Nat.eq_of_mul_eq_mul_right (by omega) this
          have hnin : n - id * x ∉ sa := by rw [← hj]; exact hd1
          rw [h5 hnin, hqid, List.getElem?_set, if_pos rfl, if_pos (by omega)]
          rfl
        | succ j =>
          rw [h4 j (by simpa using hj)]
          congr 1; omega
      · intro hnin
        rw [h5 (fun h => hnin (by simp [h])), List.getElem?_set, if_neg]
        intro hqid
        apply hnin
        subst hqid
        have : n - q * x = s := by omega
        simp [this]
    · have hrec : record n x (n - x * nl) lf row s = some lf := by
        unfold record
        rw [if_neg hc]
      obtain ⟨lf', h1, h2, h3⟩ := ih (row + 1) lf hlf (fun s h => hs s (by simp [h])) hd2
      refine ⟨lf', by rw [hrec]; exact h1, h2, ?_⟩
      intro id hid1 hid2
      have := hidx id hid2
      obtain ⟨h4, h5⟩ := h3 id hid1 hid2
      have hne : s ≠ n - id * x := by
        intro he
        apply hc
        have : n - s = id * x := by omega
        refine ⟨by omega, by rw [this]; exact Nat.mul_mod_left _ _, by omega⟩
      refine ⟨?_, ?_⟩
      · intro j hj
        cases j with
        | zero => simp only [List.getElem?_cons_zero, Option.some.injEq] at hj; exact absurd hj hne
        | succ j =>
          rw [h4 j (by simpa using hj)]
          congr 1; omega
      · intro hnin
        exact h5 (fun h => hnin (by simp [h]))

/-! ## Character statistics -/

theorem foldl_modify {α : Type} (l : List α) (c : α → Bool) (g : α → Nat) (f : List Nat) (k : Nat) :
    (l.foldl (fun f a => if c a = true then f.modify (g a) (· + 1) else f) f)[k]? =
      f[k]?.map (· + l.countP (fun a => c a && decide (g a = k))) := by
  induction l generalizing f with
  | nil => simp
  | cons a l ih =>
    rw [List.foldl_cons, ih, List.countP_cons]
    cases h : c a
    · simp
    · simp only [if_true, Bool.true_and, decide_eq_true_eq]
      rw [List.getElem?_modify]
      cases f[k]? with
      | none => simp
      | some v =>
        simp only [Option.map_some, Option.some.injEq, Option.map_eq_map]
        split <;> omega

theorem foldl_modify_length {α : Type} (l : List α) (c : α → Bool) (g : α → Nat) (f : List Nat) :
    (l.foldl (fun f a => if c a = true then f.modify (g a) (· + 1) else f) f).length = f.length := by
  induction l generalizing f with
  | nil => rfl
  | cons a l ih =>
    rw [List.foldl_cons, ih]
    split <;> simp

theorem modify_sum (f : List Nat) (k : Nat) (hk : k < f.length) :
    (f.modify k (· + 1)).sum = f.sum + 1 := by
  induction f generalizing k with
  | nil => simp at hk
  | cons a f ih =>
    cases k with
    | zero => simp [List.modify]; omega
    | succ k =>
      rw [List.modify_succ_cons, List.sum_cons, ih k (by simpa using hk), List.sum_cons]
      omega

theorem foldl_modify_sum {α : Type} (l : List α) (c : α → Bool) (g : α → Nat) (f : List Nat)
    (hg : ∀ a ∈ l, g a < f.length) :
    (l.foldl (fun f a => if c a = true then f.modify (g a) (· + 1) else f) f).sum =
      f.sum + l.countP c := by
  induction l generalizing f with
  | nil => simp
  | cons a l ih =>
    rw [List.foldl_cons, ih, List.countP_cons]
    · split
      · rw [modify_sum f _ (hg a (by simp))]; omega
      · rfl
    · intro b hb
      have := hg b (by simp [hb])
      split
      · simpa using this
      · exact this

/-- The character statistics after the transform. -/
def StatsOK (w : List UInt8) (freqs freqs' : List Nat) : Prop :=
  freqs'.length = freqs.length ∧
  (∀ c : UInt8, freqs'[c.toNat]? = freqs[c.toNat]?.map (· + w.count c)) ∧
  freqs'.sum = freqs.sum + w.length

/-! ## The sorter -/

theorem sorter_spec (w : List UInt8) (hw : 1 ≤ w.length) (lf freqs : List Nat)
    (hl : 1 ≤ lf.length) (hl2 : lf.length = 1 ∨ lf.length ≤ w.length + 1)
    (hf : freqs.length = 256) :
    ∃ u lf' freqs', sorter (w ++ [0]) lf freqs = some (u, lf', freqs') ∧
      IsBWT w (sortSuffixes (w ++ [0])) u (rk w 0) ∧ lf'.length = lf.length ∧
      StartsOK w lf' ∧ (∀ v ∈ lf', v ≤ w.length) ∧ StatsOK w freqs freqs' := by
  obtain ⟨sa, hsa⟩ : ∃ sa, sa = sortSuffixes (w ++ [0]) := ⟨_, rfl⟩
  have hsort : SortedSuffixes (w ++ [0]) sa := by rw [hsa]; exact sortSuffixes_sorted _
  have h : IsSA w sa := sorted_isSA w sa hsort
  have hTlen : (w ++ [(0 : UInt8)]).length = w.length + 1 := by simp
  obtain ⟨u, hu, hul, hu1, hu2⟩ := column_spec (w ++ [0]) (w ++ [0]) sa (by rw [hTlen, h.length])
    (by intro s hs; rw [hTlen]; have := h.mem.mp hs; omega)
  rw [hTlen] at hul
  have hfind : sa.findIdx? (· == 0) = some (rk w 0) := by
    rw [List.findIdx?_eq_some_iff_getElem]
    have h0 := h.at_rk (s := 0) (by omega)
    obtain ⟨h1, h2⟩ := List.getElem?_eq_some_iff.mp h0
    refine ⟨h1, by simp [h2], ?_⟩
    intro j hj hc
    have hj0 : sa[j]? = some 0 := by
      rw [List.getElem?_eq_getElem (by omega)]
      simpa using hc
    have := h.index_eq hj0
    omega
  have hbwt : IsBWT w sa u (rk w 0) := by
    refine ⟨hul, h.at_rk (by omega), ?_⟩
    intro j s hj
    rw [hu1 j s hj]
    have : s + 1 ≤ w.length := h.mem.mp (List.mem_of_getElem? hj)
    rw [List.getElem?_append_left (by omega)]
  have hnd : sa.Nodup := h.1.nodup_iff.mpr List.nodup_range
  -- the starting points
  obtain ⟨lf1, hlf1, hlen1, hst⟩ : ∃ lf1, (if lf.length ≤ 1 then some lf
      else if (w.length + 1) / lf.length = 0 then none
      else recordAll (w.length + 1) ((w.length + 1) / lf.length)
        (w.length + 1 - (w.length + 1) / lf.length * lf.length) sa 0 lf) = some lf1 ∧
      lf1.length = lf.length ∧ (2 ≤ lf.length → ∀ id, 1 ≤ id → id < lf.length →
        lf1[id]? = some (rk w (w.length + 1 - id * ((w.length + 1) / lf.length)))) := by
    by_cases h1 : lf.length ≤ 1
    · exact ⟨lf, by rw [if_pos h1], rfl, fun hc => by omega⟩
    · have hx : 1 ≤ (w.length + 1) / lf.length :=
        (Nat.le_div_iff_mul_le (by omega)).mpr (by omega)
      have hmul : (w.length + 1) / lf.length * lf.length ≤ w.length + 1 := Nat.div_mul_le_self _ _
      obtain ⟨lf1, r1, r2, r3⟩ := recordAll_spec (w.length + 1) ((w.length + 1) / lf.length)
        lf.length hx hmul sa 0 lf rfl (fun s hs => by have := h.mem.mp hs; omega) hnd
      refine ⟨lf1, by rw [if_neg h1, if_neg (by omega)]; exact r1, r2, ?_⟩
      intro _ id hid1 hid2
      have hidx : id * ((w.length + 1) / lf.length) ≥ 1 := Nat.mul_pos hid1 hx
      have := (r3 id hid1 hid2).1 (rk w (w.length + 1 - id * ((w.length + 1) / lf.length)))
        (h.at_rk (by omega))
      simpa using this
  obtain ⟨fr, hfr⟩ : ∃ fr, fr = u.zipIdx.foldl
        (fun f cp => if cp.2 ≠ rk w 0 then f.modify cp.1.toNat (· + 1) else f) freqs := ⟨_, rfl⟩
  refine ⟨u, lf1.set 0 (rk w 0), fr, ?_, by rw [← hsa]; exact hbwt, by simp [hlen1], ?_, ?_, ?_⟩
  · unfold sorter
    rw [if_neg (by rw [hTlen]; omega)]
    simp only [← hsa, hfind, Option.bind_eq_bind, Option.bind_some, hTlen]
    by_cases h1 : lf.length ≤ 1
    · rw [if_pos h1] at hlf1 ⊢
      cases hlf1
      rw [if_neg (by omega), hu, hfr]; rfl
    · rw [if_neg h1] at hlf1 ⊢
      by_cases h2 : (w.length + 1) / lf.length = 0
      · rw [if_pos h2] at hlf1; cases hlf1
      · rw [if_neg h2] at hlf1 ⊢
        rw [hlf1]
        simp only [Option.bind_some]
        rw [if_neg (by omega), hu, hfr]; rfl
  · refine ⟨by simp [hlen1, hl], ?_, ?_⟩
    · rw [List.getElem?_set, if_pos rfl, if_pos (by omega)]
    · intro _ id hid1 hid2
      rw [List.length_set] at hid2 ⊢
      rw [List.getElem?_set, if_neg (by omega), hlen1]
      exact hst (by omega) id hid1 (by omega)
  · have hrk : ∀ s, s ≤ w.length → rk w s ≤ w.length := by
      intro s hs
      have := h.rk_lt hs
      rw [h.length] at this
      omega
    intro v hv
    obtain ⟨id, hid, hv⟩ := List.mem_iff_getElem.mp hv
    rw [List.length_set] at hid
    rw [List.getElem_set] at hv
    split at hv
    · rw [← hv]; exact hrk 0 (by omega)
    · have h2 := hst (by omega) id (by omega) (by omega)
      rw [List.getElem?_eq_getElem hid, hv] at h2
      cases h2
      have hx : 1 ≤ (w.length + 1) / lf.length :=
        (Nat.le_div_iff_mul_le (by omega)).mpr (by omega)
      have hidx : id * ((w.length + 1) / lf.length) ≥ 1 := Nat.mul_pos (by omega) hx
      exact hrk _ (by omega)
  · have hf1 := foldl_modify u.zipIdx (fun cp => decide (cp.2 ≠ rk w 0)) (fun cp => cp.1.toNat) freqs
    have hf2 := foldl_modify_length u.zipIdx (fun cp => decide (cp.2 ≠ rk w 0))
      (fun cp => cp.1.toNat) freqs
    have hf3 := foldl_modify_sum u.zipIdx (fun cp => decide (cp.2 ≠ rk w 0))
      (fun cp => cp.1.toNat) freqs (by
        intro a _
        have := a.1.toNat_lt
        rw [hf]; exact this)
    simp only [decide_eq_true_eq] at hf1 hf2 hf3
    rw [← hfr] at hf1 hf2 hf3
    refine ⟨hf2, ?_, ?_⟩
    · intro c
      rw [hf1 c.toNat]
      have hk := countRaw_eq h hbwt (c.toNat + 1)
      rw [countRaw_apply] at hk
      have e1 : w.count c = w.countP (fun x => decide (c.toNat + 1 = x.toNat + 1)) := by
        rw [List.count_eq_countP]
        apply List.countP_congr
        intro x _
        simp only [beq_iff_eq, decide_eq_true_eq]
        rw [← UInt8.toNat_inj]; omega
      have e2 : u.zipIdx.countP (fun a => decide (a.2 ≠ rk w 0) && decide (a.1.toNat = c.toNat)) =
          u.zipIdx.countP (fun cp => decide (cp.2 ≠ rk w 0) &&
            decide (c.toNat + 1 = cp.1.toNat + 1)) := by
        apply List.countP_congr
        intro x _
        simp only [Bool.and_eq_true, decide_eq_true_eq]
        constructor
        · rintro ⟨a, b⟩; exact ⟨a, by omega⟩
        · rintro ⟨a, b⟩; exact ⟨a, by omega⟩
      rw [e1, e2]
      have : u.zipIdx.countP (fun cp => decide (cp.2 ≠ rk w 0) &&
            decide (c.toNat + 1 = cp.1.toNat + 1)) =
          w.countP (fun x => decide (c.toNat + 1 = x.toNat + 1)) := by
        simp only [Nat.add_eq_zero_iff, Nat.one_ne_zero, and_false, if_false, Nat.zero_add] at hk
        exact hk
      rw [this]
    · rw [hf3]
      congr 1
      have hpp : u.zipIdx.countP (fun cp => decide (cp.2 ≠ rk w 0)) =
          sa.countP (fun s => decide (0 < s)) := by
        apply countP_pointwise
        intro i
        rw [List.getElem?_zipIdx]
        by_cases hi : i < w.length + 1
        · obtain ⟨s, hs, hsw, hr⟩ := row_cases h hi
          rw [hs, List.getElem?_eq_getElem (by omega)]
          simp only [Option.map_some, Nat.zero_add, Option.some.injEq, hr, decide_eq_decide]
          constructor
          · intro hne
            apply Nat.pos_of_ne_zero
            intro h0; rw [h0] at hne; exact hne rfl
          · intro hpos he
            have := h.rk_inj hsw (by omega) he
            omega
        · have h1 : u[i]? = none := by rw [List.getElem?_eq_none_iff, hul]; omega
          have h2 : sa[i]? = none := by rw [List.getElem?_eq_none_iff, h.length]; omega
          simp [h1, h2]
      rw [hpp, ← h.countP_range, List.range_succ_eq_map, List.countP_cons, List.countP_map]
      simp [Function.comp_def]

/-! ## In place -/

theorem zipIdx_countP (l : List UInt8) (k i : Nat) (p : UInt8 → Bool) (hi : i < l.length) :
    (l.zipIdx k).countP (fun cp => decide (cp.2 ≠ k + i) && p cp.1) +
      (if p l[i] = true then 1 else 0) = l.countP p := by
  have hge : ∀ (l : List UInt8) (k m : Nat), m < k →
      (l.zipIdx k).countP (fun cp => decide (cp.2 ≠ m) && p cp.1) = l.countP p := by
    intro l
    induction l with
    | nil => intros; rfl
    | cons a l ih =>
      intro k m hm
      rw [List.zipIdx_cons, List.countP_cons, List.countP_cons, ih (k + 1) m (by omega)]
      have : k ≠ m := by omega
      simp [this]
  induction l generalizing k i with
  | nil => simp at hi
  | cons a l ih =>
    rw [List.zipIdx_cons, List.countP_cons, List.countP_cons]
    cases i with
    | zero =>
      rw [Nat.add_zero, hge l (k + 1) k (by omega)]
      simp
    | succ i =>
      have := ih (k + 1) i (by simpa using hi)
      rw [show k + 1 + i = k + (i + 1) by omega] at this
      have hk : k ≠ k + (i + 1) := by omega
      simp only [List.getElem_cons_succ, ne_eq] at this ⊢
      simp only [hk, not_false_iff, decide_true, Bool.true_and]
      omega

/-- The stored block: the row of the whole text is overwritten by the last row. -/
def stored (u : List UInt8) (e : Nat) (last : UInt8) : List UInt8 :=
  (u.set e last).take (u.length - 1)

theorem stored_append {u : List UInt8} {e : Nat} {last : UInt8} (hl : 1 ≤ u.length)
    (hu : u[u.length - 1]? = some last) :
    u.set e last = stored u e last ++ [last] := by
  unfold stored
  have : (u.set e last)[u.length - 1]? = some last := by
    rw [List.getElem?_set]
    split
    · rw [if_pos (by omega)]
    · exact hu
  conv => lhs; rw [← List.take_append_drop (u.length - 1) (u.set e last)]
  congr 1
  obtain ⟨h1, h2⟩ := List.getElem?_eq_some_iff.mp this
  rw [List.drop_eq_getElem_cons h1, h2, List.drop_eq_nil_of_le (by simp; omega)]

theorem stored_length {u : List UInt8} {e : Nat} {last : UInt8} :
    (stored u e last).length = u.length - 1 := by
  unfold stored; simp

theorem stored_isBWT {w : List UInt8} {sa : List Nat} {u : List UInt8} {e : Nat}
    (h : IsSA w sa) (hb : IsBWT w sa u e) {last x : UInt8} (hu : u[w.length]? = some last)
    {next : UInt8} (hx : (stored u e last ++ [next])[e]? = some x) :
    IsBWT w sa (stored u e last ++ [x]) e := by
  have hul := hb.1
  have hsl : (stored u e last).length = w.length := by rw [stored_length, hul]; omega
  have hst := stored_append (e := e) (last := last) (u := u) (by omega)
    (by rw [hul]; exact hu)
  refine ⟨by rw [List.length_append, hsl]; rfl, hb.2.1, ?_⟩
  intro j s hj
  have hjl : j < w.length + 1 := by
    rw [← h.length]; exact (List.getElem?_eq_some_iff.mp hj).1
  have hje : e ≠ j := by
    intro he
    rw [← he, hb.2.1] at hj
    simp at hj
  rw [← hb.2.2 j s hj]
  by_cases hjw : j < w.length
  · rw [List.getElem?_append_left (by omega)]
    have : (u.set e last)[j]? = u[j]? := by rw [List.getElem?_set, if_neg hje]
    rw [← this, hst, List.getElem?_append_left (by omega)]
  · have hjw : j = w.length := by omega
    subst hjw
    rw [List.getElem?_append_right (by omega), hsl, Nat.sub_self, List.getElem?_cons_zero]
    have hew : e < w.length := by
      have : e < sa.length := (List.getElem?_eq_some_iff.mp hb.2.1).1
      rw [h.length] at this
      omega
    rw [List.getElem?_append_left (by omega)] at hx
    have h2 : (u.set e last)[e]? = some last := by
      rw [List.getElem?_set, if_pos rfl, if_pos (by omega)]
    rw [hst, List.getElem?_append_left (by omega), hx] at h2
    rw [h2, hu]

theorem stored_perm {w : List UInt8} {sa : List Nat} {u : List UInt8} {e : Nat}
    (h : IsSA w sa) (hb : IsBWT w sa u e) {last : UInt8} (hu : u[w.length]? = some last) :
    (stored u e last).Perm w := by
  rw [List.perm_iff_count]
  intro c
  have hul := hb.1
  have hel : e < u.length := by
    rw [hul, ← h.length]; exact (List.getElem?_eq_some_iff.mp hb.2.1).1
  have h1 := congrArg (List.count c) (stored_append (e := e) (last := last) (u := u) (by omega)
    (by rw [hul]; exact hu))
  have h2 := countRaw_eq h hb (c.toNat + 1)
  rw [countRaw_apply] at h2
  have h3 := zipIdx_countP u 0 e (fun x => decide (c.toNat + 1 = x.toNat + 1)) hel
  simp only [Nat.zero_add, Nat.add_eq_zero_iff, Nat.one_ne_zero, and_false, if_false] at h2 h3
  rw [h2] at h3
  have e1 : ∀ l : List UInt8, l.countP (fun x => decide (c.toNat + 1 = x.toNat + 1)) =
      l.count c := by
    intro l
    rw [List.count_eq_countP]
    apply List.countP_congr
    intro x _
    simp only [beq_iff_eq, decide_eq_true_eq]
    rw [← UInt8.toNat_inj]; omega
  rw [e1, e1] at h3
  rw [List.count_set hel, List.count_append] at h1
  have e2 : (if decide (c.toNat + 1 = u[e].toNat + 1) = true then 1 else 0) =
      (if (u[e] == c) = true then 1 else 0) := by
    by_cases hc : u[e] = c
    · simp [hc]
    · have : ¬ c.toNat + 1 = u[e].toNat + 1 := by
        intro h'
        apply hc
        rw [← UInt8.toNat_inj]; omega
      rw [decide_eq_false this]
      simp [hc]
  rw [e2] at h3
  have e3 : List.count c [last] = if (last == c) = true then 1 else 0 := by
    rw [List.count_cons]; simp
  rw [e3] at h1
  omega

theorem blit_mid (pre mid l post : List UInt8) (h : l.length = mid.length) :
    blit (pre ++ mid ++ post) pre.length l = pre ++ l ++ post := by
  unfold blit
  have h1 : (pre ++ mid ++ post).take pre.length = pre := by
    rw [List.append_assoc, List.take_left' rfl]
  have h2 : (pre ++ mid ++ post).drop (pre.length + l.length) = post := by
    rw [List.drop_left' (by simp [h])]
  rw [h1, h2]

theorem slice_mid (pre mid post : List UInt8) :
    ((pre ++ mid ++ post).drop pre.length).take mid.length = mid := by
  rw [List.append_assoc, List.drop_left' rfl, List.take_left' rfl]

theorem prepare_length (len starts : Nat) :
    1 ≤ (prepare len starts).length ∧ (prepare len starts).length ≤ 256 ∧
      ((prepare len starts).length = 1 ∨ (prepare len starts).length ≤ len + 1) := by
  unfold prepare
  split
  · rw [List.length_replicate]; omega
  · split
    · rw [List.length_replicate]; omega
    · rw [List.length_replicate]; omega

/-- Transforming a slice in place. -/
theorem transform_isBWT (slice : List UInt8) (starts : Nat) (freqs : List Nat)
    (hne : slice ≠ []) (hf : freqs.length = 256) :
    ∃ slice' lf freqs', (∀ pre next post,
      transform (pre ++ slice ++ next :: post) pre.length slice.length starts freqs =
        some (pre ++ slice' ++ next :: post, lf, freqs')) ∧
      slice'.Perm slice ∧ lf.length = (prepare slice.length starts).length ∧
      StartsOK slice.reverse lf ∧ (∀ v ∈ lf, v ≤ slice.length) ∧
      StatsOK slice.reverse freqs freqs' ∧
      (∀ x, ∃ z, inverseBlock slice' x lf = some (slice, z)) ∧
      ∃ sa, IsSA slice.reverse sa ∧ ∀ x, ∃ y, (slice' ++ [x])[rk slice.reverse 0]? = some y ∧
        IsBWT slice.reverse sa (slice' ++ [y]) (rk slice.reverse 0) := by
  obtain ⟨w, hw⟩ : ∃ w, w = slice.reverse := ⟨_, rfl⟩
  have hwl : w.length = slice.length := by rw [hw]; simp
  have hws : w.reverse = slice := by rw [hw]; simp
  have hpos : 1 ≤ w.length := by
    rw [hwl]; exact List.length_pos_iff.mpr hne
  obtain ⟨hp1, hp2, hp3⟩ := prepare_length slice.length starts
  obtain ⟨u, lf, freqs', hs, hb, hll, hst, hle, hfr⟩ := sorter_spec w hpos
    (prepare slice.length starts) freqs hp1 (by rw [hwl]; exact hp3) hf
  have h : IsSA w (sortSuffixes (w ++ [0])) := sorted_isSA w _ (sortSuffixes_sorted _)
  have hul := hb.1
  have hlast : u[w.length]? = some u[w.length] := List.getElem?_eq_getElem (by omega)
  have hel : rk w 0 < w.length + 1 := by rw [← h.length]; exact h.rk_lt (by omega)
  have hsl : (stored u (rk w 0) u[w.length]).length = w.length := by
    rw [stored_length, hul]; omega
  have hsa := stored_append (u := u) (e := rk w 0) (last := u[w.length]) (by omega)
    (by rw [show u.length - 1 = w.length by omega]; exact hlast)
  refine ⟨stored u (rk w 0) u[w.length], lf, freqs', ?_, ?_, hll, by rw [← hw]; exact hst,
    by rw [← hwl]; exact hle, by rw [← hw]; exact hfr, ?_, ?_⟩
  · intro pre next post
    unfold transform
    simp only [slice_mid, Option.bind_eq_bind]
    rw [blit_mid _ _ _ _ (by simp), ← hw]
    have g1 : (pre ++ w ++ next :: post)[pre.length + slice.length]? = some next := by
      rw [List.getElem?_append_right (by simp; omega)]
      simp [hwl]
    have g2 : (pre ++ w ++ next :: post).set (pre.length + slice.length) 0 =
        pre ++ (w ++ [0]) ++ post := by
      rw [List.set_append_right _ _ (by simp; omega)]
      simp [hwl]
    rw [g1]
    simp only [Option.bind_some]
    rw [g2, show slice.length + 1 = (w ++ [(0 : UInt8)]).length by simp [hwl], slice_mid, hs]
    simp only [Option.bind_some]
    rw [blit_mid _ _ _ _ (by simp [hul]), hst.2.1]
    simp only [Option.bind_some]
    have g3 : (pre ++ u ++ post)[pre.length + slice.length]? = some u[w.length] := by
      rw [List.append_assoc, List.getElem?_append_right (by omega),
        Nat.add_sub_cancel_left, List.getElem?_append_left (by omega), ← hwl]
      exact hlast
    have g4 : (pre ++ u ++ post)[pre.length + rk w 0]? = some u[rk w 0] := by
      rw [List.append_assoc, List.getElem?_append_right (by omega),
        Nat.add_sub_cancel_left, List.getElem?_append_left (by omega)]
      exact List.getElem?_eq_getElem _
    rw [g3]
    simp only [Option.bind_some]
    rw [g4]
    simp only [Option.bind_some]
    have g5 : ((pre ++ u ++ post).set (pre.length + rk w 0) u[w.length]).set
        (pre.length + slice.length) next =
        pre ++ stored u (rk w 0) u[w.length] ++ next :: post := by
      have e1 : (pre ++ u ++ post).set (pre.length + rk w 0) u[w.length] =
          (pre ++ stored u (rk w 0) u[w.length]) ++ u[w.length] :: post := by
        rw [List.append_assoc, List.set_append_right _ _ (by omega), Nat.add_sub_cancel_left,
          List.set_append_left _ _ (by omega), hsa]
        simp
      rw [e1, ← hwl, List.set_append_right _ _ (by rw [List.length_append, hsl]; omega),
        List.length_append, hsl, Nat.sub_self]
      simp
    rw [g5]; rfl
  · have := stored_perm h hb hlast
    exact this.trans (by rw [hw]; exact List.reverse_perm slice)
  · intro x
    have hyl : rk w 0 < (stored u (rk w 0) u[w.length] ++ [x]).length := by
      rw [List.length_append, hsl]; exact hel
    obtain ⟨y, hy⟩ : ∃ y, (stored u (rk w 0) u[w.length] ++ [x])[rk w 0]? = some y :=
      ⟨_, List.getElem?_eq_getElem hyl⟩
    have hb' := stored_isBWT h hb hlast hy
    obtain ⟨z, hz⟩ := inverse_spec h hb' hpos hst
    refine ⟨z, ?_⟩
    unfold inverseBlock
    rw [hst.2.1]
    simp only [Option.bind_eq_bind, Option.bind_some]
    rw [hy]
    simp only [Option.bind_some]
    rw [hz]
    simp only [Option.bind_some]
    rw [hsl, List.getElem?_append_right (by simp), List.length_reverse, Nat.sub_self,
      List.getElem?_cons_zero, List.take_left' (by simp), hws]
    rfl
  · rw [← hw]
    refine ⟨_, h, fun x => ?_⟩
    have hyl : rk w 0 < (stored u (rk w 0) u[w.length] ++ [x]).length := by
      rw [List.length_append, hsl]; exact hel
    exact ⟨_, List.getElem?_eq_getElem hyl, stored_isBWT h hb hlast (List.getElem?_eq_getElem hyl)⟩

theorem transform_spec (slice : List UInt8) (starts : Nat) (freqs : List Nat)
    (hne : slice ≠ []) (hf : freqs.length = 256) :
    ∃ slice' lf freqs', (∀ pre next post,
      transform (pre ++ slice ++ next :: post) pre.length slice.length starts freqs =
        some (pre ++ slice' ++ next :: post, lf, freqs')) ∧
      slice'.Perm slice ∧ lf.length = (prepare slice.length starts).length ∧
      StartsOK slice.reverse lf ∧ (∀ v ∈ lf, v ≤ slice.length) ∧
      StatsOK slice.reverse freqs freqs' ∧
      (∀ x, ∃ z, inverseBlock slice' x lf = some (slice, z)) := by
  obtain ⟨s, lf, fr, h1, h2, h3, h4, h5, h6, h7, _⟩ := transform_isBWT slice starts freqs hne hf
  exact ⟨s, lf, fr, h1, h2, h3, h4, h5, h6, h7⟩

/-- An empty slice stays as it is. -/
theorem transform_empty (starts : Nat) (freqs : List Nat) (pre : List UInt8) (next : UInt8)
    (post : List UInt8) :
    transform (pre ++ [] ++ next :: post) pre.length 0 starts freqs =
      some (pre ++ [] ++ next :: post, [0], freqs) := by
  have hprep : prepare 0 starts = [0] := by unfold prepare; rw [if_pos (by omega)]; rfl
  unfold transform
  have hb : blit (pre ++ [] ++ next :: post) pre.length
      ((pre ++ [] ++ next :: post).drop pre.length |>.take 0).reverse = pre ++ next :: post := by
    unfold blit
    simp
  simp only [hb, Option.bind_eq_bind, Nat.add_zero]
  have g1 : (pre ++ next :: post)[pre.length]? = some next := by
    rw [List.getElem?_append_right (Nat.le_refl _)]; simp
  have g2 : (pre ++ next :: post).set pre.length 0 = pre ++ [0] ++ post := by
    rw [List.set_append_right _ _ (Nat.le_refl _)]; simp
  rw [g1]
  simp only [Option.bind_some]
  rw [g2, hprep]
  have g3 : ((pre ++ [(0 : UInt8)] ++ post).drop pre.length).take (0 + 1) = [0] :=
    slice_mid pre [0] post
  rw [g3]
  have g4 : sorter [0] [0] freqs = some ([0], [0], freqs) := rfl
  rw [g4]
  simp only [Option.bind_some, List.getElem?_cons_zero]
  rw [blit_mid pre [0] [0] post rfl]
  have g5 : (pre ++ [(0 : UInt8)] ++ post)[pre.length]? = some 0 := by
    rw [List.append_assoc, List.getElem?_append_right (Nat.le_refl _)]; simp
  rw [g5]
  simp only [Option.bind_some, Nat.add_zero]
  rw [g5]
  simp only [Option.bind_some]
  have g6 : ((pre ++ [(0 : UInt8)] ++ post).set pre.length 0).set pre.length next =
      pre ++ [] ++ next :: post := by
    rw [List.append_assoc, List.set_append_right _ _ (Nat.le_refl _),
      List.set_append_right _ _ (Nat.le_refl _)]
    simp
  rw [g6]; rfl

end Bwtc.FwdBWT
