import Verif.DivsufHeap
import Verif.SaisHeapProof
import Verif.Props.Divsuf

/-!
# C73: divsufsort when memory runs out
-/

set_option autoImplicit false

namespace Bwtc.Props
open Sais (Heap new delete access cells)

/-- The full claim C73: whichever requests fail, a block that `BWTransform::doTransform` returns as transformed can be transformed back. -/
def C73_claim : Prop := ∀ (ok : Nat → Bool) (mem : List Int) (pre block post data : List UInt8) (next : UInt8) (starts : Nat) (lf freqs : List Nat) (h : Heap),
  block ≠ [] → block.length ≤ 21137958 → block.length + 1 ≤ mem.length → data.length = block.length →
  DivsufHeap.transform Ss.sssort (Tr.trsort Tr.stackSize) ok mem (pre ++ block ++ next :: post) pre.length block.length starts (List.replicate 256 0) Heap.empty =
    some ((pre ++ data ++ next :: post, lf, freqs), h) → ∀ x, ∃ z, InvBWT.inverseBlock data x lf = some (block, z)

/-- The three arrays are released again, whichever of them could be allocated; if all could, the result is that of `Divsuf.divbwtf`, otherwise the text as it was. -/
theorem C73_released (ss : Divsuf.SsSort) (tr : Divsuf.TrSort) (ok : Nat → Bool) (T : List UInt8) (mem : List Int) (lf freqs : List Nat) (h : Heap) (hT : 2 ≤ T.length) :
    ∃ h', h'.live = h.live ∧ h'.reqs = h.reqs + 3 ∧ h'.peak ≤ max h.peak (cells h.live + T.length + 65793) ∧ DivsufHeap.divbwtf ss tr ok T mem lf freqs h =
      (if ok h.reqs && ok (h.reqs + 1) && ok (h.reqs + 2) then (Divsuf.divbwtf ss tr T mem lf freqs).map (·, h') else some ((T, lf, freqs), h')) := by
  have del : ∀ (p k q pk : Nat) (L : List (Nat × Nat)), delete (some p) ⟨q, (p, k) :: L, pk⟩ = some ⟨q, L, pk⟩ := fun p k q pk L =>
    Sais.delete_at (X := []) (by intro a ha; cases ha)
  have acc : ∀ (p k q pk : Nat) (X L : List (Nat × Nat)), access (some p) ⟨q, X ++ (p, k) :: L, pk⟩ = some () := fun p k q pk X L => Sais.access_at
  have nul : ∀ h : Heap, delete none h = some h := fun _ => rfl
  obtain ⟨q, L, pk⟩ := h
  rw [DivsufHeap.divbwtf, if_neg (by omega)]
  have run : ∀ {α : Type} (o : Option α) (x : Heap), (o.bind fun r => some (r, x)) = o.map (·, x) := by
    intro α o x
    cases o <;> rfl
  generalize Divsuf.divbwtf ss tr T mem lf freqs = res
  cases k1 : ok q <;> cases k2 : ok (q + 1) <;> cases k3 : ok (q + 1 + 1) <;>
    simp only [new, k1, k2, k3, if_true, if_false, Bool.false_eq_true, Option.isSome_some, Option.isSome_none, Bool.and_true, Bool.and_false, Bool.false_and, Bool.true_and,
      Option.bind_eq_bind, Option.bind_some, del, nul, Option.pure_def, show q + 2 = q + 1 + 1 from rfl]
  case true.true.true =>
    have a1 := acc q (T.length + 1) (q + 1 + 1 + 1) (max (max (max pk (T.length + 1 + cells L)) (256 + cells ((q, T.length + 1) :: L))) (65536 + cells ((q + 1, 256) :: (q, T.length + 1) :: L)))
      [(q + 1 + 1, 65536), (q + 1, 256)] L
    have a2 := acc (q + 1) 256 (q + 1 + 1 + 1) (max (max (max pk (T.length + 1 + cells L)) (256 + cells ((q, T.length + 1) :: L))) (65536 + cells ((q + 1, 256) :: (q, T.length + 1) :: L)))
      [(q + 1 + 1, 65536)] ((q, T.length + 1) :: L)
    have a3 := acc (q + 1 + 1) 65536 (q + 1 + 1 + 1) (max (max (max pk (T.length + 1 + cells L)) (256 + cells ((q, T.length + 1) :: L))) (65536 + cells ((q + 1, 256) :: (q, T.length + 1) :: L)))
      [] ((q + 1, 256) :: (q, T.length + 1) :: L)
    simp only [List.cons_append, List.nil_append] at a1 a2 a3
    simp only [a1, a2, a3, Option.bind_some, run]
    refine ⟨_, ?_, ?_, ?_, rfl⟩
    · rfl
    · rfl
    · simp only [cells]; omega
  all_goals
    refine ⟨_, ?_, ?_, ?_, rfl⟩
    · rfl
    · rfl
    · simp only [cells]; omega

/-- The hypothesis can be met, and the second request may fail. -/
example : ∃ h', h'.live = [(0, 5)] ∧ DivsufHeap.divbwtf Ss.sssort (Tr.trsort Tr.stackSize) (fun i => i != 2) [98, 97, 0] [0, 0, 0] [0] [] ⟨1, [(0, 5)], 5⟩ = some (([98, 97, 0], [0], []), h') := by
  obtain ⟨h', h1, -, -, h2⟩ := C73_released Ss.sssort (Tr.trsort Tr.stackSize) (fun i => i != 2) [98, 97, 0] [0, 0, 0] [0] [] ⟨1, [(0, 5)], 5⟩ (by decide)
  exact ⟨h', h1, h2⟩

/-- The memory when the sorter is called, and the text it is given. -/
theorem around (pre block post : List UInt8) (next : UInt8) :
    FwdBWT.blit (pre ++ block ++ next :: post) pre.length ((List.drop pre.length (pre ++ block ++ next :: post)).take block.length).reverse = pre ++ block.reverse ++ next :: post ∧
    (∀ z : UInt8, (pre ++ block.reverse ++ z :: post)[pre.length + block.length]? = some z) ∧
    (∀ z y : UInt8, (pre ++ block.reverse ++ z :: post).set (pre.length + block.length) y = pre ++ block.reverse ++ y :: post) ∧
    (List.drop pre.length (pre ++ block.reverse ++ 0 :: post)).take (block.length + 1) = block.reverse ++ [0] := by
  refine ⟨?_, fun z => ?_, fun z y => ?_, ?_⟩
  · have e1 : List.take block.length (List.drop pre.length (pre ++ block ++ next :: post)) = block := by
      rw [List.append_assoc pre, List.drop_left, List.take_left]
    rw [e1]
    exact FwdBWT.blit_mid _ _ _ _ (by simp)
  · rw [List.getElem?_append_right (by simp)]
    simp
  · rw [List.set_append_right _ _ (by simp)]
    simp
  · rw [List.append_assoc pre, List.drop_left]
    have h : block.length + 1 = (block.reverse ++ [0]).length := by simp
    have h2 : block.reverse ++ 0 :: post = (block.reverse ++ [0]) ++ post := by simp
    rw [h2, h, List.take_left]

/-- If all three requests succeed, the transform is that of C45, and nothing is held in the end. -/
theorem transform_enough (ss : Divsuf.SsSort) (tr : Divsuf.TrSort) (ok : Nat → Bool) (mem : List Int) (block : List UInt8) (starts : Nat) (freqs : List Nat) (hne : block ≠ [])
    (hok : ∀ i, i < 3 → ok i = true) : ∃ h : Heap, h.live = [] ∧ ∀ pre next post,
      DivsufHeap.transform ss tr ok mem (pre ++ block ++ next :: post) pre.length block.length starts freqs Heap.empty =
        (Divsuf.transform ss tr mem (pre ++ block ++ next :: post) pre.length block.length starts freqs).map (·, h) := by
  have hl : 0 < block.length := List.length_pos_iff.mpr hne
  obtain ⟨h', h1, -, -, h2⟩ := C73_released ss tr ok (block.reverse ++ [0]) mem (FwdBWT.prepare block.length starts) freqs Heap.empty (by simp; omega)
  refine ⟨h', h1, fun pre next post => ?_⟩
  obtain ⟨e1, e2, e3, e4⟩ := around pre block post next
  rw [if_pos (by rw [hok _ (show Heap.empty.reqs < 3 by decide), hok _ (show Heap.empty.reqs + 1 < 3 by decide), hok _ (show Heap.empty.reqs + 2 < 3 by decide)]; rfl)] at h2
  rw [DivsufHeap.transform, Divsuf.transform]
  simp only [e1, e2, e3, e4, h2, Option.bind_eq_bind, Option.bind_some]
  cases Divsuf.divbwtf ss tr (block.reverse ++ [0]) mem (FwdBWT.prepare block.length starts) freqs with
  | none => rfl
  | some r =>
    obtain ⟨u, lf, fr⟩ := r
    simp only [Option.map_some, Option.bind_some]
    generalize FwdBWT.blit (pre ++ block.reverse ++ 0 :: post) pre.length u = M
    cases lf[0]? with
    | none => rfl
    | some p0 =>
      simp only [Option.bind_some]
      cases M[pre.length + block.length]? with
      | none => rfl
      | some last =>
        simp only [Option.bind_some]
        cases M[pre.length + p0]? with
        | none => rfl
        | some _ => rfl

/-- C73 with enough memory: the block is transformed and can be transformed back, and nothing is held in the end. -/
theorem C73_enough_partial (ok : Nat → Bool) (mem : List Int) (block : List UInt8) (starts : Nat) (hne : block ≠ []) (hmax : block.length ≤ 21137958)
    (hc : block.length + 1 ≤ mem.length) (hok : ∀ i, i < 3 → ok i = true) :
    ∃ data lf freqs h, (∀ pre next post, DivsufHeap.transform Ss.sssort (Tr.trsort Tr.stackSize) ok mem (pre ++ block ++ next :: post) pre.length block.length starts
        (List.replicate 256 0) Heap.empty = some ((pre ++ data ++ next :: post, lf, freqs), h)) ∧ h.live = [] ∧
      ∀ x, ∃ z, InvBWT.inverseBlock data x lf = some (block, z) := by
  obtain ⟨data, lf, freqs, h1, _, _, _, _, _, h7⟩ := FwdBWT.transform_spec block starts (List.replicate 256 0) hne (by rw [List.length_replicate])
  obtain ⟨h, h2, h3⟩ := transform_enough Ss.sssort (Tr.trsort Tr.stackSize) ok mem block starts (List.replicate 256 0) hne hok
  refine ⟨data, lf, freqs, h, fun pre next post => ?_, h2, h7⟩
  rw [h3, C45_same_as_sorting mem _ _ _ _ _ (List.length_pos_iff.mpr hne) hmax hc (by rw [List.length_replicate]; exact Nat.le_refl _), h1 pre next post]
  rfl

/-- What happens if one of the requests fails, for every block: nothing leaks and nothing is released twice, but the block counts as transformed: it is
reversed, its last byte replaced by 0, all starting points are 0, and nothing is counted. -/
theorem C73_silent (ok : Nat → Bool) (mem : List Int) (pre init post : List UInt8) (x next : UInt8) (starts : Nat) (freqs : List Nat) (i : Nat) (hi : i < 3) (hok : ok i = false) :
    ∃ h : Heap, h.live = [] ∧ DivsufHeap.transform Ss.sssort (Tr.trsort Tr.stackSize) ok mem (pre ++ (init ++ [x]) ++ next :: post) pre.length (init ++ [x]).length starts freqs Heap.empty =
      some ((pre ++ (0 :: init.reverse) ++ next :: post, FwdBWT.prepare (init.length + 1) starts, freqs), h) := by
  generalize hss : Ss.sssort = ss
  generalize htr : Tr.trsort Tr.stackSize = tr
  obtain ⟨h', h1, -, -, h2⟩ := C73_released ss tr ok ((init ++ [x]).reverse ++ [0]) mem (FwdBWT.prepare (init ++ [x]).length starts) freqs Heap.empty (by simp)
  refine ⟨h', h1, ?_⟩
  obtain ⟨e1, e2, e3, e4⟩ := around pre (init ++ [x]) post next
  rw [if_neg (by
    intro hc
    simp only [Heap.empty, Bool.and_eq_true] at hc
    have : i = 0 ∨ i = 1 ∨ i = 2 := by omega
    rcases this with rfl | rfl | rfl
    · rw [hok] at hc; exact absurd hc.1.1 Bool.false_ne_true
    · rw [hok] at hc; exact absurd hc.1.2 Bool.false_ne_true
    · rw [hok] at hc; exact absurd hc.2 Bool.false_ne_true)] at h2
  have e5 : FwdBWT.blit (pre ++ (init ++ [x]).reverse ++ 0 :: post) pre.length ((init ++ [x]).reverse ++ [0]) = pre ++ (init ++ [x]).reverse ++ 0 :: post := by
    have h := FwdBWT.blit_mid pre ((init ++ [x]).reverse ++ [0]) ((init ++ [x]).reverse ++ [0]) post rfl
    rw [← List.append_assoc, List.append_assoc _ [0]] at h
    exact h
  have e6 : ∃ l, FwdBWT.prepare (init ++ [x]).length starts = 0 :: l := by
    rw [FwdBWT.prepare]
    by_cases h : (init ++ [x]).length ≤ 256 ∨ starts = 0
    · rw [if_pos h]; exact ⟨_, rfl⟩
    · rw [if_neg h]
      by_cases h' : starts ≤ 256
      · rw [if_pos h']
        obtain ⟨s, rfl⟩ : ∃ s, starts = s + 1 := ⟨starts - 1, by omega⟩
        exact ⟨_, List.replicate_succ⟩
      · rw [if_neg h']; exact ⟨_, List.replicate_succ⟩
  obtain ⟨l, e6⟩ := e6
  have e7 : (pre ++ (init ++ [x]).reverse ++ 0 :: post)[pre.length + 0]? = some x := by simp
  have e8 : (pre ++ (init ++ [x]).reverse ++ 0 :: post).set (pre.length + 0) 0 = pre ++ (0 :: init.reverse) ++ 0 :: post := by simp
  have e9 : (pre ++ (0 :: init.reverse) ++ 0 :: post).set (pre.length + (init ++ [x]).length) next = pre ++ (0 :: init.reverse) ++ next :: post := by
    rw [List.set_append_right _ _ (by simp)]
    simp
  have e10 : FwdBWT.prepare (init.length + 1) starts = FwdBWT.prepare (init ++ [x]).length starts := by rw [List.length_append, List.length_singleton]
  rw [e6] at h2
  rw [DivsufHeap.transform, e10]
  simp only [e1, e2, e3, e4, h2, Option.bind_eq_bind, Option.bind_some, e5, e6, List.getElem?_cons_zero, e7, e8, e9]
  rfl

/-- C73 is false of the code: two different blocks have the same outcome. -/
theorem C73_fails : ¬ C73_claim := by
  intro h
  obtain ⟨h1, -, k1⟩ := C73_silent (fun _ => false) [0, 0] [] [] [] 97 0 1 (List.replicate 256 0) 0 (by decide) rfl
  obtain ⟨h2, -, k2⟩ := C73_silent (fun _ => false) [0, 0] [] [] [] 98 0 1 (List.replicate 256 0) 0 (by decide) rfl
  obtain ⟨z1, e1⟩ := h (fun _ => false) [0, 0] [] [97] [] [0] 0 1 _ _ h1 (by decide) (by decide) (by decide) rfl k1 0
  obtain ⟨z2, e2⟩ := h (fun _ => false) [0, 0] [] [98] [] [0] 0 1 _ _ h2 (by decide) (by decide) (by decide) rfl k2 0
  rw [e1, Option.some.injEq, Prod.mk.injEq] at e2
  exact absurd e2.1 (by decide)

/-- The hypotheses can be met: six bytes with enough memory. -/
example : ∃ data lf freqs h, (∀ pre next post, DivsufHeap.transform Ss.sssort (Tr.trsort Tr.stackSize) (fun _ => true) [0, 0, 0, 0, 0, 0, 0]
      (pre ++ [98, 97, 110, 97, 110, 97] ++ next :: post) pre.length 6 8 (List.replicate 256 0) Heap.empty = some ((pre ++ data ++ next :: post, lf, freqs), h)) ∧ h.live = [] ∧
    ∀ x, ∃ z, InvBWT.inverseBlock data x lf = some ([98, 97, 110, 97, 110, 97], z) :=
  C73_enough_partial _ _ _ _ (by decide) (by decide) (by decide) (fun _ _ => rfl)

end Bwtc.Props
