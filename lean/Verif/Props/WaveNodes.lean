import Verif.WaveNodesLife

/-!
# C68: every node of a wavelet tree is freed once
-/

set_option autoImplicit false

namespace Bwtc.Props

open WaveNodes

/-- All nodes allocated since `g` are deleted in `h`, and the older ones are as they were. -/
def AllFreed (g h : Heap) : Prop :=
  g.length ≤ h.length ∧ (∀ x, x < g.length → h[x]? = g[x]?) ∧ ∀ x, g.length ≤ x → x < h.length → ∃ c, h[x]? = some c ∧ c.live = false

theorem allFreed {g h h' : Heap} {r i : Nat} {fr fi : List Nat} (hi : Inv g h r i fr fi) (hk : Killed (fr ++ fi) h h') : AllFreed g h' := by
  obtain ⟨t, ht⟩ := hi.tr
  have hr := (hi.all r).mp (Or.inl ht.head)
  refine ⟨by rw [hk.len]; omega, fun x hx => ?_, fun x hx hx' => ?_⟩
  · rw [hk.rest x ?_, hi.old x hx]
    rw [List.mem_append, hi.all x]
    omega
  · rw [hk.len] at hx'
    rw [hk.dead x (by rw [List.mem_append, hi.all x]; exact ⟨hx, hx'⟩), List.getElem?_eq_getElem hx']
    exact ⟨_, rfl, rfl⟩

/-- C68, the encoder.  For every message for which codes can be chosen, whatever the floating-point comparisons yield and whatever is on
the heap: from the constructor over all pushed runs to the end of the destructor no deleted node is touched, no null pointer is followed,
nothing is deleted twice, and all nodes are deleted; nothing else on the heap changes. -/
theorem C68_encoder (cheap : Nat → Nat → Nat × Nat → Bool) (data : List UInt8) (hne : data ≠ []) (hlen : data.length < 2 ^ 32) (c : Wave.Codes)
    (hc : Wave.messageCodes cheap data = some c) (g : Heap) : ∃ h, messageLife cheap data g = some h ∧ AllFreed g h := by
  obtain ⟨_, h, _, _, _, _, a, b, d⟩ := messageLife_spec hne hlen hc g
  exact ⟨h, a, allFreed b d⟩

/-- A message with codes: the tree of its runs is built and destroyed, with 15 nodes. -/
example : ∃ h, messageLife (fun _ _ _ => false) [97, 97, 97, 98, 97, 97, 98, 98, 98] [] = some h ∧ AllFreed [] h := by
  have h : (Wave.messageCodes (fun _ _ _ => false) [97, 97, 97, 98, 97, 97, 98, 98, 98]).isSome = true := by decide +kernel
  obtain ⟨c, hc⟩ := Option.isSome_iff_exists.mp h
  exact C68_encoder _ _ (by decide) (by decide) c hc []

example : ((messageLife (fun _ _ _ => false) [97, 97, 97, 98, 97, 97, 98, 98, 98] []).map fun h => (h.length, h.map Cell.live)) =
    some (15, List.replicate 15 false) := by decide +kernel

/-- The pointers lead to the trees of the model without pointers. -/
theorem C68_same_tree (L : List (Nat × Nat)) (t : Wave.Sh) (ht : Wave.buildTree L = some t) (g : Heap) :
    ∃ h fp, newRoot L g = some (h, g.length) ∧ Rep h (some g.length) t fp ∧ fp.Nodup := by
  obtain ⟨h, k, a, _, b, _⟩ := newRoot_spec ht g
  exact ⟨h, _, a, b, List.nodup_range'⟩

example : ∃ t u, Wave.buildTree [(1, 97), (2, 98), (2, 99)] = some t ∧ Wave.buildTree [(1, 0), (1, 3)] = some u := ⟨_, _, rfl, rfl⟩

/-- C68 as one would want it for the decoder: whatever has been read, the destructor frees all nodes that were allocated, and no pointer
is followed that should not be. -/
def C68_claim : Prop :=
  (∀ g, ∃ h, destruct (constructEmpty g).2 (constructEmpty g).1 = some h ∧ AllFreed g h) ∧
  ∀ L I t u, Wave.buildTree L = some t → Wave.buildTree I = some u → Wave.RootOk t → ∀ w table rootSize fuel os g,
    decoderLife L I w table rootSize fuel os g ≠ .bad ∧ ∀ h, decoderLife L I w table rootSize fuel os g = .ok h → AllFreed g h

/-- C68, no shape read.  The destructor of a tree whose shape has not been read follows a null pointer, for every state of the heap. -/
theorem C68_unread (g : Heap) : destruct (constructEmpty g).2 (constructEmpty g).1 = none := by
  unfold destruct constructEmpty
  have e := new_new (h := g) (s := none)
  simp only [destroy, get_live e, Option.bind_eq_bind, Option.bind_some, Option.isSome_none, Bool.false_eq_true, if_false, Option.pure_def]

/-- C68, the decoder.  For all code trees, all numbers of ones that the decoder may find in the nodes and all states of the heap, except
ones in the root of a tree for a single symbol: no deleted node is touched, no null pointer is followed and nothing is deleted twice; when
the decoder comes to an end, all nodes are deleted but one, the root made by the constructor. -/
theorem C68_decoder_partial (L I : List (Nat × Nat)) (t u : Wave.Sh) (ht : Wave.buildTree L = some t) (hu : Wave.buildTree I = some u)
    (hroot : Wave.RootOk t) (w : Nat) (table : Bool) (rootSize fuel : Nat) (os : List Nat) (hos : FirstOk t os) (g : Heap) :
    decoderLife L I w table rootSize fuel os g ≠ .bad ∧ ∀ h, decoderLife L I w table rootSize fuel os g = .ok h →
      (∀ x, x < g.length → h[x]? = g[x]?) ∧ (∃ c, h[g.length]? = some c ∧ c.live = true) ∧
      ∀ x, g.length < x → x < h.length → ∃ c, h[x]? = some c ∧ c.live = false := by
  obtain ⟨a, b⟩ := decoderLife_spec ht hu hroot w table rootSize fuel os hos g
  refine ⟨a, fun h e => ?_⟩
  obtain ⟨h0, r, i, fr, fi, c1, c2⟩ := b h e
  obtain ⟨-, d2, d3⟩ := allFreed c1 c2
  have hl : (constructEmpty g).1.length = g.length + 1 := new_length
  refine ⟨fun x hx => ?_, ?_, fun x hx hx' => d3 x (by omega) hx'⟩
  · rw [d2 x (by omega)]
    exact new_old hx
  · rw [d2 g.length (by omega)]
    exact ⟨_, new_new, rfl⟩

/-- The decoder for three symbols and two run lengths of the table, which comes to an end: two ones in the root, and so on. -/
example : (match decoderLife [(1, 97), (2, 98), (2, 99)] [(1, 0), (1, 3)] 2 true 4 100 [2, 1, 1, 1, 1, 0, 0, 0, 0, 0, 0, 0, 0] [] with
    | .ok h => some (h.map Cell.live)
    | _ => none) = some (true :: List.replicate 15 false) := by decide +kernel

/-- C68, ones in the root of a tree for a single symbol make the decoder follow a null pointer, for every symbol and every heap. -/
theorem C68_one_symbol (L I : List (Nat × Nat)) (s : Nat) (u : Wave.Sh) (ht : Wave.buildTree L = some (.node none (.leaf s) .nil))
    (hu : Wave.buildTree I = some u) (w : Nat) (table : Bool) (rootSize fuel o : Nat) (ho : 0 < o) (os : List Nat) (g : Heap) :
    decoderLife L I w table rootSize fuel (o :: os) g = .bad := by
  obtain ⟨h, r, i, fr, fi, a1, a2, a3⟩ := construct_inv ht hu (constructEmpty g).1
  obtain ⟨lp, rp, fl, fr', b1, b2, b3, rfl⟩ := a3
  have hrp : rp = none := by
    cases rp with
    | none => rfl
    | some _ => exact b3.elim
  subst hrp
  have hk : 0 < min o (if rootSize = 0 then 1 else rootSize) := by
    by_cases e : rootSize = 0
    · rw [if_pos e]; omega
    · rw [if_neg e]; omega
  have hd : decodeTree w table (some i) r rootSize fuel (o :: os) h = .bad := by
    unfold decodeTree
    simp only
    rw [get_live b1]
    simp only
    rw [if_pos hk]
    have : rootChild (some i) h none (min o (if rootSize = 0 then 1 else rootSize)) = none := rfl
    rw [this]
    split
    · rename_i h2
      cases h2
    · rfl
  unfold decoderLife readShape
  rw [a1]
  simp only
  rw [hd]

example : Wave.buildTree [(1, 97)] = some (.node none (.leaf 97) .nil) := rfl

theorem C68_fails : ¬ C68_claim := by
  rintro ⟨h, _⟩
  obtain ⟨h2, e, _⟩ := h []
  rw [C68_unread] at e
  cases e

/-- C68, the leak.  For no code trees and no bits are all nodes freed by the decoder. -/
theorem C68_leak (L I : List (Nat × Nat)) (t u : Wave.Sh) (ht : Wave.buildTree L = some t) (hu : Wave.buildTree I = some u)
    (hroot : Wave.RootOk t) (w : Nat) (table : Bool) (rootSize fuel : Nat) (os : List Nat) (hos : FirstOk t os) (g : Heap) :
    ¬ ∃ h, decoderLife L I w table rootSize fuel os g = .ok h ∧ AllFreed g h := by
  rintro ⟨h, e, a⟩
  obtain ⟨-, ⟨c, b1, b2⟩, -⟩ := (C68_decoder_partial L I t u ht hu hroot w table rootSize fuel os hos g).2 h e
  obtain ⟨c', d1, d2⟩ := a.2.2 g.length (Nat.le_refl _) (List.getElem?_eq_some_iff.mp b1).1
  rw [b1] at d1
  cases d1
  rw [b2] at d2
  cases d2

end Bwtc.Props
