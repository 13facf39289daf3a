import Mathlib.Data.List.Perm.Subperm
import Verif.WaveNodesProof

/-!
# The wavelet tree stays a tree while it grows
-/

set_option autoImplicit false

namespace Bwtc.WaveNodes
open Wave

theorem Rep.head {h : Heap} {p : Nat} {t : Sh} {fp : List Nat} (hr : Rep h (some p) t fp) : p ∈ fp := by
  cases t with
  | nil => exact hr.elim
  | node s l r =>
    obtain ⟨_, _, _, _, _, _, _, rfl⟩ := hr
    simp

theorem Rep.child_mem {h : Heap} {p : Option Nat} {q : Nat} {t : Sh} {fp : List Nat} (hr : Rep h p t fp) (e : p = some q) : q ∈ fp := by
  subst e; exact hr.head

/-- Every node of a tree is alive, and its children are nodes of the tree. -/
theorem Rep.cell {h : Heap} {t : Sh} : ∀ {p : Option Nat} {fp : List Nat}, Rep h p t fp → ∀ x ∈ fp,
    ∃ s l r, h[x]? = some ⟨s, l, r, true⟩ ∧ (∀ q, l = some q → q ∈ fp) ∧ ∀ q, r = some q → q ∈ fp := by
  induction t with
  | nil =>
    intro p fp hr x hx
    cases p with
    | none => have : fp = [] := hr
              subst this; cases hx
    | some p => exact hr.elim
  | node s l r il ir =>
    intro p fp hr x hx
    cases p with
    | none => exact hr.elim
    | some p =>
      obtain ⟨lp, rp, fl, fr, h1, h2, h3, rfl⟩ := hr
      rw [List.mem_cons, List.mem_append] at hx
      rcases hx with rfl | hx | hx
      · refine ⟨s, lp, rp, h1, fun q e => ?_, fun q e => ?_⟩
        · have := h2.child_mem e; simp [this]
        · have := h3.child_mem e; simp [this]
      · obtain ⟨s', l', r', a, b, c⟩ := il h2 x hx
        exact ⟨s', l', r', a, fun q e => by have := b q e; simp [this], fun q e => by have := c q e; simp [this]⟩
      · obtain ⟨s', l', r', a, b, c⟩ := ir h3 x hx
        exact ⟨s', l', r', a, fun q e => by have := b q e; simp [this], fun q e => by have := c q e; simp [this]⟩

theorem nodup_node {p : Nat} {fl fr : List Nat} (h : (p :: (fl ++ fr)).Nodup) :
    p ∉ fl ∧ p ∉ fr ∧ fl.Nodup ∧ fr.Nodup ∧ ∀ x ∈ fl, x ∉ fr := by
  rw [List.nodup_cons, List.mem_append, List.nodup_append, not_or] at h
  exact ⟨h.1.1, h.1.2, h.2.1, h.2.2.1, fun x hx hx' => h.2.2.2 x hx x hx' rfl⟩

theorem nodup_node' {p : Nat} {fl fr : List Nat} (h1 : p ∉ fl) (h2 : p ∉ fr) (h3 : fl.Nodup) (h4 : fr.Nodup) (h5 : ∀ x ∈ fl, x ∉ fr) :
    (p :: (fl ++ fr)).Nodup := by
  rw [List.nodup_cons, List.mem_append, List.nodup_append, not_or]
  exact ⟨⟨h1, h2⟩, h3, h4, fun x hx y hy e => h5 x hx (e ▸ hy)⟩

/-- Changing the symbol of a node. -/
theorem Rep.relabel {h h' : Heap} {x : Nat} {s s' l r} (hx : h[x]? = some ⟨s, l, r, true⟩) (hx' : h'[x]? = some ⟨s', l, r, true⟩) {t : Sh} :
    ∀ {p : Option Nat} {fp : List Nat}, Rep h p t fp → fp.Nodup → (∀ y ∈ fp, y ≠ x → h'[y]? = h[y]?) → ∃ t', Rep h' p t' fp := by
  induction t with
  | nil =>
    intro p fp hr _ _
    cases p with
    | none => exact ⟨.nil, hr⟩
    | some p => exact hr.elim
  | node a tl tr il ir =>
    intro p fp hr hn ho
    cases p with
    | none => exact hr.elim
    | some p =>
      obtain ⟨lp, rp, fl, fr, h1, h2, h3, rfl⟩ := hr
      obtain ⟨n1, n2, n3, n4, n5⟩ := nodup_node hn
      obtain ⟨tl', g1⟩ := il h2 n3 (fun y hy => ho y (by simp [hy]))
      obtain ⟨tr', g2⟩ := ir h3 n4 (fun y hy => ho y (by simp [hy]))
      by_cases e : p = x
      · subst e
        rw [hx] at h1
        cases h1
        exact ⟨.node s' tl' tr', _, _, _, _, hx', g1, g2, rfl⟩
      · exact ⟨.node a tl' tr', _, _, _, _, by rw [ho p (by simp) e]; exact h1, g1, g2, rfl⟩

/-- Hanging a new leaf below a node with a free place. -/
theorem Rep.attach {h h' : Heap} {x n : Nat} {b : Bool} {s s' l r} (hx : h[x]? = some ⟨s, l, r, true⟩)
    (hfree : (if b then r else l) = none)
    (hx' : h'[x]? = some ⟨s, if b then l else some n, if b then some n else r, true⟩) (hnew : h'[n]? = some ⟨s', none, none, true⟩) {t : Sh} :
    ∀ {p : Option Nat} {fp : List Nat}, Rep h p t fp → fp.Nodup → n ∉ fp → x ∈ fp → (∀ y ∈ fp, y ≠ x → h'[y]? = h[y]?) →
      ∃ t' fp', Rep h' p t' fp' ∧ fp'.Nodup ∧ ∀ y, y ∈ fp' ↔ y ∈ fp ∨ y = n := by
  have hleaf : Rep h' (some n) (.node s' .nil .nil) [n] := ⟨none, none, [], [], hnew, rfl, rfl, rfl⟩
  induction t with
  | nil =>
    intro p fp hr _ _ hm _
    cases p with
    | none => have : fp = [] := hr
              subst this; cases hm
    | some p => exact hr.elim
  | node a tl tr il ir =>
    intro p fp hr hn hnf hm ho
    cases p with
    | none => exact hr.elim
    | some p =>
      obtain ⟨lp, rp, fl, fr, h1, h2, h3, rfl⟩ := hr
      obtain ⟨n1, n2, n3, n4, n5⟩ := nodup_node hn
      rw [List.mem_cons, List.mem_append, not_or, not_or] at hnf
      obtain ⟨m1, m2, m3⟩ := hnf
      have frl : x ∉ fl → Rep h' lp tl fl := fun hx => h2.frame (fun y hy => ho y (by simp [hy]) (fun e => hx (e ▸ hy)))
      have frr : x ∉ fr → Rep h' rp tr fr := fun hx => h3.frame (fun y hy => ho y (by simp [hy]) (fun e => hx (e ▸ hy)))
      rw [List.mem_cons, List.mem_append] at hm
      rcases hm with e | hm | hm
      · subst e
        rw [hx] at h1
        cases h1
        cases b with
        | false =>
          have : l = none := by simpa using hfree
          subst this
          have hfl : fl = [] := by
            cases tl with
            | nil => exact h2
            | node _ _ _ => exact h2.elim
          subst hfl
          refine ⟨.node s (.node s' .nil .nil) tr, _, ⟨_, _, [n], fr, hx', hleaf, frr n2, rfl⟩, ?_, ?_⟩
          · exact nodup_node' (by simp [Ne.symm m1]) n2 (by simp) n4 (by intro y hy; rw [List.mem_singleton] at hy; rw [hy]; exact m3)
          · intro y; simp only [List.mem_cons, List.mem_append, List.not_mem_nil, or_false, false_or]
            constructor
            · rintro (e | e | e)
              · exact Or.inl (Or.inl e)
              · exact Or.inr e
              · exact Or.inl (Or.inr e)
            · rintro ((e | e) | e)
              · exact Or.inl e
              · exact Or.inr (Or.inr e)
              · exact Or.inr (Or.inl e)
        | true =>
          have : r = none := by simpa using hfree
          subst this
          have hfr : fr = [] := by
            cases tr with
            | nil => exact h3
            | node _ _ _ => exact h3.elim
          subst hfr
          refine ⟨.node s tl (.node s' .nil .nil), _, ⟨_, _, fl, [n], hx', frl n1, hleaf, rfl⟩, ?_, ?_⟩
          · exact nodup_node' n1 (by simp [Ne.symm m1]) n3 (by simp) (by intro y hy hy'; rw [List.mem_singleton] at hy'; exact m2 (hy' ▸ hy))
          · intro y; simp only [List.mem_cons, List.mem_append, List.not_mem_nil, or_false]
            rw [or_assoc]
      · have hxp : p ≠ x := fun e => n1 (e ▸ hm)
        obtain ⟨tl', fl', g1, g2, g3⟩ := il h2 n3 m2 hm (fun y hy => ho y (by simp [hy]))
        refine ⟨.node a tl' tr, _, ⟨lp, rp, fl', fr, by rw [ho p (by simp) hxp]; exact h1, g1, frr (n5 x hm), rfl⟩, ?_, ?_⟩
        · refine nodup_node' (fun hy => ?_) n2 g2 n4 (fun y hy => ?_)
          · rcases (g3 p).mp hy with hy | hy
            · exact n1 hy
            · exact m1 hy.symm
          · rcases (g3 y).mp hy with hy | hy
            · exact n5 y hy
            · rw [hy]; exact m3
        · intro y
          rw [List.mem_cons, List.mem_append, g3 y, List.mem_cons, List.mem_append]
          constructor
          · rintro (e | (e | e) | e)
            · exact Or.inl (Or.inl e)
            · exact Or.inl (Or.inr (Or.inl e))
            · exact Or.inr e
            · exact Or.inl (Or.inr (Or.inr e))
          · rintro ((e | e | e) | e)
            · exact Or.inl e
            · exact Or.inr (Or.inl (Or.inl e))
            · exact Or.inr (Or.inr e)
            · exact Or.inr (Or.inl (Or.inr e))
      · have hxp : p ≠ x := fun e => n2 (e ▸ hm)
        have hxl : x ∉ fl := fun hy => n5 x hy hm
        obtain ⟨tr', fr', g1, g2, g3⟩ := ir h3 n4 m3 hm (fun y hy => ho y (by simp [hy]))
        refine ⟨.node a tl tr', _, ⟨lp, rp, fl, fr', by rw [ho p (by simp) hxp]; exact h1, frl hxl, g1, rfl⟩, ?_, ?_⟩
        · refine nodup_node' n1 (fun hy => ?_) n3 g2 (fun y hy hy' => ?_)
          · rcases (g3 p).mp hy with hy | hy
            · exact n2 hy
            · exact m1 hy.symm
          · rcases (g3 y).mp hy' with hy' | hy'
            · exact n5 y hy hy'
            · exact m2 (hy' ▸ hy)
        · intro y
          rw [List.mem_cons, List.mem_append, g3 y, List.mem_cons, List.mem_append, or_assoc, or_assoc]

/-! ## The invariant of an object -/

/-- All nodes of the heap `h` that are not in `g` belong to exactly one of the trees at `r` and `i`; the nodes of `g` are as they were. -/
structure Inv (g h : Heap) (r i : Nat) (fr fi : List Nat) : Prop where
  tr : ∃ t, Rep h (some r) t fr
  ti : ∃ t, Rep h (some i) t fi
  nr : fr.Nodup
  ni : fi.Nodup
  dis : ∀ x ∈ fr, x ∉ fi
  all : ∀ x, (x ∈ fr ∨ x ∈ fi) ↔ g.length ≤ x ∧ x < h.length
  old : ∀ x, x < g.length → h[x]? = g[x]?

/-- Nodes stay, and children that are not null stay what they are. -/
def Grown (h h' : Heap) : Prop :=
  ∀ (x : Nat) (s l r : Option Nat), h[x]? = some (Cell.mk s l r true) → ∃ s' l' r', h'[x]? = some (Cell.mk s' l' r' true) ∧ (l ≠ none → l' = l) ∧ (r ≠ none → r' = r)

theorem Grown.refl (h : Heap) : Grown h h := fun _ s l r e => ⟨s, l, r, e, fun _ => rfl, fun _ => rfl⟩

theorem Grown.trans {h h' h'' : Heap} (a : Grown h h') (b : Grown h' h'') : Grown h h'' := by
  intro x s l r e
  obtain ⟨s', l', r', e', p, q⟩ := a x s l r e
  obtain ⟨s'', l'', r'', e'', p', q'⟩ := b x s' l' r' e'
  refine ⟨s'', l'', r'', e'', fun hl => ?_, fun hr => ?_⟩
  · rw [p' (by rw [p hl]; exact hl), p hl]
  · rw [q' (by rw [q hr]; exact hr), q hr]

theorem ensure_inv {g h : Heap} {r i : Nat} {fr fi : List Nat} (hi : Inv g h r i fr fi) {p : Nat} (hp : p ∈ fr) (b : Bool) (s : Option Nat) :
    ∃ h' q fr', ensure h p b s = some (h', q) ∧ Inv g h' r i fr' fi ∧ q ∈ fr' ∧ (∀ x ∈ fr, x ∈ fr') ∧ Grown h h' := by
  obtain ⟨t, ht⟩ := hi.tr
  obtain ⟨u, hu⟩ := hi.ti
  obtain ⟨s0, l0, r0, e0, cl, cr⟩ := ht.cell p hp
  have hlt : p < h.length := ht.lt p hp
  unfold ensure
  rw [get_live e0, Option.bind_some]
  cases hc : (Cell.mk s0 l0 r0 true).child b with
  | some q =>
    refine ⟨h, q, fr, rfl, hi, ?_, fun x hx => hx, Grown.refl h⟩
    cases b with
    | false => exact cl q hc
    | true => exact cr q hc
  | none =>
    have hset : (if b then setRight (new h s) p h.length else setLeft (new h s) p h.length) =
        some ((new h s).set p ⟨s0, if b then l0 else some h.length, if b then some h.length else r0, true⟩) := by
      have e1 : (new h s)[p]? = some ⟨s0, l0, r0, true⟩ := by rw [new_old hlt]; exact e0
      cases b with
      | false => exact setLeft_spec e1
      | true => exact setRight_spec e1
    simp only
    rw [hset, Option.map_some]
    generalize hh : (new h s).set p ⟨s0, if b then l0 else some h.length, if b then some h.length else r0, true⟩ = h'
    have hl : h'.length = h.length + 1 := by rw [← hh, List.length_set, new_length]
    have hx' : h'[p]? = some ⟨s0, if b then l0 else some h.length, if b then some h.length else r0, true⟩ := by
      rw [← hh]; exact List.getElem?_set_self (by rw [new_length]; omega)
    have hnew : h'[h.length]? = some ⟨s, none, none, true⟩ := by
      rw [← hh, List.getElem?_set_ne (by omega)]; exact new_new
    have ho : ∀ y, y < h.length → y ≠ p → h'[y]? = h[y]? := by
      intro y hy hyp
      rw [← hh, List.getElem?_set_ne (fun e => hyp e.symm), new_old hy]
    have hfree : (if b then r0 else l0) = none := hc
    have hnf : h.length ∉ fr := fun hm => Nat.lt_irrefl _ (ht.lt _ hm)
    have hni : h.length ∉ fi := fun hm => Nat.lt_irrefl _ (hu.lt _ hm)
    obtain ⟨t', fr', g1, g2, g3⟩ := ht.attach e0 hfree hx' hnew hi.nr hnf hp (fun y hy => ho y (ht.lt y hy))
    have hpi := hi.dis p hp
    refine ⟨h', h.length, fr', rfl, ⟨⟨t', g1⟩, ⟨u, hu.frame (fun y hy => ho y (hu.lt y hy) (fun e => hpi (e ▸ hy)))⟩, g2, hi.ni, ?_, ?_, ?_⟩,
      (g3 _).mpr (Or.inr rfl), fun x hx => (g3 x).mpr (Or.inl hx), ?_⟩
    · intro x hx
      rcases (g3 x).mp hx with hx | hx
      · exact hi.dis x hx
      · rw [hx]; exact hni
    · intro x
      have h1 := hi.all x
      have h2 := (hi.all p).mp (Or.inl hp)
      rw [g3 x, hl]
      constructor
      · rintro ((hx | hx) | hx)
        · have := h1.mp (Or.inl hx); omega
        · omega
        · have := h1.mp (Or.inr hx); omega
      · rintro ⟨a1, a2⟩
        by_cases e : x = h.length
        · exact Or.inl (Or.inr e)
        · rcases h1.mpr ⟨a1, by omega⟩ with hx | hx
          · exact Or.inl (Or.inl hx)
          · exact Or.inr hx
    · intro x hx
      have h2 := (hi.all p).mp (Or.inl hp)
      rw [ho x (by omega) (by omega)]
      exact hi.old x hx
    · intro x s1 l1 r1 e1
      by_cases e : x = p
      · subst e
        rw [e0] at e1
        cases e1
        refine ⟨_, _, _, hx', ?_, ?_⟩
        · intro hl
          cases b with
          | false => exact absurd hfree hl
          | true => rfl
        · intro hr
          cases b with
          | false => rfl
          | true => exact absurd hfree hr
      · exact ⟨s1, l1, r1, by rw [ho x (List.getElem?_eq_some_iff.mp e1).1 e]; exact e1, fun _ => rfl, fun _ => rfl⟩

/-- Setting a symbol keeps the invariant. -/
theorem relabel_inv {g h : Heap} {r i : Nat} {fr fi : List Nat} (hi : Inv g h r i fr fi) {p : Nat} (hp : p ∈ fr) {c : Cell} (hc : get h p = some c)
    (s : Option Nat) : Inv g (h.set p { c with sym := s }) r i fr fi := by
  obtain ⟨t, ht⟩ := hi.tr
  obtain ⟨u, hu⟩ := hi.ti
  obtain ⟨s0, l0, r0, e0, -, -⟩ := ht.cell p hp
  have hlt : p < h.length := ht.lt p hp
  rw [get_live e0] at hc
  cases hc
  have hpi := hi.dis p hp
  have ho : ∀ y, y ≠ p → (h.set p ⟨s, l0, r0, true⟩)[y]? = h[y]? := fun y hy => List.getElem?_set_ne (fun e => hy e.symm)
  obtain ⟨t', g1⟩ := ht.relabel (s' := s) e0 (List.getElem?_set_self hlt) hi.nr (fun y _ hy => ho y hy)
  refine ⟨⟨t', g1⟩, ⟨u, hu.frame (fun y hy => ho y (fun e => hpi (e ▸ hy)))⟩, hi.nr, hi.ni, hi.dis, ?_, ?_⟩
  · rw [List.length_set]; exact hi.all
  · intro x hx
    have h2 := (hi.all p).mp (Or.inl hp)
    rw [ho x (by omega)]
    exact hi.old x hx

/-- The destructor, for an object that satisfies the invariant. -/
theorem destruct_inv {g h : Heap} {r i : Nat} {fr fi : List Nat} (hi : Inv g h r i fr fi) :
    ∃ h', destruct ⟨some r, some i⟩ h = some h' ∧ Killed (fr ++ fi) h h' := by
  obtain ⟨t, h1⟩ := hi.tr
  obtain ⟨u, h2⟩ := hi.ti
  have hle : ∀ {fp : List Nat}, fp.Nodup → (∀ x ∈ fp, x < h.length) → fp.length ≤ h.length + 1 := by
    intro fp hn hb
    have : fp.Subperm (List.range h.length) := List.subperm_of_subset hn (fun x hx => List.mem_range.mpr (hb x hx))
    have := this.length_le
    rw [List.length_range] at this
    omega
  have hd := hi.dis
  obtain ⟨ha, a1, a2⟩ := destroy_spec (fuel := h.length + 1) h1 hi.nr (hle hi.nr h1.lt)
  have h2' : Rep ha (some i) u fi := h2.frame (fun x hx => a2.rest x (fun hx' => hd x hx' hx))
  obtain ⟨hb, b1, b2⟩ := destroy_spec (fuel := ha.length + 1) h2' hi.ni (by rw [a2.len]; exact hle hi.ni h2.lt)
  refine ⟨hb, ?_, ?_, ?_, ?_⟩
  · unfold destruct
    simp only [a1, Option.bind_eq_bind, Option.bind_some]
    exact b1
  · rw [b2.len, a2.len]
  · intro x hx
    rw [List.mem_append] at hx
    rcases hx with hx | hx
    · rw [b2.rest x (hd x hx), a2.dead x hx]
    · rw [b2.dead x hx, a2.rest x (fun hx' => hd x hx' hx)]
  · intro x hx
    rw [List.mem_append, not_or] at hx
    rw [b2.rest x hx.2, a2.rest x hx.1]

/-- The constructor establishes the invariant, with the tree of the code lengths at the root. -/
theorem construct_inv {L I : List (Nat × Nat)} {t u : Sh} (ht : buildTree L = some t) (hu : buildTree I = some u) (g : Heap) :
    ∃ h r i fr fi, construct L I g = some (h, ⟨some r, some i⟩) ∧ Inv g h r i fr fi ∧ Rep h (some r) t fr := by
  obtain ⟨h', k, j, v, a1, a2, a3, a4, a5⟩ := construct_spec ht hu g
  refine ⟨h', _, _, _, _, a1, ⟨⟨t, a3⟩, ⟨v, a4⟩, List.nodup_range', List.nodup_range', ?_, ?_, a5⟩, a3⟩
  · intro x hx hx'
    have := List.mem_range'_1.mp hx
    have := List.mem_range'_1.mp hx'
    omega
  · intro x
    rw [List.mem_range'_1, List.mem_range'_1]
    omega

end Bwtc.WaveNodes
