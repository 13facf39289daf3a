import Verif.WaveNodes

/-!
# The nodes of the wavelet tree are a tree, and are freed once
-/

set_option autoImplicit false

namespace Bwtc.WaveNodes
open Wave

/-- The pointer leads to a tree with the nodes `fp`. -/
def Rep (h : Heap) : Option Nat → Sh → List Nat → Prop
  | none, .nil, fp => fp = []
  | some p, .node s l r, fp => ∃ lp rp fl fr, h[p]? = some ⟨s, lp, rp, true⟩ ∧ Rep h lp l fl ∧ Rep h rp r fr ∧ fp = p :: (fl ++ fr)
  | some _, .nil, _ => False
  | none, .node _ _ _, _ => False

theorem Rep.frame {h h' : Heap} {p : Option Nat} {t : Sh} {fp : List Nat} (hr : Rep h p t fp) (hf : ∀ x ∈ fp, h'[x]? = h[x]?) : Rep h' p t fp := by
  induction t generalizing p fp with
  | nil => cases p with
    | none => exact hr
    | some p => exact hr.elim
  | node s l r il ir =>
    cases p with
    | none => exact hr.elim
    | some p =>
      obtain ⟨lp, rp, fl, fr, h1, h2, h3, rfl⟩ := hr
      refine ⟨lp, rp, fl, fr, ?_, il h2 (fun x hx => hf x (by simp [hx])), ir h3 (fun x hx => hf x (by simp [hx])), rfl⟩
      rw [hf p (by simp)]; exact h1

theorem Rep.lt {h : Heap} {p : Option Nat} {t : Sh} {fp : List Nat} (hr : Rep h p t fp) : ∀ x ∈ fp, x < h.length := by
  induction t generalizing p fp with
  | nil => cases p with
    | none => have : fp = [] := hr
              subst this; simp
    | some p => exact hr.elim
  | node s l r il ir =>
    cases p with
    | none => exact hr.elim
    | some p =>
      obtain ⟨lp, rp, fl, fr, h1, h2, h3, rfl⟩ := hr
      intro x hx
      simp only [List.mem_cons, List.mem_append] at hx
      rcases hx with rfl | hx | hx
      · exact (List.getElem?_eq_some_iff.mp h1).1
      · exact il h2 x hx
      · exact ir h3 x hx

theorem get_live {h : Heap} {p : Nat} {s l r} (e : h[p]? = some ⟨s, l, r, true⟩) : get h p = some ⟨s, l, r, true⟩ := by
  unfold get; rw [e]; rfl

theorem new_old {h : Heap} {s : Option Nat} {x : Nat} (hx : x < h.length) : (new h s)[x]? = h[x]? := by
  unfold new; exact List.getElem?_append_left hx

theorem new_new {h : Heap} {s : Option Nat} : (new h s)[h.length]? = some ⟨s, none, none, true⟩ := by
  unfold new; simp

theorem new_length {h : Heap} {s : Option Nat} : (new h s).length = h.length + 1 := by unfold new; simp

theorem setLeft_spec {h : Heap} {p q : Nat} {s l r} (e : h[p]? = some ⟨s, l, r, true⟩) :
    setLeft h p q = some (h.set p ⟨s, some q, r, true⟩) := by unfold setLeft; rw [get_live e]; rfl

theorem setRight_spec {h : Heap} {p q : Nat} {s l r} (e : h[p]? = some ⟨s, l, r, true⟩) :
    setRight h p q = some (h.set p ⟨s, l, some q, true⟩) := by unfold setRight; rw [get_live e]; rfl

/-- What a call leaves: the tree at `p` on the old node and all new ones, everything else as it was. -/
structure Left (h h' : Heap) (p : Nat) (t : Sh) (k : Nat) : Prop where
  len : h'.length = h.length + k
  rep : Rep h' (some p) t (p :: List.range' h.length k)
  old : ∀ x, x < h.length → x ≠ p → h'[x]? = h[x]?

theorem getElem?_drop_cons {α : Type} {L : List α} {e : Nat} {a : α} {l : List α} (h : L.drop e = a :: l) : L[e]? = some a ∧ L.drop (e + 1) = l ∧ e < L.length := by
  have h1 : (L.drop e)[0]? = some a := by rw [h]; rfl
  rw [List.getElem?_drop, Nat.add_zero] at h1
  refine ⟨h1, ?_, (List.getElem?_eq_some_iff.mp h1).1⟩
  have : (L.drop e).drop 1 = l := by rw [h]; rfl
  rwa [List.drop_drop] at this

theorem drop_nil {α : Type} {L : List α} {e : Nat} (h : L.drop e = []) : L[e]? = none ∧ ¬ e < L.length := by
  have : L.length ≤ e := by simpa using h
  exact ⟨List.getElem?_eq_none this, by omega⟩

/-- A fresh leaf is a finished tree. -/
theorem Left.fresh {h : Heap} {q : Nat} {s : Option Nat} (e : h[q]? = some ⟨s, none, none, true⟩) : Left h h q (.node s .nil .nil) 0 :=
  ⟨rfl, ⟨none, none, [], [], e, rfl, rfl, rfl⟩, fun _ _ _ => rfl⟩

/-- A node with a finished left child. -/
structure Half (h h' : Heap) (p : Nat) (t : Sh) (k : Nat) : Prop where
  len : h'.length = h.length + k
  cell : h'[p]? = some ⟨none, some h.length, none, true⟩
  rep : Rep h' (some h.length) t (List.range' h.length k)
  old : ∀ x, x < h.length → x ≠ p → h'[x]? = h[x]?

theorem Half.mk' {h h2 : Heap} {p : Nat} {y : Option Nat} {t : Sh} {k : Nat} (hp : p < h.length)
    (h1 : Left ((new h y).set p ⟨none, some h.length, none, true⟩) h2 h.length t k) : Half h h2 p t (k + 1) := by
  have hl : ((new h y).set p ⟨none, some h.length, none, true⟩).length = h.length + 1 := by rw [List.length_set, new_length]
  refine ⟨by rw [h1.len, hl]; omega, ?_, ?_, ?_⟩
  · rw [h1.old p (by omega) (by omega), List.getElem?_set_self (by rw [new_length]; omega)]
  · have := h1.rep
    rw [hl] at this
    rw [List.range'_succ]
    exact this
  · intro x hx hxp
    rw [h1.old x (by omega) (by omega), List.getElem?_set_ne (fun a => hxp a.symm), new_old hx]

theorem Half.add {h h1 h2 : Heap} {p : Nat} {y : Option Nat} {tl tr : Sh} {k k2 : Nat} (hp : p < h.length) (H : Half h h1 p tl k)
    (h2' : Left ((new h1 y).set p ⟨none, some h.length, some h1.length, true⟩) h2 h1.length tr k2) :
    Left h h2 p (.node none tl tr) (k + (k2 + 1)) := by
  have hl : ((new h1 y).set p ⟨none, some h.length, some h1.length, true⟩).length = h1.length + 1 := by rw [List.length_set, new_length]
  have hlen := H.len
  have hold : ∀ x, x < h1.length → x ≠ p → h2[x]? = h1[x]? := by
    intro x hx hxp
    rw [h2'.old x (by omega) (by omega), List.getElem?_set_ne (fun a => hxp a.symm), new_old hx]
  refine ⟨by rw [h2'.len, hl]; omega, ?_, fun x hx hxp => (hold x (by omega) hxp).trans (H.old x hx hxp)⟩
  refine ⟨some h.length, some h1.length, List.range' h.length k, List.range' h1.length (k2 + 1), ?_, ?_, ?_, ?_⟩
  · rw [h2'.old p (by omega) (by omega), List.getElem?_set_self (by rw [new_length]; omega)]
  · apply H.rep.frame
    intro x hx
    have := List.mem_range'_1.mp hx
    exact hold x (by omega) (by omega)
  · have := h2'.rep
    rw [hl] at this
    rw [List.range'_succ]
    exact this
  · rw [H.len, ← List.range'_append_1]

theorem Half.done {h h1 : Heap} {p : Nat} {tl : Sh} {k : Nat} (H : Half h h1 p tl k) : Left h h1 p (.node none tl .nil) k :=
  ⟨H.len, ⟨some h.length, none, _, [], H.cell, H.rep, rfl, by rw [List.append_nil]⟩, H.old⟩

/-- The program on pointers builds the tree of `WaveCode.lean`. -/
theorem assign_refines (L : List (Nat × Nat)) : ∀ (fuel : Nat) (lens : List (Nat × Nat)) (bits : Nat) (t : Sh) (rest : List (Nat × Nat)),
    Wave.assign fuel lens bits = some (t, rest) → ∀ (d : Nat) (h : Heap) (p e : Nat), 2 * fuel + 1 ≤ d → L.drop e = lens →
    h[p]? = some ⟨none, none, none, true⟩ →
    ∃ h' k e', assign L d h p e bits = some (h', e') ∧ L.drop e' = rest ∧ Left h h' p t k := by
  intro fuel
  induction fuel with
  | zero =>
    intro lens bits t rest ha d h p e hd hL hp
    cases lens with
    | cons a l => simp [Wave.assign] at ha
    | nil =>
      simp only [Wave.assign, Option.some.injEq, Prod.mk.injEq] at ha
      obtain ⟨rfl, rfl⟩ := ha
      obtain ⟨d, rfl⟩ : ∃ d', d = d' + 1 := ⟨d - 1, by omega⟩
      refine ⟨h, 0, e, ?_, hL, Left.fresh hp⟩
      unfold assign
      rw [(drop_nil hL).1]
  | succ fuel ih =>
    intro lens bits t rest ha d h p e hd hL hp
    obtain ⟨d, rfl⟩ : ∃ d', d = d' + 2 := ⟨d - 2, by omega⟩
    have hpl : p < h.length := (List.getElem?_eq_some_iff.mp hp).1
    have newp : ∀ y, (new h y)[p]? = some ⟨none, none, none, true⟩ := fun y => by rw [new_old hpl]; exact hp
    cases lens with
    | nil =>
      simp only [Wave.assign, Option.some.injEq, Prod.mk.injEq] at ha
      obtain ⟨rfl, rfl⟩ := ha
      refine ⟨h, 0, e, ?_, hL, Left.fresh hp⟩
      unfold assign
      rw [(drop_nil hL).1]
    | cons a lens =>
      obtain ⟨len, s⟩ := a
      obtain ⟨e1, e2, e3⟩ := getElem?_drop_cons hL
      have fresh : ∀ y v, ((new h y).set p v)[h.length]? = some ⟨y, none, none, true⟩ := fun y v => by
        rw [List.getElem?_set_ne (by omega)]; exact new_new
      rw [Wave.assign.eq_def] at ha
      simp only at ha
      by_cases c1 : bits + 1 = len
      · -- a leaf to the left
        rw [if_pos c1] at ha
        have H : Half h ((new h (some s)).set p ⟨none, some h.length, none, true⟩) p (.leaf s) 1 :=
          Half.mk' hpl (Left.fresh (fresh _ _))
        obtain ⟨h1, eh1⟩ : ∃ h1, h1 = (new h (some s)).set p ⟨none, some h.length, none, true⟩ := ⟨_, rfl⟩
        rw [← eh1] at H
        have step : assign L (d + 2) h p e bits = assign L (d + 1) h1 p (e + 1) bits := by
          rw [assign, e1]
          simp only [get_live hp, Option.bind_eq_bind, Option.bind_some]
          rw [if_neg (by omega), if_pos (by omega), if_pos (c := (none : Option Nat).isNone = true) rfl, setLeft_spec (newp _), Option.bind_some, ← eh1]
        have newp1 : ∀ y, (new h1 y)[p]? = some ⟨none, some h.length, none, true⟩ := fun y => by
          rw [new_old (by rw [H.len]; omega)]; exact H.cell
        have fresh1 : ∀ y v, ((new h1 y).set p v)[h1.length]? = some ⟨y, none, none, true⟩ := fun y v => by
          rw [List.getElem?_set_ne (by rw [H.len]; omega)]; exact new_new
        rw [step]
        cases lens with
        | nil =>
          simp only [Option.some.injEq, Prod.mk.injEq] at ha
          obtain ⟨rfl, rfl⟩ := ha
          refine ⟨h1, 1, e + 1, ?_, e2, H.done⟩
          rw [assign, (drop_nil e2).1]
        | cons b lens =>
          obtain ⟨len2, s2⟩ := b
          obtain ⟨f1, f2, f3⟩ := getElem?_drop_cons e2
          simp only at ha
          by_cases c2 : bits + 1 = len2
          · rw [if_pos c2] at ha
            simp only [Option.some.injEq, Prod.mk.injEq] at ha
            obtain ⟨rfl, rfl⟩ := ha
            refine ⟨_, _, e + 1 + 1, ?_, f2, H.add hpl (Left.fresh (fresh1 (some s2) _))⟩
            rw [assign, f1]
            simp only [get_live H.cell, Option.bind_eq_bind, Option.bind_some]
            rw [if_neg (by omega), if_pos (by omega), if_neg (by simp), if_pos (c := (none : Option Nat).isNone = true) rfl, setRight_spec (newp1 _), Option.bind_some]
            rfl
          · rw [if_neg c2] at ha
            by_cases c3 : bits + 1 < len2
            · rw [if_pos c3] at ha
              cases hr : Wave.assign fuel ((len2, s2) :: lens) (bits + 1) with
              | none => rw [hr] at ha; cases ha
              | some r =>
                rw [hr] at ha
                obtain ⟨r, rest'⟩ := r
                simp only [Option.some.injEq, Prod.mk.injEq] at ha
                obtain ⟨rfl, rfl⟩ := ha
                obtain ⟨h2, k2, e', g1, g2, g3⟩ := ih _ _ _ _ hr d _ h1.length (e + 1) (by omega) e2 (fresh1 none ⟨none, some h.length, some h1.length, true⟩)
                refine ⟨h2, _, e', ?_, g2, H.add hpl g3⟩
                rw [assign, f1]
                simp only [get_live H.cell, Option.bind_eq_bind, Option.bind_some]
                rw [if_neg (by omega), if_neg (by omega), if_pos (by omega), if_neg (by simp)]
                simp only [Option.pure_def, Option.bind_some, get_live H.cell]
                rw [if_pos (c := (none : Option Nat).isNone = true) rfl, if_pos f3, setRight_spec (newp1 _), Option.bind_some]
                exact g1
            · rw [if_neg c3] at ha; cases ha
      · rw [if_neg c1] at ha
        by_cases c3 : bits + 1 < len
        · rw [if_pos c3] at ha
          cases hl : Wave.assign fuel ((len, s) :: lens) (bits + 1) with
          | none => rw [hl] at ha; cases ha
          | some l =>
            obtain ⟨l, rest1⟩ := l
            rw [hl] at ha
            obtain ⟨h1, k1, e', g1, g2, g3⟩ := ih _ _ _ _ hl (d + 1) _ h.length e (by omega) hL (fresh none ⟨none, some h.length, none, true⟩)
            have H := Half.mk' hpl g3
            have newp1 : ∀ y, (new h1 y)[p]? = some ⟨none, some h.length, none, true⟩ := fun y => by
              rw [new_old (by rw [H.len]; omega)]; exact H.cell
            have fresh1 : ∀ y v, ((new h1 y).set p v)[h1.length]? = some ⟨y, none, none, true⟩ := fun y v => by
              rw [List.getElem?_set_ne (by rw [H.len]; omega)]; exact new_new
            cases rest1 with
            | nil =>
              simp only [Option.some.injEq, Prod.mk.injEq] at ha
              obtain ⟨rfl, rfl⟩ := ha
              refine ⟨h1, _, e', ?_, g2, H.done⟩
              rw [assign, e1]
              simp only [get_live hp, Option.bind_eq_bind, Option.bind_some]
              rw [if_neg (by omega), if_neg (by omega), if_pos (by omega), if_pos (c := (none : Option Nat).isNone = true) rfl, setLeft_spec (newp _), Option.bind_some, g1]
              simp only [Option.bind_some, get_live H.cell]
              rw [if_pos (c := (none : Option Nat).isNone = true) rfl, if_neg (drop_nil g2).2]
              rfl
            | cons b rest1 =>
              simp only at ha
              obtain ⟨f1, f2, f3⟩ := getElem?_drop_cons g2
              cases hr : Wave.assign fuel (b :: rest1) (bits + 1) with
              | none => rw [hr] at ha; cases ha
              | some r =>
                rw [hr] at ha
                obtain ⟨r, rest'⟩ := r
                simp only [Option.some.injEq, Prod.mk.injEq] at ha
                obtain ⟨rfl, rfl⟩ := ha
                obtain ⟨h2, k2, e'', q1, q2, q3⟩ := ih _ _ _ _ hr (d + 1) _ h1.length e' (by omega) g2 (fresh1 none ⟨none, some h.length, some h1.length, true⟩)
                refine ⟨h2, _, e'', ?_, q2, H.add hpl q3⟩
                rw [assign, e1]
                simp only [get_live hp, Option.bind_eq_bind, Option.bind_some]
                rw [if_neg (by omega), if_neg (by omega), if_pos (by omega), if_pos (c := (none : Option Nat).isNone = true) rfl, setLeft_spec (newp _), Option.bind_some, g1]
                simp only [Option.bind_some, get_live H.cell]
                rw [if_pos (c := (none : Option Nat).isNone = true) rfl, if_pos f3, setRight_spec (newp1 _), Option.bind_some]
                exact q1
        · rw [if_neg c3] at ha; cases ha

/-! ## Deleting -/

/-- Exactly the nodes `fp` have been deleted. -/
structure Killed (fp : List Nat) (h h' : Heap) : Prop where
  len : h'.length = h.length
  dead : ∀ x ∈ fp, h'[x]? = (h[x]?).map fun c => { c with live := false }
  rest : ∀ x, x ∉ fp → h'[x]? = h[x]?

theorem Killed.nil (h : Heap) : Killed [] h h := ⟨rfl, fun x hx => by simp at hx, fun _ _ => rfl⟩

theorem destroy_child {h : Heap} {fuel : Nat} {p : Option Nat} {t : Sh} {fp : List Nat} (hr : Rep h p t fp)
    (ih : ∀ q, p = some q → ∃ h', destroy fuel (some q) h = some h' ∧ Killed fp h h') :
    ∃ h', (if p.isSome then destroy fuel p h else some h) = some h' ∧ Killed fp h h' := by
  cases p with
  | some q => exact ih q rfl
  | none =>
    cases t with
    | node s l r => exact hr.elim
    | nil =>
      have : fp = [] := hr
      subst this
      exact ⟨h, rfl, Killed.nil h⟩

theorem destroy_spec {t : Sh} : ∀ {h : Heap} {p : Nat} {fp : List Nat} {fuel : Nat}, Rep h (some p) t fp → fp.Nodup → fp.length ≤ fuel →
    ∃ h', destroy fuel (some p) h = some h' ∧ Killed fp h h' := by
  induction t with
  | nil => intro h p fp fuel hr; exact hr.elim
  | node s l r il ir =>
    intro h p fp fuel hr hn hf
    obtain ⟨lp, rp, fl, fr, h1, h2, h3, rfl⟩ := hr
    rw [List.nodup_cons, List.mem_append, List.nodup_append, not_or] at hn
    obtain ⟨⟨n1, n2⟩, n3, n4, n5⟩ := hn
    rw [List.length_cons, List.length_append] at hf
    obtain ⟨fuel, rfl⟩ : ∃ f, fuel = f + 1 := ⟨fuel - 1, by omega⟩
    obtain ⟨ha, a1, a2⟩ := destroy_child (fuel := fuel) h2 (fun q e => by subst e; exact il h2 n3 (by omega))
    have c1 : ha[p]? = some ⟨s, lp, rp, true⟩ := by rw [a2.rest p n1]; exact h1
    have h3' : Rep ha rp r fr := h3.frame (fun x hx => a2.rest x (fun hx' => n5 x hx' x hx rfl))
    obtain ⟨hb, b1, b2⟩ := destroy_child (fuel := fuel) h3' (fun q e => by subst e; exact ir h3' n4 (by omega))
    have c2 : hb[p]? = some ⟨s, lp, rp, true⟩ := by rw [b2.rest p n2]; exact c1
    have hpl : p < hb.length := (List.getElem?_eq_some_iff.mp c2).1
    refine ⟨hb.set p ⟨s, lp, rp, false⟩, ?_, ?_, ?_, ?_⟩
    · rw [destroy]
      simp only [get_live h1, Option.bind_eq_bind, Option.bind_some]
      rw [a1, Option.bind_some, get_live c1, Option.bind_some, b1, Option.bind_some, get_live c2]
      rfl
    · rw [List.length_set, b2.len, a2.len]
    · intro x hx
      rw [List.mem_cons, List.mem_append] at hx
      by_cases e : x = p
      · subst e
        rw [List.getElem?_set_self hpl, h1]
        rfl
      · rw [List.getElem?_set_ne (fun a => e a.symm)]
        rcases hx with hx | hx | hx
        · exact absurd hx e
        · rw [b2.rest x (fun hx' => n5 x hx x hx' rfl), a2.dead x hx]
        · rw [b2.dead x hx, a2.rest x (fun hx' => n5 x hx' x hx rfl)]
    · intro x hx
      rw [List.mem_cons, List.mem_append, not_or, not_or] at hx
      rw [List.getElem?_set_ne (fun a => hx.1 a.symm), b2.rest x hx.2.2, a2.rest x hx.2.1]

/-! ## From the constructor to the destructor -/

theorem newRoot_spec {L : List (Nat × Nat)} {t : Sh} (ht : buildTree L = some t) (h : Heap) :
    ∃ h' k, newRoot L h = some (h', h.length) ∧ h'.length = h.length + (k + 1) ∧ Rep h' (some h.length) t (List.range' h.length (k + 1)) ∧
      ∀ x, x < h.length → h'[x]? = h[x]? := by
  unfold buildTree at ht
  rw [Option.map_eq_some_iff] at ht
  obtain ⟨⟨t', rest⟩, h1, rfl⟩ := ht
  obtain ⟨h', k, e', g1, _, g3⟩ := assign_refines L _ _ _ _ _ h1 (depthFor L) (new h none) h.length 0 (Nat.le_refl _) rfl new_new
  refine ⟨h', k, ?_, by rw [g3.len, new_length]; omega, ?_, ?_⟩
  · unfold newRoot
    rw [g1]
    rfl
  · have := g3.rep
    rw [new_length] at this
    rw [List.range'_succ]
    exact this
  · intro x hx
    rw [g3.old x (by rw [new_length]; omega) (by omega), new_old hx]

theorem newIntegers_spec {L : List (Nat × Nat)} {t : Sh} (ht : buildTree L = some t) (h : Heap) :
    ∃ h' k t', newIntegers L h = some (h', h.length) ∧ h'.length = h.length + (k + 1) ∧ Rep h' (some h.length) t' (List.range' h.length (k + 1)) ∧
      ∀ x, x < h.length → h'[x]? = h[x]? := by
  unfold newIntegers
  by_cases e : 0 < L.length
  · rw [if_pos e]
    obtain ⟨h', k, g⟩ := newRoot_spec ht h
    exact ⟨h', k, t, g⟩
  · rw [if_neg e]
    exact ⟨_, 0, .node (some 0) .nil .nil, rfl, new_length, ⟨none, none, [], [], new_new, rfl, rfl, rfl⟩, fun x hx => new_old hx⟩

theorem construct_spec {L I : List (Nat × Nat)} {t u : Sh} (ht : buildTree L = some t) (hu : buildTree I = some u) (h : Heap) :
    ∃ h' k j v, construct L I h = some (h', ⟨some h.length, some (h.length + (k + 1))⟩) ∧ h'.length = h.length + (k + 1) + (j + 1) ∧
      Rep h' (some h.length) t (List.range' h.length (k + 1)) ∧
      Rep h' (some (h.length + (k + 1))) v (List.range' (h.length + (k + 1)) (j + 1)) ∧ ∀ x, x < h.length → h'[x]? = h[x]? := by
  obtain ⟨h1, k, a1, a2, a3, a4⟩ := newRoot_spec ht h
  obtain ⟨h2, j, v, b1, b2, b3, b4⟩ := newIntegers_spec hu h1
  rw [a2] at b1 b2 b3 b4
  refine ⟨h2, k, j, v, ?_, b2, ?_, b3, fun x hx => by rw [b4 x (by omega), a4 x hx]⟩
  · unfold construct
    rw [a1]
    simp only [Option.bind_eq_bind, Option.bind_some]
    rw [b1]
    rfl
  · apply a3.frame
    intro x hx
    have := List.mem_range'_1.mp hx
    exact b4 x (by omega)

theorem destruct_spec {h : Heap} {p q : Nat} {t u : Sh} {k j : Nat} (h1 : Rep h (some p) t (List.range' p k)) (h2 : Rep h (some q) u (List.range' q j))
    (hpq : p + k ≤ q) : ∃ h', destruct ⟨some p, some q⟩ h = some h' ∧ Killed (List.range' p k ++ List.range' q j) h h' := by
  have lk : k ≤ h.length + 1 := by
    by_cases e : k = 0
    · omega
    · have := h1.lt (p + (k - 1)) (List.mem_range'_1.mpr ⟨by omega, by omega⟩)
      omega
  have lj : j ≤ h.length + 1 := by
    by_cases e : j = 0
    · omega
    · have := h2.lt (q + (j - 1)) (List.mem_range'_1.mpr ⟨by omega, by omega⟩)
      omega
  have hd : ∀ x, x ∈ List.range' p k → x ∉ List.range' q j := by
    intro x hx hx'
    have := List.mem_range'_1.mp hx
    have := List.mem_range'_1.mp hx'
    omega
  obtain ⟨ha, a1, a2⟩ := destroy_spec (fuel := h.length + 1) h1 List.nodup_range' (by rw [List.length_range']; exact lk)
  have h2' : Rep ha (some q) u (List.range' q j) := h2.frame (fun x hx => a2.rest x (fun hx' => hd x hx' hx))
  obtain ⟨hb, b1, b2⟩ := destroy_spec (fuel := ha.length + 1) h2' List.nodup_range' (by rw [List.length_range', a2.len]; exact lj)
  refine ⟨hb, ?_, ?_, ?_, ?_⟩
  · unfold destruct
    simp only [a1, Option.bind_eq_bind, Option.bind_some]
    exact b1
  · rw [b2.len, a2.len]
  · intro x hx
    rw [List.mem_append] at hx
    rcases hx with hx | hx
    · rw [b2.rest x (hd x hx), a2.dead x hx]
    · rw [b2.dead x hx, a2.rest x (fun hx' => hd x hx' hx)]
  · intro x hx
    rw [List.mem_append, not_or] at hx
    rw [b2.rest x hx.2, a2.rest x hx.1]

end Bwtc.WaveNodes
