import Verif.WaveNodesGrow

/-!
# The whole life of a wavelet tree
-/

set_option autoImplicit false

namespace Bwtc.WaveNodes
open Wave

/-! ## The encoder -/

theorem pushInt_inv {g : Heap} {r i : Nat} {fi : List Nat} (sym : Nat) : ∀ (bits : List Bool) {h : Heap} {p : Nat} {fr : List Nat}, bits ≠ [] →
    Inv g h r i fr fi → p ∈ fr → ∃ h' fr', pushInt sym h p bits = some h' ∧ Inv g h' r i fr' fi ∧ (∀ x ∈ fr, x ∈ fr') ∧ Grown h h' := by
  intro bits
  induction bits with
  | nil => intro h p fr hne; exact absurd rfl hne
  | cons b bs ih =>
    intro h p fr _ hi hp
    cases bs with
    | nil =>
      obtain ⟨h', q, fr', e1, e2, _, e4, e5⟩ := ensure_inv hi hp b (some sym)
      exact ⟨h', fr', by rw [pushInt, e1]; rfl, e2, e4, e5⟩
    | cons b' bs =>
      obtain ⟨h', q, fr', e1, e2, e3, e4, e5⟩ := ensure_inv hi hp b none
      obtain ⟨h'', fr'', f1, f2, f3, f4⟩ := ih (by simp) e2 e3
      exact ⟨h'', fr'', by rw [pushInt, e1]; exact f1, f2, fun x hx => f3 x (e4 x hx), e5.trans f4⟩

theorem pushChar_rep {h : Heap} : ∀ (bits : List Bool) {p : Nat} {t : Sh} {fp : List Nat}, Rep h (some p) t fp → t.get bits ≠ .nil →
    ∃ q ∈ fp, pushChar h p bits = some q := by
  intro bits
  induction bits with
  | nil => intro p t fp hr _; exact ⟨p, hr.head, rfl⟩
  | cons b bs ih =>
    intro p t fp hr hne
    cases t with
    | nil => exact hr.elim
    | node s l r =>
      obtain ⟨lp, rp, fl, fr, h1, h2, h3, rfl⟩ := hr
      have key : ∀ {cp : Option Nat} {t' : Sh} {fp' : List Nat}, Rep h cp t' fp' → t'.get bs ≠ .nil → (Cell.mk s lp rp true).child b = cp →
          ∃ q ∈ fp', pushChar h p (b :: bs) = some q := by
        intro cp t' fp' hr' hne' hc
        cases cp with
        | none =>
          cases t' with
          | nil => cases bs <;> exact absurd rfl hne'
          | node _ _ _ => exact hr'.elim
        | some q =>
          obtain ⟨q', hq', e⟩ := ih hr' hne'
          refine ⟨q', hq', ?_⟩
          rw [pushChar, get_live h1, Option.bind_some, hc]
          exact e
      cases b with
      | false =>
        obtain ⟨q, hq, e⟩ := key h2 hne rfl
        exact ⟨q, by simp [hq], e⟩
      | true =>
        obtain ⟨q, hq, e⟩ := key h3 hne rfl
        exact ⟨q, by simp [hq], e⟩

theorem get_some {h : Heap} {p : Nat} {c : Cell} (e : get h p = some c) : h[p]? = some ⟨c.sym, c.left, c.right, true⟩ := by
  unfold get at e
  cases hx : h[p]? with
  | none => rw [hx] at e; cases e
  | some c' =>
    obtain ⟨s, l, r, b⟩ := c'
    rw [hx, Option.bind_some] at e
    cases b with
    | false => cases e
    | true => cases e; rfl

theorem pushChar_grown {h h' : Heap} (hg : Grown h h') : ∀ (bits : List Bool) {p q : Nat}, pushChar h p bits = some q → pushChar h' p bits = some q := by
  intro bits
  induction bits with
  | nil => intro p q e; exact e
  | cons b bs ih =>
    intro p q e
    rw [pushChar] at e
    cases hc : get h p with
    | none => rw [hc] at e; cases e
    | some c =>
      rw [hc, Option.bind_some] at e
      obtain ⟨s', l', r', e', el, er⟩ := hg p _ _ _ (get_some hc)
      rw [pushChar, get_live e', Option.bind_some]
      cases hb : c.child b with
      | none => rw [hb] at e; cases e
      | some q' =>
        rw [hb] at e
        have : (Cell.mk s' l' r' true).child b = some q' := by
          cases b with
          | false =>
            have hb : c.left = some q' := hb
            show l' = some q'
            rw [el (by rw [hb]; simp), hb]
          | true =>
            have hb : c.right = some q' := hb
            show r' = some q'
            rw [er (by rw [hb]; simp), hb]
        rw [this]
        exact ih e

theorem pushRuns_inv {c : Codes} {g : Heap} {r i : Nat} {fi : List Nat} : ∀ (rs : List (UInt8 × Nat)) {h : Heap} {fr : List Nat},
    (∀ x ∈ rs, (∃ q ∈ fr, pushChar h r (codeOf c.codes x.1.toNat) = some q) ∧ ∃ code, runCode c x.2 = some code ∧ code ≠ []) →
    Inv g h r i fr fi → ∃ h' fr', pushRuns c r h rs = some h' ∧ Inv g h' r i fr' fi := by
  intro rs
  induction rs with
  | nil => intro h fr _ hi; exact ⟨h, fr, rfl, hi⟩
  | cons x rs ih =>
    intro h fr hx hi
    obtain ⟨⟨q, hq, e1⟩, code, e2, e3⟩ := hx x (by simp)
    obtain ⟨h', fr', f1, f2, f3, f4⟩ := pushInt_inv x.2 code e3 hi hq
    obtain ⟨h'', fr'', g1, g2⟩ := ih (h := h') (fr := fr') (fun y hy => by
      obtain ⟨⟨q, hq, e1⟩, rest⟩ := hx y (by simp [hy])
      exact ⟨⟨q, f3 q hq, pushChar_grown f4 _ e1⟩, rest⟩) f2
    refine ⟨h'', fr'', ?_, g2⟩
    rw [pushRuns, pushRun, e1, Option.bind_some, e2, Option.bind_some, f1, Option.bind_some]
    exact g1

theorem encoderLife_spec {L I : List (Nat × Nat)} {u : Sh} {c : Codes} (ht : buildTree L = some c.root) (hu : buildTree I = some u)
    (hg : GoodCodes c) {rs : List (UInt8 × Nat)} (hrs : ∀ x ∈ rs, Covered c x) (g : Heap) :
    ∃ h h' r i fr fi, encoderLife L I c rs g = some h' ∧ Inv g h r i fr fi ∧ Killed (fr ++ fi) h h' := by
  obtain ⟨h, r, i, fr, fi, a1, a2, a3⟩ := construct_inv ht hu g
  obtain ⟨h1, fr1, b1, b2⟩ := pushRuns_inv (c := c) rs (fun x hx => by
    have hc := hrs x hx
    refine ⟨pushChar_rep _ a3 ?_, _, icode_eq hg hc.2.1, icode_ne_nil hg hc.2.1⟩
    have := ccode_get hg hc.1
    rw [ccode] at this
    rw [this]
    simp [Sh.leaf]) a2
  obtain ⟨h2, c1, c2⟩ := destruct_inv b2
  refine ⟨h1, h2, r, i, fr1, fi, ?_, b2, c2⟩
  unfold encoderLife
  rw [a1, Option.bind_some]
  simp only
  rw [b1, Option.bind_some]
  exact c1

theorem messageLife_spec {cheap : Nat → Nat → Nat × Nat → Bool} {data : List UInt8} (hne : data ≠ []) (hlen : data.length < 2 ^ 32) {c : Codes}
    (hc : messageCodes cheap data = some c) (g : Heap) :
    ∃ h h' r i fr fi, messageLife cheap data g = some h' ∧ Inv g h r i fr fi ∧ Killed (fr ++ fi) h h' := by
  obtain ⟨hg, hk⟩ := messageCodes_good hne hlen hc
  have hc' := hc
  unfold messageCodes at hc'
  cases h1 : Runs.runsAndChars 0 (fun _ => 0) (fun _ => 0) data with
  | none => rw [h1] at hc'; cases hc'
  | some s =>
    obtain ⟨s0, fr, runs⟩ := s
    rw [h1] at hc'
    simp only [Option.bind_eq_bind, Option.bind_some] at hc'
    unfold chooseCodes at hc'
    cases h2 : Huff.calculateHuffmanLengths (HuffBlock.freqList fr) with
    | none => rw [h2] at hc'; cases hc'
    | some cl =>
      rw [h2] at hc'
      simp only [Option.bind_eq_bind, Option.bind_some] at hc'
      cases h3 : buildTree (Huff.sortPairs cl) with
      | none => rw [h3] at hc'; cases hc'
      | some root =>
        rw [h3] at hc'
        simp only [Option.bind_some] at hc'
        cases h4 : findParameters cheap (runDist runs data.length) with
        | none => rw [h4] at hc'; cases hc'
        | some x =>
          obtain ⟨w, lens⟩ := x
          rw [h4] at hc'
          simp only [Option.bind_some] at hc'
          cases h5 : integerCodes lens with
          | none => rw [h5] at hc'; cases hc'
          | some y =>
            obtain ⟨itree, icodes⟩ := y
            rw [h5] at hc'
            simp only [Option.bind_some] at hc'
            cases h6 : collect root [] with
            | none => rw [h6] at hc'; cases hc'
            | some codes =>
              rw [h6] at hc'
              simp only [Option.bind_some, Option.pure_def, Option.some.injEq] at hc'
              have hroot : root = c.root := by rw [← hc']
              have hu : ∃ u, buildTree lens = some u := by
                unfold integerCodes at h5
                by_cases e : lens = []
                · rw [e]; exact ⟨_, rfl⟩
                · rw [if_neg e] at h5
                  cases h7 : buildTree lens with
                  | none => rw [h7] at h5; cases h5
                  | some u => exact ⟨u, rfl⟩
              obtain ⟨u, hu⟩ := hu
              have h8 := messageRuns_eq (data.length + 1) data (Nat.lt_succ_self _) hne
              obtain ⟨h, h', r, i, fr', fi, a1, a2, a3⟩ := encoderLife_spec (hroot ▸ h3) hu hg (runs_covered hlen (fun x hx => (hk x).mpr hx)) g
              refine ⟨h, h', r, i, fr', fi, ?_, a2, a3⟩
              unfold messageLife
              rw [h1, Option.bind_some]
              simp only
              rw [h2, Option.bind_some, h4, Option.bind_some, hc, Option.bind_some, h8, Option.bind_some]
              exact a1

/-! ## The decoder -/

/-- The pointers of an integer node lead into the two trees. -/
def INode.Ok (fr fi : List Nat) (n : INode) : Prop := n.node ∈ fr ∧ ∀ j, n.int = some j → j ∈ fi

theorem INode.next_node (w : Nat) (n : INode) (j : Option Nat) (b : Bool) (q cnt : Nat) : (n.next w j b q cnt).node = q ∧ (n.next w j b q cnt).int = j := by
  unfold INode.next
  by_cases h1 : j.isNone
  · rw [if_pos h1]
    by_cases h2 : n.status = 0
    · rw [if_pos h2]; cases b <;> exact ⟨rfl, rfl⟩
    · rw [if_neg h2]
      by_cases h3 : n.status = 1
      · rw [if_pos h3]; cases b <;> exact ⟨rfl, rfl⟩
      · rw [if_neg h3]; exact ⟨rfl, rfl⟩
  · rw [if_neg h1]; exact ⟨rfl, rfl⟩

theorem intCell {g h : Heap} {r i : Nat} {fr fi : List Nat} (hi : Inv g h r i fr fi) {j : Nat} (hj : j ∈ fi) :
    ∃ c, get h j = some c ∧ ∀ b q, c.child b = some q → q ∈ fi := by
  obtain ⟨u, hu⟩ := hi.ti
  obtain ⟨s, l, r', e, cl, cr⟩ := hu.cell j hj
  refine ⟨_, get_live e, fun b q hq => ?_⟩
  cases b with
  | false => exact cl q hq
  | true => exact cr q hq

theorem growChild_inv {g h : Heap} {r i : Nat} {fr fi : List Nat} (hi : Inv g h r i fr fi) {n : INode} (hn : n.Ok fr fi) (w : Nat) (b : Bool) (cnt : Nat) :
    ∃ h' l fr', growChild w h n b cnt = .ok (h', l) ∧ Inv g h' r i fr' fi ∧ (∀ x ∈ fr, x ∈ fr') ∧ ∀ d ∈ l, d.Ok fr' fi := by
  unfold growChild
  by_cases hc : 0 < cnt
  · rw [if_pos hc]
    obtain ⟨h', q, fr', e1, e2, e3, e4, -⟩ := ensure_inv hi hn.1 b none
    rw [e1]
    simp only
    obtain ⟨j, hj, hj'⟩ : ∃ j, intChild h' n.int b = some j ∧ ∀ k, j = some k → k ∈ fi := by
      unfold intChild
      cases hint : n.int with
      | none => exact ⟨none, rfl, fun k e => by cases e⟩
      | some j =>
        obtain ⟨c, c1, c2⟩ := intCell e2 (hn.2 j hint)
        exact ⟨c.child b, by simp only; rw [c1]; rfl, fun k e => c2 b k e⟩
    rw [hj]
    refine ⟨h', _, fr', rfl, e2, e4, ?_⟩
    intro d hd
    have nn := n.next_node w j b q cnt
    have hd' : d = n.next w j b q cnt := by
      by_cases e : (n.next w j b q cnt).status ≠ 2 ∨ 0 < (n.next w j b q cnt).ones
      · rw [if_pos e] at hd; exact List.mem_singleton.mp hd
      · rw [if_neg e] at hd; cases hd
    rw [hd']
    exact ⟨by rw [nn.1]; exact e3, fun k e => hj' k (by rw [← nn.2]; exact e)⟩
  · rw [if_neg hc]
    exact ⟨h, [], fr, rfl, hi, fun x hx => hx, fun d hd => by cases hd⟩

theorem visit_inv {g h : Heap} {r i : Nat} {fr fi : List Nat} (hi : Inv g h r i fr fi) {n : INode} (hn : n.Ok fr fi) (w : Nat) (table : Bool) (ones : Nat) :
    ∃ h' a b fr', visit w table h n ones = .ok (h', a, b) ∧ Inv g h' r i fr' fi ∧ (∀ x ∈ fr, x ∈ fr') ∧ (∀ d ∈ a, d.Ok fr' fi) ∧ ∀ d ∈ b, d.Ok fr' fi := by
  obtain ⟨t, ht⟩ := hi.tr
  obtain ⟨s0, l0, r0, e0, -, -⟩ := ht.cell n.node hn.1
  obtain ⟨sym, hsym⟩ : ∃ sym, intSym h n.int = some sym := by
    unfold intSym
    cases hint : n.int with
    | none => exact ⟨none, rfl⟩
    | some j =>
      obtain ⟨c, c1, -⟩ := intCell hi (hn.2 j hint)
      exact ⟨c.sym, by simp only; rw [c1]; rfl⟩
  have hget := get_live e0
  unfold visit
  rw [hsym, hget]
  simp only
  generalize hh : (if sym.isSome then h.set n.node _ else h) = h1
  have hi1 : Inv g h1 r i fr fi := by
    rw [← hh]
    by_cases e : sym.isSome
    · rw [if_pos e]; exact relabel_inv hi hn.1 hget _
    · rw [if_neg e]; exact hi
  have step : ∃ h' a b fr', (match growChild w h1 n false (n.bits - min ones n.bits) with
      | .ok (h, l) =>
        match growChild w h n true (min ones n.bits) with
        | .ok (h, r) => Out.ok (h, l, r)
        | .bad => .bad
        | .ended => .ended
      | .bad => .bad
      | .ended => .ended) = Out.ok (h', a, b) ∧ Inv g h' r i fr' fi ∧ (∀ x ∈ fr, x ∈ fr') ∧ (∀ d ∈ a, d.Ok fr' fi) ∧ ∀ d ∈ b, d.Ok fr' fi := by
    obtain ⟨h2, a, fr2, a1, a2, a3, a4⟩ := growChild_inv hi1 hn w false (n.bits - min ones n.bits)
    rw [a1]
    simp only
    obtain ⟨h3, b, fr3, b1, b2, b3, b4⟩ := growChild_inv a2 ⟨a3 _ hn.1, hn.2⟩ w true (min ones n.bits)
    rw [b1]
    exact ⟨h3, a, b, fr3, rfl, b2, fun x hx => b3 x (a3 x hx), fun d hd => ⟨b3 _ (a4 d hd).1, (a4 d hd).2⟩, b4⟩
  match sym, step with
  | some (_ + 1), _ => exact ⟨h1, [], [], fr, rfl, hi1, fun x hx => hx, fun d hd => (by cases hd), fun d hd => (by cases hd)⟩
  | some 0, step => exact step
  | none, step => exact step

theorem decInts_inv {g : Heap} {r i : Nat} {fi : List Nat} (w : Nat) (table : Bool) : ∀ (fuel : Nat) (os : List Nat) (ns a b : List INode) {h : Heap} {fr : List Nat},
    Inv g h r i fr fi → (∀ d ∈ ns, d.Ok fr fi) → (∀ d ∈ a, d.Ok fr fi) → (∀ d ∈ b, d.Ok fr fi) →
      decInts w table fuel os ns a b h ≠ .bad ∧ ∀ h', decInts w table fuel os ns a b h = .ok h' → ∃ fr', Inv g h' r i fr' fi := by
  intro fuel
  induction fuel with
  | zero => intro os ns a b h fr _ _ _ _; unfold decInts; exact ⟨by simp, by simp⟩
  | succ fuel ih =>
    intro os ns a b h fr hi h1 h2 h3
    cases ns with
    | nil =>
      rw [decInts]
      by_cases e : (a.isEmpty && b.isEmpty) = true
      · rw [if_pos e]
        exact ⟨by simp, fun h' e' => by cases e'; exact ⟨fr, hi⟩⟩
      · rw [if_neg e]
        refine ih os (a ++ b) [] [] hi (fun d hd => ?_) (fun d hd => by cases hd) (fun d hd => by cases hd)
        rcases List.mem_append.mp hd with hd | hd
        · exact h2 d hd
        · exact h3 d hd
    | cons n ns =>
      cases os with
      | nil => rw [decInts]; exact ⟨by simp, by simp⟩
      | cons o os =>
        obtain ⟨h', a', b', fr', e1, e2, e3, e4, e5⟩ := visit_inv hi (h1 n (by simp)) w table o
        rw [decInts, e1]
        simp only
        refine ih os ns (a ++ a') (b ++ b') e2 (fun d hd => ?_) (fun d hd => ?_) (fun d hd => ?_)
        · have := h1 d (by simp [hd]); exact ⟨e3 _ this.1, this.2⟩
        · rcases List.mem_append.mp hd with hd | hd
          · have := h2 d hd; exact ⟨e3 _ this.1, this.2⟩
          · exact e4 d hd
        · rcases List.mem_append.mp hd with hd | hd
          · have := h3 d hd; exact ⟨e3 _ this.1, this.2⟩
          · exact e5 d hd

/-- A node of the queue: an inner node of a full tree. -/
def QOk (h : Heap) (fr : List Nat) (p : Nat) : Prop :=
  ∃ l r fp, Rep h (some p) (.node none l r) fp ∧ Full (.node none l r) ∧ ∀ x ∈ fp, x ∈ fr

/-- A full subtree is a leaf or can be put into the queue. -/
theorem full_cell {h : Heap} {fr : List Nat} {ptr : Option Nat} {t : Sh} {fp : List Nat} (hr : Rep h ptr t fp) (hf : Full t) (hs : ∀ x ∈ fp, x ∈ fr) :
    ∃ p c, ptr = some p ∧ p ∈ fr ∧ get h p = some c ∧ c.sym = t.sym ∧ (c.sym = none → QOk h fr p) ∧ (c.sym.isSome → ∃ s, t = .leaf s) := by
  cases ptr with
  | none => cases t with
    | nil => exact absurd rfl hf.ne_nil
    | node _ _ _ => exact hr.elim
  | some p =>
    have hp := hs p hr.head
    cases hf with
    | leaf s =>
      have hr0 := hr
      obtain ⟨lp, rp, fl, fr', e, _⟩ := hr
      exact ⟨p, _, rfl, hp, get_live e, rfl, fun hh => (by cases hh), fun _ => ⟨s, rfl⟩⟩
    | node l r f1 f2 f3 =>
      have hr0 := hr
      obtain ⟨lp, rp, fl, fr', e, _⟩ := hr
      exact ⟨p, _, rfl, hp, get_live e, rfl, fun _ => ⟨l, r, fp, hr0, Full.node l r f1 f2 f3, hs⟩, fun hh => (by cases hh)⟩

theorem decQueue_inv {h : Heap} {fr fi : List Nat} {int : Option Nat} (hint : ∀ j, int = some j → j ∈ fi) : ∀ (fuel : Nat) (os : List Nat) (q : List (Nat × Nat))
    (ints : List INode), (∀ x ∈ q, QOk h fr x.1) → (∀ d ∈ ints, d.Ok fr fi) →
      decQueue int h fuel os q ints ≠ .bad ∧ ∀ os' ints', decQueue int h fuel os q ints = .ok (os', ints') → ∀ d ∈ ints', d.Ok fr fi := by
  intro fuel
  induction fuel with
  | zero => intro os q ints _ _; unfold decQueue; exact ⟨by simp, by simp⟩
  | succ fuel ih =>
    intro os q ints h1 h2
    cases q with
    | nil =>
      rw [decQueue]
      exact ⟨by simp, fun os' ints' e => by cases e; exact h2⟩
    | cons x q =>
      obtain ⟨p, k⟩ := x
      cases os with
      | nil => rw [decQueue]; exact ⟨by simp, by simp⟩
      | cons o os =>
        obtain ⟨l, r, fp, a1, a2, a3⟩ := h1 (p, k) (by simp)
        obtain ⟨lp, rp, fl, fr', b1, b2, b3, rfl⟩ := a1
        have hq : ∀ x ∈ q, QOk h fr x.1 := fun x hx => h1 x (by simp [hx])
        cases a2 with
        | node _ _ f1 f2 f3 =>
          obtain ⟨pl, cl, rfl, l1, l2, l3, l4, l5⟩ := full_cell b2 f1 (fun x hx => a3 x (by simp [hx]))
          obtain ⟨pr, cr, rfl, r1, r2, r3, r4, r5⟩ := full_cell b3 f2 (fun x hx => a3 x (by simp [hx]))
          rw [decQueue, get_live b1]
          simp only
          rw [l2, r2]
          simp only
          cases el : cl.sym with
          | some sl =>
            cases er : cr.sym with
            | some sr =>
              simp only
              refine ih os q _ hq (fun d hd => ?_)
              rcases List.mem_append.mp hd with hd | hd
              · exact h2 d hd
              · simp only [List.mem_cons, List.not_mem_nil, or_false] at hd
                rcases hd with rfl | rfl
                · exact ⟨l1, hint⟩
                · exact ⟨r1, hint⟩
            | none =>
              simp only
              refine ih os _ _ (fun x hx => ?_) (fun d hd => ?_)
              · rcases List.mem_append.mp hx with hx | hx
                · exact hq x hx
                · rw [List.mem_singleton.mp hx]; exact r4 er
              · rcases List.mem_append.mp hd with hd | hd
                · exact h2 d hd
                · rw [List.mem_singleton.mp hd]; exact ⟨l1, hint⟩
          | none =>
            cases er : cr.sym with
            | some sr =>
              exfalso
              obtain ⟨s, hs⟩ := r5 (by rw [er]; rfl)
              obtain ⟨s', hs'⟩ := f3 s hs
              rw [l3, hs'] at el
              cases el
            | none =>
              simp only
              refine ih os _ _ (fun x hx => ?_) h2
              rcases List.mem_append.mp hx with hx | hx
              · exact hq x hx
              · simp only [List.mem_cons, List.not_mem_nil, or_false] at hx
                rcases hx with rfl | rfl
                · exact l4 el
                · exact r4 er

theorem rootChild_inv {h : Heap} {fr fi : List Nat} {int : Option Nat} (hint : ∀ j, int = some j → j ∈ fi) {ptr : Option Nat} {t : Sh} {fp : List Nat}
    (hr : Rep h ptr t fp) (hf : Full t) (hs : ∀ x ∈ fp, x ∈ fr) (k : Nat) :
    ∃ q, rootChild int h ptr k = some q ∧ (∀ x ∈ q.1, QOk h fr x.1) ∧ ∀ d ∈ q.2, d.Ok fr fi := by
  obtain ⟨p, c, rfl, l1, l2, l3, l4, l5⟩ := full_cell hr hf hs
  unfold rootChild
  simp only
  rw [l2, Option.map_some]
  cases e : c.sym with
  | some s =>
    refine ⟨_, rfl, fun x hx => ?_, fun d hd => ?_⟩
    · cases hx
    · rw [List.mem_singleton.mp hd]; exact ⟨l1, hint⟩
  | none =>
    refine ⟨_, rfl, fun x hx => ?_, fun d hd => ?_⟩
    · rw [List.mem_singleton.mp hx]; exact l4 e
    · cases hd

/-- Whether the first answer fits the tree: a tree for a single symbol has no right half. -/
def FirstOk (t : Sh) (os : List Nat) : Prop := ∀ s o, t = .node none (.leaf s) .nil → os.head? = some o → o = 0

theorem decodeTree_inv {g h : Heap} {r i : Nat} {fr fi : List Nat} (hi : Inv g h r i fr fi) {t : Sh} (ht : Rep h (some r) t fr) (hroot : RootOk t)
    (w : Nat) (table : Bool) (rootSize fuel : Nat) (os : List Nat) (hos : FirstOk t os) :
    decodeTree w table (some i) r rootSize fuel os h ≠ .bad ∧
      ∀ h', decodeTree w table (some i) r rootSize fuel os h = .ok h' → ∃ fr', Inv g h' r i fr' fi := by
  have hint : ∀ j, some i = some j → j ∈ fi := by
    intro j e
    cases e
    obtain ⟨u, hu⟩ := hi.ti
    exact hu.head
  cases os with
  | nil => unfold decodeTree; exact ⟨by simp, by simp⟩
  | cons o os =>
    have key : ∀ {lp rp : Option Nat} {s : Option Nat}, h[r]? = some ⟨s, lp, rp, true⟩ → ∀ ql qr,
        rootChild (some i) h lp ((if rootSize = 0 then 1 else rootSize) - min o (if rootSize = 0 then 1 else rootSize)) = some ql →
        (if 0 < min o (if rootSize = 0 then 1 else rootSize) then rootChild (some i) h rp (min o (if rootSize = 0 then 1 else rootSize)) else some ([], [])) = some qr →
        (∀ x ∈ ql.1, QOk h fr x.1) → (∀ d ∈ ql.2, d.Ok fr fi) → (∀ x ∈ qr.1, QOk h fr x.1) → (∀ d ∈ qr.2, d.Ok fr fi) →
        decodeTree w table (some i) r rootSize fuel (o :: os) h ≠ .bad ∧
          ∀ h', decodeTree w table (some i) r rootSize fuel (o :: os) h = .ok h' → ∃ fr', Inv g h' r i fr' fi := by
      intro lp rp s e ql qr e1 e2 a1 a2 a3 a4
      unfold decodeTree
      simp only
      rw [get_live e]
      simp only
      rw [e1, e2]
      simp only
      have hq := decQueue_inv (h := h) hint fuel os (ql.1 ++ qr.1) (ql.2 ++ qr.2)
        (fun x hx => (List.mem_append.mp hx).elim (a1 x) (a3 x)) (fun d hd => (List.mem_append.mp hd).elim (a2 d) (a4 d))
      cases hx : decQueue (some i) h fuel os (ql.1 ++ qr.1) (ql.2 ++ qr.2) with
      | bad => exact absurd hx hq.1
      | ended => exact ⟨by simp, by simp⟩
      | ok v =>
        obtain ⟨os', ints⟩ := v
        exact decInts_inv w table fuel os' ints [] [] hi (hq.2 os' ints hx) (fun d hd => by cases hd) (fun d hd => by cases hd)
    rcases hroot with ⟨l, r', rfl, hf⟩ | ⟨s, rfl⟩
    · obtain ⟨lp, rp, fl, fr', b1, b2, b3, rfl⟩ := ht
      cases hf with
      | node _ _ f1 f2 f3 =>
        obtain ⟨ql, c1, c2, c3⟩ := rootChild_inv hint b2 f1 (fun x hx => List.mem_cons_of_mem r (List.mem_append_left fr' hx))
          ((if rootSize = 0 then 1 else rootSize) - min o (if rootSize = 0 then 1 else rootSize))
        obtain ⟨qr, d1, d2, d3⟩ := rootChild_inv hint b3 f2 (fun x hx => List.mem_cons_of_mem r (List.mem_append_right fl hx)) (min o (if rootSize = 0 then 1 else rootSize))
        by_cases e : 0 < min o (if rootSize = 0 then 1 else rootSize)
        · exact key b1 ql qr c1 (by rw [if_pos e]; exact d1) c2 c3 d2 d3
        · exact key b1 ql ([], []) c1 (by rw [if_neg e]) c2 c3 (fun x hx => by cases hx) (fun x hx => by cases hx)
    · have ho : o = 0 := hos s o rfl rfl
      obtain ⟨lp, rp, fl, fr', b1, b2, b3, rfl⟩ := ht
      obtain ⟨ql, c1, c2, c3⟩ := rootChild_inv hint b2 (Full.leaf s) (fun x hx => List.mem_cons_of_mem r (List.mem_append_left fr' hx))
        ((if rootSize = 0 then 1 else rootSize) - min o (if rootSize = 0 then 1 else rootSize))
      refine key b1 ql ([], []) c1 ?_ c2 c3 (fun x hx => by cases hx) (fun x hx => by cases hx)
      rw [ho, Nat.zero_min, if_neg (by omega)]

theorem decoderLife_spec {L I : List (Nat × Nat)} {t u : Sh} (ht : buildTree L = some t) (hu : buildTree I = some u) (hroot : RootOk t)
    (w : Nat) (table : Bool) (rootSize fuel : Nat) (os : List Nat) (hos : FirstOk t os) (g : Heap) :
    decoderLife L I w table rootSize fuel os g ≠ .bad ∧ ∀ h', decoderLife L I w table rootSize fuel os g = .ok h' →
      ∃ h r i fr fi, Inv (constructEmpty g).1 h r i fr fi ∧ Killed (fr ++ fi) h h' := by
  obtain ⟨h, r, i, fr, fi, a1, a2, a3⟩ := construct_inv ht hu (constructEmpty g).1
  obtain ⟨b1, b2⟩ := decodeTree_inv a2 a3 hroot w table rootSize fuel os hos
  unfold decoderLife readShape
  rw [a1]
  simp only
  cases hx : decodeTree w table (some i) r rootSize fuel os h with
  | bad => exact absurd hx b1
  | ended => exact ⟨by simp, by simp⟩
  | ok h1 =>
    obtain ⟨fr', c1⟩ := b2 h1 hx
    obtain ⟨h2, d1, d2⟩ := destruct_inv c1
    simp only
    rw [d1]
    refine ⟨by simp, fun h' e => ?_⟩
    cases e
    exact ⟨h1, r, i, fr', fi, c1, d2⟩

end Bwtc.WaveNodes
