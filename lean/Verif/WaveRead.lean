import Verif.WaveHeap

/-!
# Reading a message from a wavelet tree
-/

set_option autoImplicit false

namespace Bwtc.Wave
open Huff

/-- Number of words that pass through or end at a path. -/
def thru (ws : List (List Bool)) (q : Path) : Nat := ws.countP fun w => decide (q <+: w)

theorem nextBit_iff_prefix {q w : List Bool} {b : Bool} : nextBit q w = some b ↔ q ++ [b] <+: w := by
  rw [nextBit_eq_some]
  constructor
  · rintro ⟨r, rfl⟩; exact ⟨r, by simp⟩
  · rintro ⟨r, hr⟩; exact ⟨r, by rw [← hr]; simp⟩

theorem thru_child (ws : List (List Bool)) (q : Path) (b : Bool) : thru ws (q ++ [b]) = (bitsAt ws q).count b := by
  induction ws with
  | nil => rfl
  | cons w ws ih =>
    rw [thru, List.countP_cons, bitsAt_cons, List.count_append, ← ih, Nat.add_comm]
    congr 1
    cases h : nextBit q w with
    | none =>
      have : ¬ q ++ [b] <+: w := fun hp => by rw [nextBit_iff_prefix.mpr hp] at h; simp at h
      simp [this]
    | some b' =>
      by_cases hb : b' = b
      · subst hb
        simp [nextBit_iff_prefix.mp h]
      · have : ¬ q ++ [b] <+: w := fun hp => by
          rw [nextBit_iff_prefix.mpr hp] at h
          simp at h
          exact hb h.symm
        simp [this, hb]

theorem thru_eq {ws : List (List Bool)} {q : Path} (h : ∀ w ∈ ws, w ≠ q) : thru ws q = (bitsAt ws q).length := by
  induction ws with
  | nil => rfl
  | cons w ws ih =>
    rw [thru, List.countP_cons, bitsAt_cons, List.length_append, ← ih (fun x hx => h x (List.mem_cons_of_mem _ hx)),
      Nat.add_comm]
    congr 1
    by_cases hp : q <+: w
    · obtain ⟨r, hr⟩ := hp
      cases r with
      | nil => rw [List.append_nil] at hr; exact absurd hr.symm (h w List.mem_cons_self)
      | cons b r =>
        rw [← hr, nextBit_append]
        simp
    · have : nextBit q w = none := by
        cases e : nextBit q w with
        | none => rfl
        | some b =>
          obtain ⟨r, hr⟩ := nextBit_eq_some.mp e
          exact absurd ⟨_, hr.symm⟩ hp
      simp [hp, this]

theorem count_both (l : List Bool) : l.count true + l.count false = l.length := by
  induction l with
  | nil => rfl
  | cons b l ih => cases b <;> simp <;> omega

/-- `bitsSeen` after the bits of `W` at the depths `lo` to `hi - 1` have been counted. -/
def bumped (seen : Seen) (W : List Bool) (lo hi : Nat) : Seen := fun x =>
  seen x + if lo ≤ x.length ∧ x.length < hi ∧ nextBit x W = some true then 1 else 0

theorem bumped_same (seen : Seen) (W : List Bool) (lo : Nat) : bumped seen W lo lo = seen := by
  funext x
  rw [bumped, if_neg (by omega), Nat.add_zero]

theorem bumped_bumped (seen : Seen) (W : List Bool) {lo mid hi : Nat} (h1 : lo ≤ mid) (h2 : mid ≤ hi) :
    bumped (bumped seen W lo mid) W mid hi = bumped seen W lo hi := by
  funext x
  rw [bumped, bumped, bumped]
  by_cases h : nextBit x W = some true
  · simp only [h, and_true]
    split <;> split <;> split <;> omega
  · simp [h]

theorem bumped_above {seen : Seen} {W : List Bool} {lo hi : Nat} {x : Path} (h : hi ≤ x.length) :
    bumped seen W lo hi x = seen x := by
  rw [bumped, if_neg (by omega), Nat.add_zero]

section
variable {g : Heap} {P : List (List Bool)} {W : List Bool}
  (hnode : ∀ q b x, W = q ++ b :: x → ∃ nd, g q = some nd ∧ nd.bits[thru P q]? = some b)
  (hfree : ∀ w ∈ P, ∀ b x, W ≠ w ++ b :: x)

/-- The count of a node is right. -/
def SeenAt (P : List (List Bool)) (seen : Seen) (q : Path) : Prop := seen q = (bitsAt P q).count true

theorem bump_true (seen : Seen) {q : Path} {x : List Bool} (hW : W = q ++ true :: x) :
    (fun y => if y = q then seen q + 1 else seen y) = bumped seen W q.length (q.length + 1) := by
  funext y
  rw [bumped]
  by_cases hy : y = q
  · subst hy
    rw [if_pos rfl, if_pos ⟨Nat.le_refl _, Nat.lt_succ_self _, nextBit_eq_some.mpr ⟨x, hW⟩⟩]
  · rw [if_neg hy]
    split
    · rename_i h
      have hl : y.length = q.length := by omega
      rw [hW, nextBit_same_length hl hy] at h
      simp at h
    · rfl

theorem bump_false (seen : Seen) {q : Path} {x : List Bool} (hW : W = q ++ false :: x) :
    seen = bumped seen W q.length (q.length + 1) := by
  funext y
  rw [bumped]
  split
  · rename_i h
    have hl : y.length = q.length := by omega
    by_cases hy : y = q
    · rw [hy, hW, nextBit_append] at h
      simp at h
    · rw [hW, nextBit_same_length hl hy] at h
      simp at h
  · rfl

include hfree in
theorem thru_split {q : Path} {b : Bool} {x : List Bool} (hW : W = q ++ b :: x) :
    thru P q = thru P (q ++ [true]) + thru P (q ++ [false]) := by
  rw [thru_child, thru_child, count_both]
  apply thru_eq
  intro w hw e
  subst e
  exact hfree _ hw _ _ hW

include hnode hfree in
theorem descend_ok {seen : Seen} {q : Path} {b : Bool} {x : List Bool} (hW : W = q ++ b :: x) (hs : SeenAt P seen q) :
    descend g seen q (thru P q) = some (b, thru P (q ++ [b]), bumped seen W q.length (q.length + 1)) := by
  obtain ⟨nd, h1, h2⟩ := hnode q b x hW
  rw [descend, h1]
  simp only []
  rw [h2]
  have ht := thru_split hfree hW
  have hs' : seen q = thru P (q ++ [true]) := by rw [thru_child]; exact hs
  cases b with
  | true =>
    simp only []
    rw [bump_true seen hW, hs']
  | false =>
    simp only []
    rw [if_pos (by omega), ← bump_false seen hW]
    congr 3
    omega

include hnode hfree in
theorem walk_ok {s : Nat} {nd : Node} : ∀ (a : List Bool) (fuel : Nat) (seen : Seen) (q : Path) (x : List Bool),
    a ≠ [] → W = q ++ a ++ x → a.length ≤ fuel →
    (∀ a' b y, a = a' ++ b :: y → SeenAt P seen (q ++ a')) →
    (∀ a' b y, a' ≠ [] → a = a' ++ b :: y → ∃ nd, g (q ++ a') = some nd ∧ nd.sym = none) →
    g (q ++ a) = some nd → nd.sym = some s →
    walk g fuel seen q (thru P q) =
      some (s, q ++ a, thru P (q ++ a), bumped seen W q.length (q ++ a).length)
  | [], _, _, _, _, h, _, _, _, _, _, _ => absurd rfl h
  | b :: a, 0, _, _, _, _, _, h, _, _, _, _ => by simp at h
  | b :: a, fuel + 1, seen, q, x, _, hW, hf, hs, hsym, hnd, hsymnd => by
    have hW' : W = q ++ b :: (a ++ x) := by rw [hW]; simp
    rw [walk, descend_ok hnode hfree hW' (by simpa using hs [] b a rfl)]
    simp only []
    cases a with
    | nil =>
      rw [hnd]
      simp only []
      rw [hsymnd]
      simp
    | cons b' a =>
      obtain ⟨nd', h1, h2⟩ := hsym [b] b' a (by simp) rfl
      rw [h1]
      simp only []
      rw [h2]
      simp only []
      have e : q ++ [b] ++ b' :: a = q ++ b :: b' :: a := by simp
      have := walk_ok (b' :: a) fuel (bumped seen W q.length (q.length + 1)) (q ++ [b]) x (by simp)
        (by rw [hW, e]) (by simpa using hf)
        (by
          intro a' b'' y e
          rw [SeenAt, bumped_above (by simp)]
          have := hs (b :: a') b'' y (by rw [e]; rfl)
          rw [SeenAt] at this
          rw [List.append_assoc]
          exact this)
        (by
          intro a' b'' y hne e
          have := hsym (b :: a') b'' y (by simp) (by rw [e]; rfl)
          rw [List.append_assoc]
          exact this)
        (by rw [e]; exact hnd) hsymnd
      rw [this, e, List.length_append, List.length_append, List.length_singleton,
        bumped_bumped _ _ (by omega) (by simp)]

include hnode in
theorem walkOnes_ok {tl : List Bool} : ∀ (k fuel : Nat) (seen : Seen) (q : Path) (ones : Nat),
    W = q ++ List.replicate k true ++ false :: tl → k < fuel →
    (∀ j, j < k → SeenAt P seen (q ++ List.replicate j true)) →
    walkOnes g fuel seen q (thru P q) ones = some (ones + k, q ++ List.replicate k true,
      thru P (q ++ List.replicate k true), bumped seen W q.length (q.length + k))
  | _, 0, _, _, _, _, h, _ => by omega
  | 0, fuel + 1, seen, q, ones, hW, _, _ => by
    have hW : W = q ++ false :: tl := by simpa using hW
    obtain ⟨nd, h1, h2⟩ := hnode q false tl hW
    rw [walkOnes, h1]
    simp only []
    rw [h2]
    simp [bumped_same]
  | k + 1, fuel + 1, seen, q, ones, hW, hf, hs => by
    have hW' : W = q ++ true :: (List.replicate k true ++ false :: tl) := by
      rw [hW, List.replicate_succ]; simp
    obtain ⟨nd, h1, h2⟩ := hnode q true _ hW'
    rw [walkOnes, h1]
    simp only []
    rw [h2]
    simp only []
    have hs' : seen q = thru P (q ++ [true]) := by
      rw [thru_child]
      have := hs 0 (by omega)
      simpa [SeenAt] using this
    rw [bump_true seen hW', hs']
    have e : q ++ [true] ++ List.replicate k true = q ++ List.replicate (k + 1) true := by
      rw [List.replicate_succ]; simp
    have := walkOnes_ok k fuel (bumped seen W q.length (q.length + 1)) (q ++ [true]) (ones + 1)
      (by rw [e]; exact hW) (by omega)
      (by
        intro j hj
        rw [SeenAt, bumped_above (by simp)]
        have := hs (j + 1) (by omega)
        rw [SeenAt, List.replicate_succ] at this
        rw [List.append_assoc]
        exact this)
    rw [this, e, List.length_append, List.length_singleton, bumped_bumped _ _ (by omega) (by omega)]
    congr 2
    · omega
    · congr 3
      omega

include hnode hfree in
theorem walkBits_ok : ∀ (tl : List Bool) (seen : Seen) (q : Path) (b : Bool) (v : Nat), W = q ++ b :: tl →
    (∀ a' y z, b :: tl = a' ++ y :: z → z ≠ [] → SeenAt P seen (q ++ a')) →
    walkBits g tl.length seen q (thru P q) v = some (natOfAux v tl, bumped seen W q.length (q.length + tl.length))
  | [], seen, q, b, v, hW, _ => by
    rw [List.length_nil, walkBits, Nat.add_zero, bumped_same]; rfl
  | b' :: tl, seen, q, b, v, hW, hs => by
    have e : q ++ b :: b' :: tl = (q ++ [b]) ++ b' :: tl := by simp
    obtain ⟨nd, h1, h2⟩ := hnode (q ++ [b]) b' tl (by rw [hW, e])
    rw [List.length_cons, walkBits, descend_ok hnode hfree hW (by simpa using hs [] b (b' :: tl) rfl (by simp))]
    simp only []
    rw [h1]
    simp only []
    rw [h2]
    simp only []
    rw [walkBits_ok tl _ (q ++ [b]) b' _ (by rw [hW, e])
      (by
        intro a' y z e hz
        rw [SeenAt, bumped_above (by simp)]
        have := hs (b :: a') y z (by rw [e]; rfl) hz
        rw [SeenAt] at this
        rw [List.append_assoc]
        exact this)]
    rw [natOfAux, List.length_append, List.length_singleton, bumped_bumped _ _ (by omega) (by omega)]
    congr 3
    omega

end

/-! ## The tree a decoder must have rebuilt -/

/-- A tree with the bits of the runs `rs`, with the symbols of the code trees. -/
structure Labelled (c : Codes) (rs : List (UInt8 × Nat)) (g : Heap) : Prop where
  bits : ∀ q, bitsAt (words c rs) q ≠ [] → ∃ nd, g q = some nd ∧ nd.bits = bitsAt (words c rs) q
  byte : ∀ q s l r nd, c.root.get q = .node s l r → g q = some nd → nd.sym = s
  int : ∀ p q s s' l r x, c.root.get p = .leaf s → q ≠ [] → c.itree.get q = .node s' l r → x ∈ rs →
    p ++ q <+: word c x → ∃ nd, g (p ++ q) = some nd ∧ nd.sym = s'

/-- The last bit of a fixed code is read at this node. -/
def LastAt (c : Codes) (q : Path) : Prop :=
  ∃ p q' s, q = p ++ q' ∧ c.root.get p = .leaf s ∧ (istate c q').status = 2 ∧ (istate c q').ones = 1

/-- `bitsSeen` after the runs `pre`. -/
def SeenOk (c : Codes) (pre : List (UInt8 × Nat)) (seen : Seen) : Prop :=
  ∀ q, ¬ LastAt c q → SeenAt (words c pre) seen q

theorem lastAt_iff {c : Codes} {p q : Path} {s : Nat} (hp : c.root.get p = .leaf s) :
    LastAt c (p ++ q) ↔ (istate c q).status = 2 ∧ (istate c q).ones = 1 := by
  constructor
  · rintro ⟨p', q', s', e, hp', h⟩
    rcases append_comparable e with ⟨y, h1, h2⟩ | ⟨y, h1, h2⟩
    · rw [h1] at hp'
      obtain ⟨rfl, _⟩ := leaf_prefix hp hp'
      rw [List.nil_append] at h2
      rw [h2]; exact h
    · rw [h1] at hp
      obtain ⟨rfl, _⟩ := leaf_prefix hp' hp
      rw [List.nil_append] at h2
      rw [← h2]; exact h
  · intro h
    exact ⟨p, q, s, rfl, hp, h⟩

/-- A node above a byte. -/
theorem not_lastAt_above {c : Codes} {q y : Path} {b : Bool} {s : Nat} (hp : c.root.get (q ++ b :: y) = .leaf s) :
    ¬ LastAt c q := by
  rintro ⟨p', q', s', e, hp', _⟩
  rw [e, List.append_assoc] at hp
  have := (leaf_prefix hp' hp).1
  simp at this

theorem RootOk.above {t : Sh} (h : RootOk t) {p : Path} {b : Bool} {q : Path} {s : Nat} (hs : t.get (p ++ b :: q) = .leaf s) :
    ∃ l r, t.get p = .node none l r := by
  rcases h with ⟨l, r, _, hF⟩ | ⟨s', rfl⟩
  · obtain ⟨l', r', h1, _⟩ := hF.inner (p := p) (b := b) (q := q) (by rw [hs]; simp [Sh.leaf])
    exact ⟨l', r', h1⟩
  · cases p with
    | nil => exact ⟨_, _, rfl⟩
    | cons a p =>
      exfalso
      cases a with
      | false =>
        have : (Sh.leaf s').get (p ++ b :: q) = .leaf s := hs
        cases p with
        | nil => rw [List.nil_append, Sh.leaf_get] at this; simp [Sh.leaf] at this
        | cons a' p => rw [List.cons_append, Sh.leaf_get] at this; simp [Sh.leaf] at this
      | true =>
        have : Sh.nil.get (p ++ b :: q) = .leaf s := hs
        simp [Sh.leaf] at this

theorem RootOk.root {t : Sh} (h : RootOk t) : ∃ l r, t = .node none l r := by
  rcases h with ⟨l, r, e, _⟩ | ⟨s, e⟩
  · exact ⟨l, r, e⟩
  · exact ⟨_, _, e⟩

theorem ccode_ne_nil {c : Codes} (hg : GoodCodes c) {x : UInt8} (hx : x.toNat ∈ c.codes.map (·.1)) :
    ccode c x ≠ [] := by
  intro e
  have := ccode_get hg hx
  obtain ⟨l, r, h⟩ := hg.root.root
  rw [e, h] at this
  simp [Sh.leaf] at this

/-- The codes of run lengths, by kind. -/
theorem icode_kind {c : Codes} (hg : GoodCodes c) {n : Nat} (hn : 0 < n) :
    (c.itree.sym = none ∧ Full c.itree ∧ c.itree.get (icode c n) = .leaf n) ∨
    ∃ B tl e, icode c n = e ++ (List.replicate B true ++ false :: tl) ∧ tl.length = B + c.w ∧
      n = natOf tl + translation B c.w ∧ c.itree.get e = .leaf 0 ∧
      ((c.itree.sym = none ∧ Full c.itree ∧ e ≠ []) ∨ (c.itree = .leaf 0 ∧ e = [])) := by
  have hi := icode_eq hg hn
  rw [runCode] at hi
  cases hf : c.icodes.find? (fun p => decide (p.1 = n)) with
  | some p =>
    left
    rw [hf] at hi
    simp only [Option.some.injEq] at hi
    obtain ⟨⟨l, r, e, hF⟩, hget⟩ := find_icode hg hn hf
    rw [hi] at hget
    exact ⟨by rw [e]; rfl, hF, hget⟩
  | none =>
    right
    rw [hf, fixedCode_eq hn (by have := hg.w; omega)] at hi
    simp only [Option.map_some, Option.some.injEq] at hi
    have ht := fixed_translation (w := c.w) hn
    refine ⟨fixedB n c.w, _, codeOf c.icodes 0, hi.symm, ?_, ?_, escape_get hg, ?_⟩
    · rw [bitsOf_length]; omega
    · rw [natOf_bitsOf_of_lt ht.2]; omega
    · rcases hg.itree with ⟨h1, h2⟩ | ⟨⟨l, r, e, hF⟩, _⟩
      · right
        exact ⟨h1, by rw [h2]; rfl⟩
      · left
        refine ⟨by rw [e]; rfl, hF, ?_⟩
        intro h
        have := escape_get hg
        rw [h, e] at this
        simp [Sh.leaf] at this

theorem readRun_ok {c : Codes} (hg : GoodCodes c) {g : Heap} {pre post : List (UInt8 × Nat)} {r : UInt8 × Nat}
    (hcov : ∀ x ∈ pre ++ r :: post, Covered c x) (hl : Labelled c (pre ++ r :: post) g) {seen : Seen}
    (hseen : SeenOk c pre seen) {fuel : Nat} (hfuel : (word c r).length < fuel) :
    ∃ seen', readRun fuel c g seen pre.length = some (r, seen') ∧ SeenOk c (pre ++ [r]) seen' := by
  have hr : Covered c r := hcov r (by simp)
  have hfree : ∀ w ∈ words c pre, ∀ b x, word c r ≠ w ++ b :: x := by
    intro w hw b x e
    obtain ⟨r', hr', rfl⟩ := List.mem_map.mp hw
    have := (word_prefix hg (hcov r' (by simp [hr'])) hr e).1
    simp at this
  have hbits : ∀ q, bitsAt (words c (pre ++ r :: post)) q =
      bitsAt (words c pre) q ++ ((nextBit q (word c r)).toList ++ bitsAt (words c post) q) := by
    intro q
    rw [words, List.map_append, bitsAt_append, List.map_cons, bitsAt_cons]
    rfl
  have hnode : ∀ q b x, word c r = q ++ b :: x →
      ∃ nd, g q = some nd ∧ nd.bits[thru (words c pre) q]? = some b := by
    intro q b x e
    have hb := hbits q
    have hnb : nextBit q (word c r) = some b := nextBit_eq_some.mpr ⟨x, e⟩
    rw [hnb, Option.toList_some] at hb
    obtain ⟨nd, h1, h2⟩ := hl.bits q (by rw [hb]; simp)
    refine ⟨nd, h1, ?_⟩
    rw [h2, hb, thru_eq]
    · simp
    · intro w hw e'
      subst e'
      exact hfree _ hw _ _ e
  have hcc := ccode_get hg hr.1
  have hccne := ccode_ne_nil hg hr.1
  have hiine := icode_ne_nil hg hr.2.1
  have hW : word c r = ccode c r.1 ++ icode c r.2 := rfl
  have hlen : (word c r).length = (ccode c r.1).length + (icode c r.2).length := by rw [hW, List.length_append]
  -- the byte
  obtain ⟨nd0, hnd0, hsym0⟩ : ∃ nd, g (ccode c r.1) = some nd ∧ nd.sym = some r.1.toNat := by
    cases hi : icode c r.2 with
    | nil => exact absurd hi hiine
    | cons b x =>
      obtain ⟨nd, h1, _⟩ := hnode (ccode c r.1) b x (by rw [hW, hi])
      exact ⟨nd, h1, hl.byte _ _ _ _ _ hcc h1⟩
  have hwalk1 : walk g fuel seen [] pre.length = some (r.1.toNat, ccode c r.1,
      thru (words c pre) (ccode c r.1), bumped seen (word c r) 0 (ccode c r.1).length) := by
    have h0 : thru (words c pre) [] = pre.length := by
      rw [thru, List.countP_eq_length.mpr (by simp), words, List.length_map]
    have := walk_ok hnode hfree (s := r.1.toNat) (nd := nd0) (ccode c r.1) fuel seen [] (icode c r.2)
      hccne (by rw [hW]; rfl) (by omega)
      (by
        intro a' b y e
        apply hseen
        rw [e] at hcc
        exact not_lastAt_above hcc)
      (by
        intro a' b y hne e
        rw [List.nil_append]
        rw [e] at hcc
        obtain ⟨l, r', h1⟩ := hg.root.above hcc
        obtain ⟨nd, h2, _⟩ := hnode a' b (y ++ icode c r.2) (by rw [hW, e]; simp)
        exact ⟨nd, h2, hl.byte _ _ _ _ _ h1 h2⟩)
      (by rw [List.nil_append]; exact hnd0) hsym0
    rw [h0] at this
    exact this
  have hsb : UInt8.ofNat r.1.toNat = r.1 := by simp
  -- seen at nodes of the run-length code
  have hstat : ∀ q, ¬ ((istate c q).status = 2 ∧ (istate c q).ones = 1) → ∀ lo,
      SeenAt (words c pre) (bumped seen (word c r) lo (ccode c r.1).length) (ccode c r.1 ++ q) := by
    intro q hq lo
    rw [SeenAt, bumped_above (by simp)]
    exact hseen _ (fun h => hq ((lastAt_iff hcc).mp h))
  -- the final counts
  have hfinal : ∀ hi, ((word c r).length ≤ hi ∨ ((word c r).length = hi + 1 ∧
        ∀ x y, word c r = x ++ [y] → LastAt c x ∨ y = false)) →
      SeenOk c (pre ++ [r]) (bumped seen (word c r) 0 hi) := by
    intro hi hh q hq
    have h1 := hseen q hq
    rw [SeenAt] at h1 ⊢
    rw [words, List.map_append, bitsAt_append, List.count_append, bumped, h1]
    congr 1
    rw [List.map_singleton, bitsAt_single]
    cases hnb : nextBit q (word c r) with
    | none => simp
    | some b =>
      obtain ⟨x, hx⟩ := nextBit_eq_some.mp hnb
      have hlx := congrArg List.length hx
      rw [List.length_append, List.length_cons] at hlx
      cases b with
      | false => simp
      | true =>
        by_cases hlt : q.length < hi
        · rw [if_pos ⟨by omega, hlt, rfl⟩]; rfl
        · exfalso
          rcases hh with hh | ⟨hh, hh2⟩
          · omega
          · have : x = [] := List.length_eq_zero_iff.mp (by omega)
            subst this
            rcases hh2 q true hx with h | h
            · exact hq h
            · simp at h
  rcases icode_kind hg hr.2.1 with ⟨k1, k2, k3⟩ | ⟨B, tl, e, k1, k2, k3, k4, k5⟩
  · -- a run length of the table
    obtain ⟨nd1, hnd1, hsym1⟩ := hl.int (ccode c r.1) (icode c r.2) _ _ _ _ r hcc hiine k3 (by simp)
      ⟨[], by rw [List.append_nil]; rfl⟩
    have hwalk2 := walk_ok hnode hfree (s := r.2) (nd := nd1) (icode c r.2) fuel
      (bumped seen (word c r) 0 (ccode c r.1).length) (ccode c r.1) [] hiine (by rw [List.append_nil]; rfl)
      (by omega)
      (by
        intro a' b y e
        apply hstat
        rw [istate, irun_tree]
        · simp
        · intro h
          rw [e, Sh.get_append, h] at k3
          simp [Sh.leaf] at k3)
      (by
        intro a' b y hne e
        rw [e] at k3
        obtain ⟨l, r', h1, _⟩ := k2.inner (p := a') (b := b) (q := y) (by rw [k3]; simp [Sh.leaf])
        exact hl.int (ccode c r.1) a' _ _ _ _ r hcc hne h1 (by simp)
          ⟨b :: y, by rw [hW, e]; simp⟩)
      hnd1 hsym1
    rw [bumped_bumped _ _ (by omega) (by rw [List.length_append]; omega)] at hwalk2
    refine ⟨_, ?_, hfinal _ (Or.inl (Nat.le_refl _))⟩
    rw [readRun, hwalk1]
    simp only [Option.bind_eq_bind, Option.bind_some, walkTable, k1, Option.isNone_none, if_true, hwalk2]
    rw [if_neg (by have := hr.2.1; omega), hsb]
    rfl
  · -- a run length with a fixed code
    have hIe : ∀ q, istate c (e ++ q) = irun c.w ⟨.leaf 0, 0, 0⟩ q := by
      intro q
      rw [istate, irun_append, irun_tree _ e _ _ _ (by rw [k4]; simp [Sh.leaf]), k4]
    have hpart : ∃ hi, walkTable fuel c g (bumped seen (word c r) 0 (ccode c r.1).length)
          (ccode c r.1) (thru (words c pre) (ccode c r.1)) =
        some (0, ccode c r.1 ++ e, thru (words c pre) (ccode c r.1 ++ e), bumped seen (word c r) 0 hi) ∧
        hi = (ccode c r.1 ++ e).length := by
      rcases k5 with ⟨k6, k7, k8⟩ | ⟨k6, k7⟩
      · refine ⟨_, ?_, rfl⟩
        obtain ⟨nd1, hnd1, hsym1⟩ := hl.int (ccode c r.1) e _ _ _ _ r hcc k8 k4 (by simp)
          ⟨List.replicate B true ++ false :: tl, by rw [hW, k1]; simp⟩
        have hwalk2 := walk_ok hnode hfree (s := 0) (nd := nd1) e fuel
          (bumped seen (word c r) 0 (ccode c r.1).length) (ccode c r.1) (List.replicate B true ++ false :: tl) k8
          (by rw [hW, k1, List.append_assoc])
          (by
            have := congrArg List.length k1
            rw [List.length_append] at this
            omega)
          (by
            intro a' b y e'
            apply hstat
            rw [istate, irun_tree]
            · simp
            · intro h
              rw [e', Sh.get_append, h] at k4
              simp [Sh.leaf] at k4)
          (by
            intro a' b y hne e'
            rw [e'] at k4
            obtain ⟨l, r', h1, _⟩ := k7.inner (p := a') (b := b) (q := y) (by rw [k4]; simp [Sh.leaf])
            exact hl.int (ccode c r.1) a' _ _ _ _ r hcc hne h1 (by simp)
              ⟨_, by rw [hW, k1, e', List.append_assoc, List.append_assoc]⟩)
          hnd1 hsym1
        rw [bumped_bumped _ _ (by omega) (by rw [List.length_append]; omega)] at hwalk2
        rw [walkTable, k6, Option.isNone_none, if_pos rfl, hwalk2]
      · refine ⟨_, ?_, rfl⟩
        rw [walkTable, k6, k7, List.append_nil]
        rfl
    obtain ⟨hi, hpart, hhi⟩ := hpart
    have hWB : word c r = (ccode c r.1 ++ e) ++ List.replicate B true ++ false :: tl := by
      rw [hW, k1]; simp
    have hlenB := congrArg List.length hWB
    rw [List.length_append, List.length_append, ← hhi, List.length_replicate, List.length_cons] at hlenB
    have hone : ∀ j, ¬ ((istate c (e ++ List.replicate j true)).status = 2 ∧
        (istate c (e ++ List.replicate j true)).ones = 1) := by
      intro j
      rw [hIe]
      cases j with
      | zero => simp [irun]
      | succ j => rw [irun_ones]; simp
    have hwo := walkOnes_ok hnode (tl := tl) B fuel (bumped seen (word c r) 0 hi) (ccode c r.1 ++ e) 0 hWB
      (by omega)
      (by
        intro j hj
        rw [SeenAt, bumped_above (by rw [List.length_append]; omega)]
        apply hseen
        rw [List.append_assoc]
        exact fun h => hone j ((lastAt_iff hcc).mp h))
    rw [← hhi, bumped_bumped _ _ (by omega) (by omega), Nat.zero_add] at hwo
    have hlq : (ccode c r.1 ++ e ++ List.replicate B true).length = hi + B := by
      rw [List.length_append, ← hhi, List.length_replicate]
    have hwb := walkBits_ok hnode hfree tl (bumped seen (word c r) 0 (hi + B))
      (ccode c r.1 ++ e ++ List.replicate B true) false 0 hWB
      (by
        intro a' y z e' hz
        rw [SeenAt, bumped_above (by rw [List.length_append]; omega)]
        apply hseen
        rw [List.append_assoc, List.append_assoc]
        intro hlast
        have := (lastAt_iff hcc).mp hlast
        rw [hIe] at this
        cases a' with
        | nil =>
          rw [List.append_nil] at this
          cases B with
          | zero => simp [irun] at this
          | succ j => rw [irun_ones] at this; simp at this
        | cons x a' =>
          rw [List.cons_append, List.cons.injEq] at e'
          obtain ⟨rfl, e'⟩ := e'
          have e2 : List.replicate B true ++ false :: a' = (List.replicate B true ++ [false]) ++ a' := by simp
          rw [e2, irun_append, irun_zero, irun_tail] at this
          have hlz := congrArg List.length e'
          rw [List.length_append, List.length_cons] at hlz
          have : 0 < z.length := List.length_pos_iff.mpr hz
          simp only [] at *
          omega)
    rw [hlq, bumped_bumped _ _ (by omega) (by omega), k2] at hwb
    refine ⟨_, ?_, hfinal (hi + B + (B + c.w)) (Or.inr ⟨by omega, ?_⟩)⟩
    · rw [readRun, hwalk1]
      simp only [Option.bind_eq_bind, Option.bind_some, hpart, if_true, hwo]
      have h64 : ¬ 64 ≤ B + c.w := by
        have hB : B ≤ 32 := by
          apply Decidable.byContradiction
          intro hc
          have h1 := translation_eq B c.w
          have h2 : 2 ^ (c.w + 33) ≤ 2 ^ (c.w + B) := Nat.pow_le_pow_right (by omega) (by omega)
          rw [Nat.pow_add] at h2
          have h3 : 1 ≤ 2 ^ c.w := Nat.one_le_two_pow
          have h4 := hr.2.2
          omega
        have := hg.w
        omega
      rw [if_neg h64, hwb]
      simp only [Option.bind_some, hsb]
      show some ((r.1, natOf tl + translation B c.w), _) = _
      rw [← k3]
    · intro x y hxy
      rcases List.eq_nil_or_concat tl with rfl | ⟨tl', z, rfl⟩
      · right
        rw [hWB] at hxy
        have := List.append_inj' hxy rfl
        simpa using this.2.symm
      · left
        have e3 : word c r = (ccode c r.1 ++ (e ++ (List.replicate B true ++ [false] ++ tl'))) ++ [z] := by
          rw [hWB]; simp
        rw [e3] at hxy
        have := (List.append_inj' hxy rfl).1
        rw [← this, lastAt_iff hcc, hIe, irun_append, irun_zero, irun_tail]
        simp at k2
        simp
        omega

theorem readRuns_ok {c : Codes} (hg : GoodCodes c) {g : Heap} {fuel : Nat} : ∀ (post pre : List (UInt8 × Nat)) (seen : Seen),
    (∀ x ∈ pre ++ post, Covered c x) → Labelled c (pre ++ post) g → SeenOk c pre seen →
    (∀ x ∈ post, (word c x).length < fuel) → readRuns fuel c g post.length seen pre.length = some post
  | [], _, _, _, _, _, _ => rfl
  | r :: post, pre, seen, hcov, hl, hs, hf => by
    obtain ⟨seen', h1, h2⟩ := readRun_ok hg hcov hl hs (hf r (by simp))
    rw [List.length_cons, readRuns, h1]
    simp only []
    have := readRuns_ok hg post (pre ++ [r]) seen' (by simpa using hcov) (by simpa using hl) h2
      (fun x hx => hf x (List.mem_cons_of_mem _ hx))
    rw [List.length_append, List.length_singleton] at this
    rw [this]
    rfl

/-- A tree with the right bits and symbols gives the message back. -/
theorem message_ok {c : Codes} (hg : GoodCodes c) {g : Heap} {rs : List (UInt8 × Nat)} (hne : rs ≠ [])
    (hcov : ∀ x ∈ rs, Covered c x) (hl : Labelled c rs g) {fuel : Nat} (hf : ∀ x ∈ rs, (word c x).length < fuel) :
    message fuel c g = some (Runs.expand rs) := by
  have hroot : (bitsAt (words c rs) []).length = rs.length := by
    rw [← thru_eq, thru, List.countP_eq_length.mpr (by simp), words, List.length_map]
    intro w hw e
    obtain ⟨r, hr, rfl⟩ := List.mem_map.mp hw
    have h1 := ccode_ne_nil hg (hcov r hr).1
    rw [word, List.append_eq_nil_iff] at e
    exact h1 e.1
  obtain ⟨nd, h1, h2⟩ := hl.bits [] (by
    intro e
    rw [e] at hroot
    exact hne (List.length_eq_zero_iff.mp hroot.symm))
  have := readRuns_ok hg rs [] (fun _ => 0) (by simpa using hcov) (by simpa using hl)
    (by intro q _; rfl) hf
  rw [List.length_nil] at this
  rw [message, h1]
  simp only [Option.bind_eq_bind, Option.bind_some, h2, hroot, this]
  rfl

end Bwtc.Wave
