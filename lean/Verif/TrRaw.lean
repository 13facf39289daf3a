import Verif.TrSplit

/-!
# A group that has to be sorted
-/

set_option autoImplicit false

namespace Bwtc.Tr
open Sais (put inv put_spec bind_some')
open Ss (cel get_cel pop Perm Res Mov nat_of dec_nat' swap_mov lgTable lg_table_pos)
open Suffix
open Divsuf (getI putI dec)
open Induce (cnt cnt_le cnt_or)

variable {T : List Nat} {cap isa h : Nat}

/-! ## Small steps -/

theorem lg_table_all : ∀ k : Fin 256, ∃ l, lgTable[k.1]? = some l ∧ -1 ≤ l ∧ (1 ≤ k.1 → 0 ≤ l) := by
  intro k
  have h : ∀ k : Fin 256, ((lgTable[k.1]?).any (fun l => decide (-1 ≤ l)) = true) := by decide +kernel
  obtain ⟨l, e, h2⟩ := lg_table_pos k
  refine ⟨l, e, ?_, h2⟩
  have := h k
  rw [e] at this
  simpa using this

theorem ilg_spec (n : Nat) : ∃ l, ilg n = some l ∧ -1 ≤ l ∧ (0 < n → n < 2 ^ 32 → 0 ≤ l) := by
  unfold ilg
  by_cases h1 : n / 65536 % 65536 ≠ 0
  · rw [if_pos h1]
    by_cases h2 : n / 16777216 % 256 ≠ 0
    · rw [if_pos h2]
      obtain ⟨l, e, h3, h4⟩ := lg_table_all ⟨n / 16777216 % 256, by omega⟩
      simp only at e h4
      exact ⟨24 + l, by rw [e]; rfl, by omega, fun _ _ => by omega⟩
    · rw [if_neg h2]
      obtain ⟨l, e, h3, h4⟩ := lg_table_all ⟨n / 65536 % 256, by omega⟩
      simp only at e h4
      exact ⟨16 + l, by rw [e]; rfl, by omega, fun _ _ => by omega⟩
  · rw [if_neg h1]
    by_cases h2 : n / 256 % 256 ≠ 0
    · rw [if_pos h2]
      obtain ⟨l, e, h3, h4⟩ := lg_table_all ⟨n / 256 % 256, by omega⟩
      simp only at e h4
      exact ⟨8 + l, by rw [e]; rfl, by omega, fun _ _ => by omega⟩
    · rw [if_neg h2]
      obtain ⟨l, e, h3, h4⟩ := lg_table_all ⟨n % 256, by omega⟩
      simp only at e h4
      exact ⟨l, e, by omega, fun h5 h6 => h4 (by omega)⟩

theorem push_spec {st : List Frame} {f : Frame} (h : st.length < cap) : push cap st f = some (f :: st) := if_pos h

theorem check_spec (b : Budget) {size : Nat} (hs : 0 < size) : ∃ ok b', check b size = (ok, b') ∧
    ((ok = true ∧ b'.count = b.count) ∨ (ok = false ∧ b.count < b'.count)) := by
  unfold check
  split
  · exact ⟨_, _, rfl, Or.inl ⟨rfl, rfl⟩⟩
  · split
    · refine ⟨_, _, rfl, Or.inr ⟨rfl, ?_⟩⟩
      show b.count < b.count + (size : Int)
      omega
    · exact ⟨_, _, rfl, Or.inl ⟨rfl, rfl⟩⟩

theorem after_step {s : Sta} {g : Frame} {sa1 : List Int} {bud1 : Budget} {o : Option (List Frame × Frame)} {stk : List Frame} (I q : Nat → Nat)
    (e : step cap isa h s.sa s.bud s.st g = some (sa1, bud1, o)) (ho : o = pop stk) :
    after cap isa h { s with st := g :: s.st } = after cap isa h ⟨I, q, sa1, bud1, stk⟩ := by
  show loop cap isa h s.sa s.bud s.st g = _
  rw [loop, bind_some' e, ho]
  cases stk with
  | nil => rfl
  | cons g' stk => rfl

/-! ## Which frames are put on the stack -/

/-- `gs` are those of `parts` with more than one cell. -/
structure Pick (gs parts : List Frame) : Prop where
  sub : ∀ g ∈ gs, g ∈ parts ∧ g.first + 1 < g.last
  sup : ∀ g ∈ parts, g.first + 1 < g.last → g ∈ gs
  pair : gs.Pairwise Apart
  len : gs.length ≤ parts.length
  asc : gs.Pairwise (fun x y => x.last - x.first ≤ y.last - y.first)
  tot : (gs.map (fun x => x.last - x.first)).sum ≤ (parts.map (fun x => x.last - x.first)).sum

macro "pick" : tactic => `(tactic| (
  refine ⟨?_, ?_, ?_, ?_, ?_, ?_⟩
  · simp [List.forall_mem_cons] <;> omega
  · (repeat' (first | refine List.forall_mem_cons.2 ⟨?_, ?_⟩ | exact fun _ h => absurd h List.not_mem_nil)) <;>
      (intro hh; dsimp only at hh; first | omega | simp)
  · simp [Apart] <;> omega
  · simp
  · simp <;> omega
  · simp <;> omega))

theorem le_sum {x : Nat} : ∀ {xs : List Nat}, (∀ y ∈ xs, x ≤ y) → xs.length * x ≤ xs.sum := by
  intro xs
  induction xs with
  | nil => intro _; simp
  | cons y xs ih =>
    intro h
    have h1 := ih (fun z hz => h z (List.mem_cons_of_mem _ hz))
    have h2 := h y (by simp)
    rw [List.length_cons, List.sum_cons, Nat.succ_mul]
    omega

/-- The frames on the stack are in ascending order of size, so that one with `k` frames below it is at most the `k + 1`st part of the whole. -/
theorem ready_of {s : Sta} {μ lo room : Nat} {tl : Int} {total N : Nat} : ∀ gs : List Frame, gs.length ≤ N → gs.Pairwise (fun x y => x.last - x.first ≤ y.last - y.first) →
    (gs.map (fun x => x.last - x.first)).sum ≤ total →
    (∀ g ∈ gs, ∀ k, k < N → (k + 1) * (g.last - g.first) ≤ total → (k ≤ room ∧ Valid T isa h s μ lo (room - k) g) ∧ lo ≤ g.first ∧ g.trlink = tl) → Ready T isa h s μ lo room tl gs := by
  intro gs
  induction gs with
  | nil => intro _ _ _ _; trivial
  | cons g gs ih =>
    intro h1 h2 h3 h4
    rw [List.length_cons] at h1
    rw [List.pairwise_cons] at h2
    rw [List.map_cons, List.sum_cons] at h3
    have h5 : gs.length * (g.last - g.first) ≤ (gs.map (fun x => x.last - x.first)).sum := by
      have := le_sum (x := g.last - g.first) (xs := gs.map (fun x => x.last - x.first)) (by
        intro y hy
        rw [List.mem_map] at hy
        obtain ⟨z, z1, z2⟩ := hy
        rw [← z2]; exact h2.1 z z1)
      rwa [List.length_map] at this
    obtain ⟨⟨k1, k2⟩, k3, k4⟩ := h4 g (by simp) gs.length (by omega) (by rw [Nat.succ_mul]; omega)
    exact ⟨k1, k2, k3, k4, ih (by omega) h2.2 (by omega) (fun g' hg' => h4 g' (List.mem_cons_of_mem _ hg'))⟩

theorem chooseTwo_spec {isad first a b last : Nat} {limit tl : Int} {st : List Frame} (hcap : st.length + 2 ≤ cap) (h1 : first ≤ a) (h2 : a ≤ b) (h3 : b ≤ last) :
    ∃ gs, chooseTwo cap isad first a b last limit tl st = some (pop (gs ++ st)) ∧
      Pick gs [⟨isad, first, a, limit, tl⟩, ⟨isad, b, last, limit, tl⟩] := by
  unfold chooseTwo
  simp only
  have hpush : ∀ f : Frame, push cap st f = some (f :: st) := fun f => push_spec (by omega)
  simp only [hpush]
  by_cases c1 : a - first ≤ last - b
  · rw [if_pos c1]
    by_cases c2 : 1 < a - first
    · rw [if_pos c2]
      refine ⟨[⟨isad, first, a, limit, tl⟩, ⟨isad, b, last, limit, tl⟩], rfl, ?_⟩
      pick
    · rw [if_neg c2]
      by_cases c3 : 1 < last - b
      · rw [if_pos c3]
        refine ⟨[⟨isad, b, last, limit, tl⟩], rfl, ?_⟩
        pick
      · rw [if_neg c3]
        refine ⟨[], rfl, ?_⟩
        pick
  · rw [if_neg c1]
    by_cases c2 : 1 < last - b
    · rw [if_pos c2]
      refine ⟨[⟨isad, b, last, limit, tl⟩, ⟨isad, first, a, limit, tl⟩], rfl, ?_⟩
      pick
    · rw [if_neg c2]
      by_cases c3 : 1 < a - first
      · rw [if_pos c3]
        refine ⟨[⟨isad, first, a, limit, tl⟩], rfl, ?_⟩
        pick
      · rw [if_neg c3]
        refine ⟨[], rfl, ?_⟩
        pick

theorem tandemGo_spec {isad first a b last : Nat} {tl : Int} {st : List Frame} (hcap : 1 < a - first → 1 < last - b → st.length < cap) (h1 : first ≤ a) (h2 : a ≤ b) (h3 : b ≤ last) :
    ∃ gs x y, tandemGo cap isad first a b last tl st = some (pop (gs ++ st)) ∧ (0 < a - first → a - first < 2 ^ 32 → 0 ≤ x) ∧
      (0 < last - b → last - b < 2 ^ 32 → 0 ≤ y) ∧ Pick gs [⟨isad, first, a, x, tl⟩, ⟨isad, b, last, y, tl⟩] := by
  unfold tandemGo
  obtain ⟨x, ex, -, hx⟩ := ilg_spec (a - first)
  obtain ⟨y, ey, -, hy⟩ := ilg_spec (last - b)
  rw [bind_some' ex, bind_some' ey]
  simp only
  by_cases c1 : a - first ≤ last - b
  · rw [if_pos c1]
    by_cases c2 : 1 < a - first
    · rw [if_pos c2, bind_some' (push_spec (hcap c2 (by omega)))]
      refine ⟨[⟨isad, first, a, x, tl⟩, ⟨isad, b, last, y, tl⟩], x, y, rfl, hx, hy, ?_⟩
      pick
    · rw [if_neg c2]
      by_cases c3 : 1 < last - b
      · rw [if_pos c3]
        refine ⟨[⟨isad, b, last, y, tl⟩], x, y, rfl, hx, hy, ?_⟩
        pick
      · rw [if_neg c3]
        refine ⟨[], x, y, rfl, hx, hy, ?_⟩
        pick
  · rw [if_neg c1]
    by_cases c2 : 1 < last - b
    · rw [if_pos c2, bind_some' (push_spec (hcap (by omega) c2))]
      refine ⟨[⟨isad, b, last, y, tl⟩, ⟨isad, first, a, x, tl⟩], x, y, rfl, hx, hy, ?_⟩
      pick
    · rw [if_neg c2]
      by_cases c3 : 1 < a - first
      · rw [if_pos c3]
        refine ⟨[⟨isad, first, a, x, tl⟩], x, y, rfl, hx, hy, ?_⟩
        pick
      · rw [if_neg c3]
        refine ⟨[], x, y, rfl, hx, hy, ?_⟩
        pick

theorem chooseAll_spec {isad incr first a b last : Nat} {limit next tl : Int} {st : List Frame} (hcap : st.length + 2 ≤ cap) (h1 : first ≤ a) (h2 : a + 1 < b)
    (h3 : b ≤ last) :
    ∃ gs st' f', chooseAll cap isad incr first a b last limit next tl st = some (st', f') ∧ f' :: st' = gs ++ st ∧
      Pick gs [⟨isad, first, a, limit, tl⟩, ⟨isad + incr, a, b, next, tl⟩, ⟨isad, b, last, limit, tl⟩] := by
  unfold chooseAll
  have hpush : ∀ f : Frame, push cap st f = some (f :: st) := fun f => push_spec (by omega)
  have hpush2 : ∀ f g : Frame, push cap (f :: st) g = some (g :: f :: st) := fun f g => push_spec (by rw [List.length_cons]; omega)
  simp only [hpush, hpush2, Option.bind_eq_bind, Option.bind_some]
  by_cases c1 : a - first ≤ last - b
  · rw [if_pos c1]
    by_cases c2 : last - b ≤ b - a
    · rw [if_pos c2]
      by_cases c3 : 1 < a - first
      · rw [if_pos c3]
        refine ⟨[⟨isad, first, a, limit, tl⟩, ⟨isad, b, last, limit, tl⟩, ⟨isad + incr, a, b, next, tl⟩], _, _, rfl, rfl, ?_⟩
        pick
      · rw [if_neg c3]
        by_cases c4 : 1 < last - b
        · rw [if_pos c4]
          refine ⟨[⟨isad, b, last, limit, tl⟩, ⟨isad + incr, a, b, next, tl⟩], _, _, rfl, rfl, ?_⟩
          pick
        · rw [if_neg c4]
          refine ⟨[⟨isad + incr, a, b, next, tl⟩], _, _, rfl, rfl, ?_⟩
          pick
    · rw [if_neg c2]
      by_cases c3 : a - first ≤ b - a
      · rw [if_pos c3]
        by_cases c4 : 1 < a - first
        · rw [if_pos c4]
          refine ⟨[⟨isad, first, a, limit, tl⟩, ⟨isad + incr, a, b, next, tl⟩, ⟨isad, b, last, limit, tl⟩], _, _, rfl, rfl, ?_⟩
          pick
        · rw [if_neg c4]
          refine ⟨[⟨isad + incr, a, b, next, tl⟩, ⟨isad, b, last, limit, tl⟩], _, _, rfl, rfl, ?_⟩
          pick
      · rw [if_neg c3]
        refine ⟨[⟨isad + incr, a, b, next, tl⟩, ⟨isad, first, a, limit, tl⟩, ⟨isad, b, last, limit, tl⟩], _, _, rfl, rfl, ?_⟩
        pick
  · rw [if_neg c1]
    by_cases c2 : a - first ≤ b - a
    · rw [if_pos c2]
      by_cases c3 : 1 < last - b
      · rw [if_pos c3]
        refine ⟨[⟨isad, b, last, limit, tl⟩, ⟨isad, first, a, limit, tl⟩, ⟨isad + incr, a, b, next, tl⟩], _, _, rfl, rfl, ?_⟩
        pick
      · rw [if_neg c3]
        by_cases c4 : 1 < a - first
        · rw [if_pos c4]
          refine ⟨[⟨isad, first, a, limit, tl⟩, ⟨isad + incr, a, b, next, tl⟩], _, _, rfl, rfl, ?_⟩
          pick
        · rw [if_neg c4]
          refine ⟨[⟨isad + incr, a, b, next, tl⟩], _, _, rfl, rfl, ?_⟩
          pick
    · rw [if_neg c2]
      by_cases c3 : last - b ≤ b - a
      · rw [if_pos c3]
        by_cases c4 : 1 < last - b
        · rw [if_pos c4]
          refine ⟨[⟨isad, b, last, limit, tl⟩, ⟨isad + incr, a, b, next, tl⟩, ⟨isad, first, a, limit, tl⟩], _, _, rfl, rfl, ?_⟩
          pick
        · rw [if_neg c4]
          refine ⟨[⟨isad + incr, a, b, next, tl⟩, ⟨isad, first, a, limit, tl⟩], _, _, rfl, rfl, ?_⟩
          pick
      · rw [if_neg c3]
        refine ⟨[⟨isad + incr, a, b, next, tl⟩, ⟨isad, b, last, limit, tl⟩, ⟨isad, first, a, limit, tl⟩], _, _, rfl, rfl, ?_⟩
        pick

/-! ## Putting the parts together -/

/-- The cells in `W` have been divided, and those in `S` have been done after that. -/
theorem finish {W S : Nat → Prop} {tl : Int} {s s1 s2 : Sta} (ht : TlOk tl s.st) (hW : Chg T isa W s s1) (hS : ∀ r, S r → W r)
    (o1 : Out tl (∀ r, W r → ¬ S r → s1.I (s1.q r) = r) s s1) (p2 : Post T isa h S tl s1 s2)
    (hcell : ∀ r, W r → ¬ S r → cel s1.sa r = (s1.q r : Int))
    (hdeep : ∀ r r', W r → ¬ S r → W r' → ¬ S r' → s1.I (s1.q r) = s1.I (s1.q r') → Agree T (2 * h) (s1.q r) (s1.q r'))
    (hcl : ∀ r, W r → ¬ S r → ¬ S (s1.I (s1.q r))) : Post T isa h W tl s s2 := by
  have hq : ∀ r, ¬ S r → s2.q r = s1.q r := p2.chg.qout
  have hI : ∀ r, W r → ¬ S r → s2.I (s2.q r) = s1.I (s1.q r) := fun r hr hs => by
    rw [hq r hs]; exact p2.chg.iout r (hW.sub r hr) hs
  have hap := p2.core.apart
  refine ⟨p2.core, (hW.trans p2.chg).congr (fun r => ⟨fun h => h.elim id (hS r), Or.inl⟩), ?_, ?_, ?_⟩
  · intro r hr
    by_cases hs : S r
    · exact p2.cells r hs
    · rw [hq r hs, ← hcell r hr hs]
      exact p2.chg.out r hs (Or.inl (by have := hW.sub r hr; omega))
  · intro r r' hr hr' he
    by_cases hs : S r
    · by_cases hs' : S r'
      · exact p2.deep r r' hs hs' he
      · rw [hI r' hr' hs'] at he
        have k := p2.chg.iin r hs
        rw [he] at k
        exact absurd k (hcl r' hr' hs')
    · by_cases hs' : S r'
      · rw [hI r hr hs] at he
        have k := p2.chg.iin r' hs'
        rw [← he] at k
        exact absurd k (hcl r hr hs)
      · rw [hI r hr hs, hI r' hr' hs'] at he
        rw [hq r hs, hq r' hs']
        exact hdeep r r' hr hs hr' hs' he
  · refine (o1.trans ht p2.out).imp ?_
    intro ⟨d1, d2⟩ r hr
    by_cases hs : S r
    · exact d2 r hs
    · rw [hI r hr hs]; exact d1 r hr hs

/-- The frame is done, whatever else is on the stack. -/
def Goal (T : List Nat) (cap isa h : Nat) (s : Sta) (g : Frame) : Prop :=
  ∃ s', after cap isa h { s with st := g :: s.st } = after cap isa h s' ∧ Post T isa h (fun r => g.first ≤ r ∧ r < g.last) g.trlink s s'

/-! ## Sorting by insertion or by heap -/

theorem Raw.sorted (hT : Alone T) {s : Sta} {d f l : Nat} {sa' : List Int} (hC : Core T isa h s) (hr : Raw T d f l s) (hres : Res f l s.sa sa')
    (hmrk : Mrk (fun i => (s.I (i + d) : Int)) f l sa') :
    ∃ s1, s1.sa = sa' ∧ s1.bud = s.bud ∧ s1.st = s.st ∧ Core T isa h s1 ∧ Chg T isa (fun r => f ≤ r ∧ r < l) s s1 ∧ Srt T h d f l s1 ∧ Band T f d f l s1 := by
  have hle := hr.grp.le
  obtain ⟨k1, k2, k3⟩ := hr.move s.bud s.st hC hres
  have hq : ∀ r, f ≤ r → r < l → newq f l s.q sa' r = dec (cel sa' r) := fun r h1 h2 => newq_in h1 h2
  have hag : ∀ r r', f ≤ r → r < l → f ≤ r' → r' < l → Agree T d (newq f l s.q sa' r) (newq f l s.q sa' r') := by
    intro r r' h1 h2 h3 h4
    rw [hq r h1 h2, hq r' h3 h4]
    obtain ⟨x, h5, h6, h7⟩ := k3 r h1 h2
    obtain ⟨y, k5, k6, k7⟩ := k3 r' h3 h4
    rw [h7, k7]; exact hr.agree x y h5 h6 k5 k6
  have hkr : ∀ r, f ≤ r → r < l → newq f l s.q sa' r + d < T.length := by
    intro r h1 h2
    obtain ⟨x, h5, h6, h7⟩ := k3 r h1 h2
    rw [hq r h1 h2, h7]; exact hr.key_room hT hC (Nat.le_refl _) h5 h6
  refine ⟨⟨s.I, newq f l s.q sa', sa', s.bud, s.st⟩, rfl, rfl, rfl, k1, k2, ⟨hr.two, ⟨hr.grp.lt, hle, ?_, ?_⟩, fun r h1 h2 => (hq r h1 h2).symm, hag, fun i => (s.I (i + d) : Int), hmrk, ?_, ?_⟩, Nat.le_refl _, ?_, ?_⟩
  · intro r h1 h2
    show s.I (newq f l s.q sa' r) + 1 = l
    obtain ⟨x, h5, h6, h7⟩ := k3 r h1 h2
    rw [hq r h1 h2, h7]; exact hr.grp.val x h5 h6
  · intro r h1
    show s.I (newq f l s.q sa' r) < f
    rw [newq_out (Or.inl h1)]; exact hr.grp.low r h1
  · intro r r' h1 h2 h3 h4 h5
    have h5' : (s.I (newq f l s.q sa' r + d) : Int) < (s.I (newq f l s.q sa' r' + d) : Int) := h5
    exact ((hag r r' h1 h2 h3 h4).less hT (by have := hkr r h1 h2; show newq f l s.q sa' r < _; omega)
      (by have := hkr r' h3 h4; show newq f l s.q sa' r' < _; omega)).2 (hC.rk.cons _ _ (hkr r h1 h2) (hkr r' h3 h4) (by omega))
  · intro r r' h1 h2 h3 h4 h5
    have h5' : (s.I (newq f l s.q sa' r + d) : Int) = (s.I (newq f l s.q sa' r' + d) : Int) := h5
    exact (hag r r' h1 h2 h3 h4).add (hC.rk.eqh _ _ (hkr r h1 h2) (hkr r' h3 h4) (by omega))
  · intro r h1
    show s.I (newq f l s.q sa' r) < f
    rw [newq_out (Or.inl h1)]; exact hr.grp.low r h1
  · intro r h1 h2 h3 _ _
    have h3 : cel sa' r < 0 := h3
    show (f ≤ s.I (newq f l s.q sa' r + d) ∧ s.I (newq f l s.q sa' r + d) < l) ↔ (f ≤ s.I (newq f l s.q sa' (r + 1) + d) ∧ s.I (newq f l s.q sa' (r + 1) + d) < l)
    rw [hq r h1 (by omega), hq (r + 1) (by omega) h2]
    have : (s.I (dec (cel sa' r) + d) : Int) = (s.I (dec (cel sa' (r + 1)) + d) : Int) := by
      rcases hmrk.step r h1 h2 with ⟨k1, k⟩ | ⟨k1, k⟩
      · first | exact k | omega
      · first | exact k | omega
    omega

theorem after_congr {s s' : Sta} (h1 : s'.sa = s.sa) (h2 : s'.bud = s.bud) (h3 : s'.st = s.st) : after cap isa h s' = after cap isa h s := by
  unfold after; rw [h1, h2, h3]

/-- A group that has been sorted by keys: the frame with limit -3 does the rest. -/
theorem sorted_goal (hT : Alone T) {μ room : Nat} (hrun : Runs' T cap isa h μ) {s : Sta} {g : Frame} {d : Nat} {sa' : List Int} (hC : Core T isa h s)
    (hr : Raw T d g.first g.last s) (hisad : g.isad = isa + d) (hd : h ≤ d) (hmu : mu T.length d g.first g.last 1 ≤ μ + 1) (ht : TlOk g.trlink s.st)
    (hcap : s.st.length + room ≤ cap) (hfit : Fits (g.last - g.first) room) (hres : Res g.first g.last s.sa sa') (hmrk : Mrk (fun i => (s.I (i + d) : Int)) g.first g.last sa')
    (e : step cap isa h s.sa s.bud s.st g = some (sa', s.bud, some (s.st, { g with limit := -3 }))) : Goal T cap isa h s g := by
  obtain ⟨s1, a1, a2, a3, a4, a5, a6, a7⟩ := hr.sorted hT hC hres hmrk
  obtain ⟨s2, e2, p2⟩ := hrun s1 { g with limit := -3 } g.first room a4 (.srt d hisad hd rfl a6 (by show mu T.length d g.first g.last 0 ≤ μ; unfold mu at hmu ⊢; omega) a7 (Or.inl hfit))
    (by rw [a3]; exact ht) (by rw [a3]; omega)
  refine ⟨s2, ?_, ?_⟩
  · rw [after_step (stk := { g with limit := -3 } :: s.st) s1.I s1.q e rfl, ← e2]
    exact after_congr a1.symm a2.symm (by show _ :: s.st = _ :: s1.st; rw [a3])
  · exact finish ht a5 (S := fun r => g.first ≤ r ∧ r < g.last) (fun _ h => h) (Or.inl ⟨a3, by rw [a2], fun r h1 h2 => absurd h1 h2⟩) p2
      (fun r h1 h2 => absurd h1 h2) (fun r r' h1 h2 => absurd h1 h2) (fun r h1 h2 => absurd h1 h2)

/-! ## Partitioning -/

/-- The three parts of a group are groups. -/
theorem three_groups {s s1 : Sta} {d f l a b : Nat} (hr : Raw T d f l s) (hc : Chg T isa (fun r => f ≤ r ∧ r < l) s s1) (hfa : f ≤ a) (hab : a ≤ b) (hbl : b ≤ l)
    (v1 : ∀ r, f ≤ r → r < a → s1.I (s1.q r) + 1 = a) (v2 : ∀ r, a ≤ r → r < b → s1.I (s1.q r) + 1 = b) (v3 : ∀ r, b ≤ r → r < l → s1.I (s1.q r) + 1 = l) :
    (f < a → IsGrp T s1.I s1.q f a) ∧ (a < b → IsGrp T s1.I s1.q a b) ∧ (b < l → IsGrp T s1.I s1.q b l) := by
  have hle := hr.grp.le
  have hlow : ∀ r, r < f → s1.I (s1.q r) < f := by
    intro r h1
    have h2 : ¬ (f ≤ r ∧ r < l) := by omega
    rw [hc.qout r h2, hc.iout r (by have := hr.grp.lt; omega) h2]
    exact hr.grp.low r h1
  refine ⟨fun h1 => ⟨h1, by omega, v1, hlow⟩, fun h1 => ⟨h1, by omega, v2, ?_⟩, fun h1 => ⟨h1, by omega, v3, ?_⟩⟩
  · intro r h2
    rcases Nat.lt_or_ge r f with h3 | h3
    · have := hlow r h3; omega
    · have := v1 r h3 h2; omega
  · intro r h2
    rcases Nat.lt_or_ge r f with h3 | h3
    · have := hlow r h3; omega
    · rcases Nat.lt_or_ge r a with h4 | h4
      · have := v1 r h3 h4; omega
      · have := v2 r h4 h2; omega

/-- A place for every suffix. -/
theorem Rk.place {I q : Nat → Nat} (hR : Rk T h I q) : ∃ pos : Nat → Nat, ∀ i, i < T.length → pos i < T.length ∧ q (pos i) = i := by
  refine ⟨fun i => if hi : i < T.length then Classical.choose (hR.onto i hi) else 0, fun i hi => ?_⟩
  simp only [hi, dif_pos]
  exact Classical.choose_spec (hR.onto i hi)

/-- The members of the group whose keys are in a group around it. -/
theorem rep_bound {s : Sta} {D f a b l : Nat} (hR : Rk T h s.I s.q) (hg : IsGrp T s.I s.q a b) (hfa : f ≤ a) (hbl : b ≤ l) (hl : l ≤ T.length)
    (hin : ∀ r, a ≤ r → r < b → s.q r + D < T.length → ∃ x, f ≤ x ∧ x < l ∧ s.q x = s.q r + D) :
    repLo T s D a b ≤ a - f ∧ repHi T s D b ≤ l - b ∧ repLo T s D a b + repHi T s D b ≤ b - a := by
  have hlt := hg.lt
  obtain ⟨pos, hpos⟩ := hR.place
  have hpi : ∀ i j, i < T.length → j < T.length → pos i = pos j → i = j := by
    intro i j hi hj e
    rw [← (hpos i hi).2, ← (hpos j hj).2, e]
  have hat : ∀ x, x < T.length → pos (s.q x) = x := fun x hx => hR.inj _ _ (hpos _ (hR.cell x hx)).1 hx (hpos _ (hR.cell x hx)).2
  have key : ∀ i, i < T.length → s.I i + 1 = b → i + D < T.length → f ≤ pos (i + D) ∧ pos (i + D) < l := by
    intro i h1 h2 h3
    obtain ⟨r, r1, r2, r3⟩ := hg.mem hR h1 h2
    obtain ⟨x, x1, x2, x3⟩ := hin r r1 r2 (by rw [r3]; exact h3)
    rw [← r3, ← x3, hat x (by omega)]
    exact ⟨x1, x2⟩
  refine ⟨?_, ?_, ?_⟩
  · rw [← cnt_range T.length f a hfa (by omega)]
    refine cnt_inj (fun i => pos (i + D)) ?_ ?_
    · intro i h1 ⟨h2, h3, h4⟩
      have k := key i h1 h2 h3
      have k2 := hpos _ h3
      refine ⟨k2.1, k.1, ?_⟩
      have := (hR.up _ k2.1).1
      rw [k2.2] at this
      show pos (i + D) < a
      omega
    · intro i j _ _ h1 h2 h3
      have := hpi _ _ h1.2.1 h2.2.1 h3
      omega
  · rw [← cnt_range T.length b l hbl hl]
    refine cnt_inj (fun i => pos (i + D)) ?_ ?_
    · intro i h1 ⟨h2, h3, h4⟩
      have k := key i h1 h2 h3
      have k2 := hpos _ h3
      refine ⟨k2.1, ?_, k.2⟩
      show b ≤ pos (i + D)
      rcases Nat.lt_or_ge (pos (i + D)) b with k3 | k3
      · have := hg.top _ k3
        rw [k2.2] at this
        omega
      · exact k3
    · intro i j _ _ h1 h2 h3
      have := hpi _ _ h1.2.1 h2.2.1 h3
      omega
  · rw [← cnt_range T.length a b (by omega) (by omega)]
    unfold repLo repHi
    rw [← cnt_or (R := fun i => s.I i + 1 = b ∧ i + D < T.length ∧ (s.I (i + D) < a ∨ b ≤ s.I (i + D))) (fun i _ => by omega) (fun i _ h1 h2 => by omega)]
    refine cnt_inj pos ?_ ?_
    · intro i h1 ⟨h2, _, _⟩
      obtain ⟨r, r1, r2, r3⟩ := hg.mem hR h1 h2
      rw [← r3, hat r (by omega)]
      exact ⟨by omega, r1, r2⟩
    · intro i j h1 h2 _ _ h3
      exact hpi _ _ h1 h2 h3

/-- A suffix of the cells that change is still in one of them. -/
theorem Chg.back {S : Nat → Prop} {s s' : Sta} (hc : Chg T isa S s s') (hC : Core T isa h s) (hC' : Core T isa h s') {r : Nat} (hr : S r) : ∃ x, S x ∧ s'.q x = s.q r := by
  have h1 := hc.sub r hr
  obtain ⟨x, x1, x2⟩ := hC'.rk.onto _ (hC.rk.cell r h1)
  refine ⟨x, ?_, x2⟩
  by_cases hx : S x
  · exact hx
  · rw [hc.qout x hx] at x2
    have := hC.rk.inj _ _ x1 h1 x2
    rw [this] at hx
    exact absurd hr hx

/-- All the members of the group have the same key. -/
theorem equal_goal (hT : Alone T) (hn : T.length < 2 ^ 32) {μ room : Nat} (hrun : Runs' T cap isa h μ) {s : Sta} {g : Frame} {d : Nat} {sa' : List Int} {v : Int} (hh : 0 < h) (hC : Core T isa h s)
    (hr : Raw T d g.first g.last s) (hisad : g.isad = isa + d) (hd : h ≤ d) (hmu : mu T.length d g.first g.last 1 ≤ μ + 1) (ht : TlOk g.trlink s.st)
    (hcap : s.st.length + room ≤ cap) (hfit : Fits (g.last - g.first) room) (hm : Mov g.first g.last s.sa sa')
    (hv : ∀ r, g.first ≤ r → r < g.last → (s.I (dec (cel sa' r) + d) : Int) = v)
    (e : step cap isa h s.sa s.bud s.st g = (let (ok, bud) := check s.bud (g.last - g.first)
      if ok then do
        let l ← ilg (g.last - g.first)
        return (sa', bud, some (s.st, { g with isad := g.isad + h, limit := l }))
      else do
        let st ← mark s.st g.trlink
        return (sa', bud, pop st))) : Goal T cap isa h s g := by
  have hle := hr.grp.le
  have h2 := hr.two
  obtain ⟨ok, bud1, ec, hok⟩ := check_spec s.bud (size := g.last - g.first) (by omega)
  rw [ec] at e
  simp only at e
  have hpos : ∀ r, g.first ≤ r → r < g.last → cel sa' r = (dec (cel sa' r) : Int) := fun r h1 h2 =>
    nat_of (hm.pos (fun r h1 h2 => by rw [hr.cells r h1 h2]; omega) r h1 h2)
  have key : ∀ st1, ∃ s1 : Sta, s1.sa = sa' ∧ s1.bud = bud1 ∧ s1.st = st1 ∧ Core T isa h s1 ∧ Chg T isa (fun r => g.first ≤ r ∧ r < g.last) s s1 ∧
      Raw T (d + h) g.first g.last s1 := by
    intro st1
    obtain ⟨k1, k2, k3⟩ := hr.move bud1 st1 hC hm.res
    have hq : ∀ r, g.first ≤ r → r < g.last → newq g.first g.last s.q sa' r = dec (cel sa' r) := fun r h1 h2 => newq_in h1 h2
    refine ⟨⟨s.I, newq g.first g.last s.q sa', sa', bud1, st1⟩, rfl, rfl, rfl, k1, k2, h2, ⟨hr.grp.lt, hle, ?_, ?_⟩, ?_, ?_⟩
    · intro r h1 h2
      show s.I (newq g.first g.last s.q sa' r) + 1 = g.last
      obtain ⟨x, h5, h6, h7⟩ := k3 r h1 h2
      rw [hq r h1 h2, h7]; exact hr.grp.val x h5 h6
    · intro r h1
      show s.I (newq g.first g.last s.q sa' r) < g.first
      rw [newq_out (Or.inl h1)]; exact hr.grp.low r h1
    · intro r h1 h2
      show cel sa' r = (newq g.first g.last s.q sa' r : Int)
      rw [hq r h1 h2]; exact hpos r h1 h2
    · intro r r' h1 h2 h3 h4
      show Agree T (d + h) (newq g.first g.last s.q sa' r) (newq g.first g.last s.q sa' r')
      rw [hq r h1 h2, hq r' h3 h4]
      have e1 := hv r h1 h2
      have e2 := hv r' h3 h4
      obtain ⟨x, h5, h6, h7⟩ := k3 r h1 h2
      obtain ⟨y, k5, k6, k7⟩ := k3 r' h3 h4
      rw [h7] at e1 ⊢
      rw [k7] at e2 ⊢
      exact (hr.agree x y h5 h6 k5 k6).add (hC.rk.eqh _ _ (hr.key_room hT hC (Nat.le_refl _) h5 h6) (hr.key_room hT hC (Nat.le_refl _) k5 k6) (by omega))
  rcases hok with ⟨hok, hcnt⟩ | ⟨hok, hcnt⟩
  · rw [hok] at e
    obtain ⟨l, el, -, hl⟩ := ilg_spec (g.last - g.first)
    rw [if_pos rfl, bind_some' el] at e
    obtain ⟨s1, a1, a2, a3, a4, a5, a6⟩ := key s.st
    have hdn := hr.deep hT hC
    obtain ⟨s2, e2, p2⟩ := hrun s1 { g with isad := g.isad + h, limit := l } g.first room a4
      (.raw (d + h) (by show g.isad + h = _; omega) (by omega) (hl (by omega) (by omega)) a6 (by
        have := mu_deep (n := T.length) (d := d) (d' := d + h) (f := g.first) (l := g.last) (f' := g.first) (l' := g.last) (k := 1) (k' := 1) (by omega) hdn hle (by omega)
        show mu T.length (d + h) g.first g.last 1 ≤ μ
        omega) hfit)
      (by rw [a3]; exact ht) (by rw [a3]; omega)
    refine ⟨s2, ?_, ?_⟩
    · rw [after_step (stk := { g with isad := g.isad + h, limit := l } :: s.st) s1.I s1.q e rfl, ← e2]
      exact after_congr a1.symm a2.symm (by show _ :: s.st = _ :: s1.st; rw [a3])
    · exact finish ht a5 (S := fun r => g.first ≤ r ∧ r < g.last) (fun _ h => h) (Or.inl ⟨a3, by rw [a2, hcnt], fun r h1 h2 => absurd h1 h2⟩) p2
        (fun r h1 h2 => absurd h1 h2) (fun r r' h1 h2 => absurd h1 h2) (fun r h1 h2 => absurd h1 h2)
  · rw [hok] at e
    obtain ⟨st1, em, hlen, -⟩ := mark_some ht
    rw [if_neg (by simp), bind_some' em] at e
    obtain ⟨s1, a1, a2, a3, a4, a5, a6⟩ := key st1
    refine ⟨s1, ?_, a4, a5, fun r hr => a6.cells r hr.1 hr.2, fun r r' h1 h2 _ => (a6.agree r r' h1.1 h1.2 h2.1 h2.2).mono (by omega), Or.inr ⟨by rw [a3]; exact em, by rw [a2]; exact hcnt⟩⟩
    rw [after_step (stk := st1) s1.I s1.q e rfl]
    exact after_congr a1.symm a2.symm a3.symm

/-- The cells of the frames that have been put on the stack. -/
theorem pick_cells {gs : List Frame} {isad isad' first a b last : Nat} {x y z tl : Int} (hp : Pick gs [⟨isad, first, a, x, tl⟩, ⟨isad', a, b, y, tl⟩, ⟨isad, b, last, z, tl⟩]) (r : Nat) :
    (∃ g ∈ gs, g.first ≤ r ∧ r < g.last) ↔ (first + 1 < a ∧ first ≤ r ∧ r < a) ∨ (a + 1 < b ∧ a ≤ r ∧ r < b) ∨ (b + 1 < last ∧ b ≤ r ∧ r < last) := by
  constructor
  · intro ⟨g, h1, h2, h3⟩
    obtain ⟨h4, h5⟩ := hp.sub g h1
    simp only [List.mem_cons, List.not_mem_nil, or_false] at h4
    rcases h4 with h4 | h4 | h4
    · subst h4; exact Or.inl ⟨h5, h2, h3⟩
    · subst h4; exact Or.inr (Or.inl ⟨h5, h2, h3⟩)
    · subst h4; exact Or.inr (Or.inr ⟨h5, h2, h3⟩)
  · intro h1
    rcases h1 with ⟨h5, h2, h3⟩ | ⟨h5, h2, h3⟩ | ⟨h5, h2, h3⟩
    · exact ⟨_, hp.sup ⟨isad, first, a, x, tl⟩ (by simp) h5, h2, h3⟩
    · exact ⟨_, hp.sup ⟨isad', a, b, y, tl⟩ (by simp) h5, h2, h3⟩
    · exact ⟨_, hp.sup ⟨isad, b, last, z, tl⟩ (by simp) h5, h2, h3⟩

theorem pick_cells2 {gs : List Frame} {isad first a b last : Nat} {x z tl : Int} (hp : Pick gs [⟨isad, first, a, x, tl⟩, ⟨isad, b, last, z, tl⟩]) (r : Nat) :
    (∃ g ∈ gs, g.first ≤ r ∧ r < g.last) ↔ (first + 1 < a ∧ first ≤ r ∧ r < a) ∨ (b + 1 < last ∧ b ≤ r ∧ r < last) := by
  constructor
  · intro ⟨g, h1, h2, h3⟩
    obtain ⟨h4, h5⟩ := hp.sub g h1
    simp only [List.mem_cons, List.not_mem_nil, or_false] at h4
    rcases h4 with h4 | h4
    · subst h4; exact Or.inl ⟨h5, h2, h3⟩
    · subst h4; exact Or.inr ⟨h5, h2, h3⟩
  · intro h1
    rcases h1 with ⟨h5, h2, h3⟩ | ⟨h5, h2, h3⟩
    · exact ⟨_, hp.sup ⟨isad, first, a, x, tl⟩ (by simp) h5, h2, h3⟩
    · exact ⟨_, hp.sup ⟨isad, b, last, z, tl⟩ (by simp) h5, h2, h3⟩

theorem three_goal {μ room : Nat} (hrun : Runs' T cap isa h μ) {s s1 : Sta} {g : Frame} {a b : Nat} {gs : List Frame} (midIn : Prop)
    (ht : TlOk g.trlink s.st) (hcap : s.st.length + room ≤ cap) (hC1 : Core T isa h s1)
    (hc : Chg T isa (fun r => g.first ≤ r ∧ r < g.last) s s1) (hfa : g.first ≤ a) (hab : a ≤ b) (hbl : b ≤ g.last)
    (v1 : ∀ r, g.first ≤ r → r < a → s1.I (s1.q r) + 1 = a) (v2 : ∀ r, a ≤ r → r < b → s1.I (s1.q r) + 1 = b) (v3 : ∀ r, b ≤ r → r < g.last → s1.I (s1.q r) + 1 = g.last)
    (hcel : ∀ r, g.first ≤ r → r < g.last → cel s1.sa r = (s1.q r : Int))
    (hmid : ∀ r r', a ≤ r → r < b → a ≤ r' → r' < b → Agree T (2 * h) (s1.q r) (s1.q r')) (hin : midIn → a + 1 < b)
    (hS : ∀ r, (∃ g ∈ gs, g.first ≤ r ∧ r < g.last) ↔ (g.first + 1 < a ∧ g.first ≤ r ∧ r < a) ∨ (midIn ∧ a ≤ r ∧ r < b) ∨ (b + 1 < g.last ∧ b ≤ r ∧ r < g.last))
    (hval : Ready T isa h s1 μ g.first room g.trlink gs) (hpair : gs.Pairwise Apart)
    (ho : (s1.st = s.st ∧ s1.bud.count = s.bud.count ∧ (midIn ∨ b ≤ a + 1)) ∨ (mark s.st g.trlink = some s1.st ∧ s.bud.count < s1.bud.count))
    (e : after cap isa h { s with st := g :: s.st } = after cap isa h { s1 with st := gs ++ s1.st }) : Goal T cap isa h s g := by
  have hsl : s1.st.length = s.st.length := by
    rcases ho with ⟨h1, _⟩ | ⟨h1, _⟩
    · rw [h1]
    · obtain ⟨x, k1, k2, _⟩ := mark_some ht
      rw [k1] at h1
      rw [← Option.some.inj h1, k2]
  have ht1 : TlOk g.trlink s1.st := by unfold TlOk at ht ⊢; rw [hsl]; exact ht
  obtain ⟨s2, e2, p2⟩ := runs_list hrun gs s1 hC1 ht1 (by omega) hval hpair
  refine ⟨s2, e.trans e2, finish ht hc (S := fun r => ∃ g ∈ gs, g.first ≤ r ∧ r < g.last) ?_ ?_ p2 (fun r h1 _ => hcel r h1.1 h1.2) ?_ ?_⟩
  · intro r hr
    rw [hS] at hr
    omega
  · rcases ho with ⟨h1, h2, h3⟩ | ⟨h1, h2⟩
    · refine Or.inl ⟨h1, h2, fun r hr hs => ?_⟩
      rw [hS] at hs
      rcases Nat.lt_or_ge r a with k1 | k1
      · have := v1 r hr.1 k1; omega
      · rcases Nat.lt_or_ge r b with k2 | k2
        · have := v2 r k1 k2
          rcases h3 with h3 | h3
          · exact absurd (Or.inr (Or.inl ⟨h3, k1, k2⟩)) hs
          · omega
        · have := v3 r k2 hr.2; omega
    · exact Or.inr ⟨h1, h2⟩
  · intro r r' h1 h2 h3 h4 h5
    rw [hS] at h2 h4
    rcases Nat.lt_or_ge r a with k1 | k1
    · have e1 := v1 r h1.1 k1
      have : r' = r := by
        rcases Nat.lt_or_ge r' a with j1 | j1
        · omega
        · rcases Nat.lt_or_ge r' b with j2 | j2
          · have := v2 r' j1 j2; omega
          · have := v3 r' j2 h3.2; omega
      rw [this]; exact Agree.refl _ _
    · rcases Nat.lt_or_ge r b with k2 | k2
      · have e1 := v2 r k1 k2
        rcases Nat.lt_or_ge r' a with j1 | j1
        · have := v1 r' h3.1 j1; omega
        · rcases Nat.lt_or_ge r' b with j2 | j2
          · exact hmid r r' k1 k2 j1 j2
          · have := v3 r' j2 h3.2; omega
      · have e1 := v3 r k2 h1.2
        have : r' = r := by
          rcases Nat.lt_or_ge r' a with j1 | j1
          · have := v1 r' h3.1 j1; omega
          · rcases Nat.lt_or_ge r' b with j2 | j2
            · have := v2 r' j1 j2; omega
            · omega
        rw [this]; exact Agree.refl _ _
  · intro r h1 h2 h3
    rw [hS] at h2 h3
    rcases Nat.lt_or_ge r a with k1 | k1
    · have e1 := v1 r h1.1 k1
      rcases h3 with h3 | ⟨_, h3⟩ | h3 <;> omega
    · rcases Nat.lt_or_ge r b with k2 | k2
      · have e1 := v2 r k1 k2
        rcases h3 with h3 | ⟨h3, _⟩ | h3
        · omega
        · exact h2 (Or.inr (Or.inl ⟨h3, k1, k2⟩))
        · omega
      · have e1 := v3 r k2 h1.2
        rcases h3 with h3 | ⟨_, h3⟩ | h3 <;> omega

theorem part_goal (hT : Alone T) (hn : T.length < 2 ^ 32) {μ room : Nat} (hrun : Runs' T cap isa h μ) {s : Sta} {g : Frame} {d : Nat} (hh : 0 < h) (hC : Core T isa h s)
    (hr : Raw T d g.first g.last s) (hisad : g.isad = isa + d) (hd : h ≤ d) (hmu : mu T.length d g.first g.last 1 ≤ μ + 1) (ht : TlOk g.trlink s.st)
    (hcap : s.st.length + room ≤ cap) (hfit : Fits (g.last - g.first) room) (hlim : 1 ≤ g.limit)
    (e : step cap isa h s.sa s.bud s.st g = partStep cap isa h s.sa s.bud s.st g) : Goal T cap isa h s g := by
  have hle := hr.grp.le
  have h2 := hr.two
  have hG := hr.toGrp hT hC (Nat.le_refl d)
  have hdn := hr.deep hT hC
  have hr2 := hfit.two (by omega)
  have hroom := hC.room
  have hap := hC.apart
  obtain ⟨p, ep, p1, p2⟩ := pivot_spec hG (by omega)
  obtain ⟨sa1, e1, m1, c1, -, -⟩ := swap_mov (sa := s.sa) (i := g.first) (j := p) (a := g.first) (b := g.last) (Nat.le_refl _) (by omega) p1 p2 (by omega)
  have hG1 := hG.mov m1
  obtain ⟨v, ev⟩ : ∃ v : Nat, v = s.I (dec (cel sa1 g.first) + d) := ⟨_, rfl⟩
  obtain ⟨sa2, a, b, e2, m2, hfa, hab, hbl, klo, kmi, khi⟩ := partition_spec hG1 (middle := g.first + 1) (by omega) (by omega) (by omega) (v : Int) (by
    intro r h3 h4
    have : r = g.first := by omega
    subst this
    exact congrArg _ ev.symm)
  have hm := m1.trans m2
  have hmidne : a < b := by
    obtain ⟨r, h3, h4, h5⟩ := m2.res.perm.ex (x := g.first) (Nat.le_refl _) (by omega)
    have hk : (s.I (dec (cel sa2 r) + d) : Int) = (v : Int) := by rw [h5, ev]
    rcases Nat.lt_or_ge r a with k1 | k1
    · have := klo r h3 k1; omega
    · rcases Nat.lt_or_ge r b with k2 | k2
      · omega
      · have := khi r k2 h4; omega
  unfold partStep at e
  rw [hisad, bind_some' ep, bind_some' e1, bind_some' (hG1.key (Nat.le_refl _) (by omega)), ← ev, bind_some' e2] at e
  simp only at e
  by_cases hall : g.last - g.first ≠ b - a
  · rw [if_pos hall] at e
    -- the ranks
    obtain ⟨pk, epk, hpk⟩ : ∃ pk, keyCell sa2 isa a = some pk ∧ pk + 1 = (g.last : Int) := by
      have hv : 0 ≤ cel sa2 a := hm.pos (fun r h1 h2 => by rw [hr.cells r h1 h2]; omega) a hfa (by omega)
      obtain ⟨-, -, hex⟩ := hr.move s.bud s.st hC hm.res
      obtain ⟨x, x1, x2, x3⟩ := hex a hfa (by omega)
      have hlt := hC.rk.cell x (by omega)
      have hl2 := hm.res.len
      unfold keyCell keyAt getI
      rw [bind_some' (get_cel (by omega)), nat_of hv, x3, if_pos (by omega), get_cel (by omega)]
      refine ⟨_, rfl, ?_⟩
      have k1 := hC.ranks (s.q x) hlt
      have k2 := hr.grp.val x x1 x2
      rw [show ((isa : Int) + ((s.q x : Nat) : Int)).toNat = isa + s.q x by omega, hm.res.frame _ (Or.inr (by omega)), k1]
      omega
    obtain ⟨next, en, hnext⟩ : ∃ next : Int, (if pk ≠ (v : Int) then ilg (b - a) else some (-1)) = some next ∧ (0 ≤ next ∨ (next = -1 ∧ v + 1 = g.last)) := by
      by_cases hpv : pk ≠ (v : Int)
      · rw [if_pos hpv]
        obtain ⟨l, el, -, hl⟩ := ilg_spec (b - a)
        exact ⟨l, el, Or.inl (hl (by omega) (by omega))⟩
      · rw [if_neg hpv]; exact ⟨-1, rfl, Or.inr ⟨rfl, by omega⟩⟩
    rw [bind_some' epk, bind_some' en] at e
    -- any budget and stack
    have htri := fun bud1 st1 => tri hT (s := s) (d := d) (D := d) (f := g.first) (l := g.last) (a := a) (b := b) (v := (v : Int)) (sa2 := sa2) bud1 st1 True hC hr (Nat.le_refl _) hm hfa hab hbl klo kmi khi (Or.inl trivial)
    have hlow : ∀ (s1 : Sta) (x : Frame), x.isad = isa + d → x.limit = g.limit - 1 → x.first + 1 < x.last → IsGrp T s1.I s1.q x.first x.last → g.first ≤ x.first → x.last ≤ g.last →
        x.last - x.first < g.last - g.first →
        (∀ r, g.first ≤ r → r < g.last → cel s1.sa r = (s1.q r : Int)) → (∀ r r', g.first ≤ r → r < g.last → g.first ≤ r' → r' < g.last → Agree T d (s1.q r) (s1.q r')) →
        ∀ k, k < 3 → (k + 1) * (x.last - x.first) ≤ g.last - g.first → k ≤ room ∧ Valid T isa h s1 μ g.first (room - k) x := by
      intro s1 x x1 x2 x3 x4 x5 x6 x7 x8 x9 k y1 y2
      obtain ⟨z1, z2⟩ := hfit.part (k := k) (x := x.last - x.first) (by omega) y2 (by omega)
      refine ⟨z1, ?_⟩
      exact .raw d x1 hd (by omega) ⟨by omega, x4, fun r k1 k2 => x8 r (by omega) (by omega), fun r r' k1 k2 k3 k4 => x9 r r' (by omega) (by omega) (by omega) (by omega)⟩ (by
        have := mu_part (n := T.length) (d := d) (f := g.first) (l := g.last) (f' := x.first) (l' := x.last) (k := 1) (k' := 1) x7 (by omega)
        omega) z2
    by_cases hbig : 1 < b - a
    · obtain ⟨ok, bud1, ec, hok⟩ := check_spec s.bud (size := b - a) (by omega)
      rcases hok with ⟨hok, hcnt⟩ | ⟨hok, hcnt⟩
      · obtain ⟨sa3, s1, t1, t2, t3, t4, t5, t6, t7, t8, t9, t10, t11, t12, t13⟩ := htri bud1 s.st
        rw [if_pos trivial] at t1
        obtain ⟨g1, g2, g3⟩ := three_groups hr t6 hfa hab hbl t8 t9 t10
        obtain ⟨gs, st', f', eg, eq, hp⟩ := chooseAll_spec (cap := cap) (isad := isa + d) (incr := h) (first := g.first) (a := a) (b := b) (last := g.last)
          (limit := g.limit - 1) (next := next) (tl := g.trlink) (st := s.st) (by omega) hfa (by omega) hbl
        unfold partGo at e
        rw [bind_some' t1, bind_some' t2, if_pos hbig, ec] at e
        simp only at e
        rw [hok, if_pos rfl, eg] at e
        refine three_goal (s1 := s1) (gs := gs) hrun (a + 1 < b) ht hcap t5 t6 hfa hab hbl t8 t9 t10 t7 (fun r r' k1 k2 k3 k4 => (t12 r r' k1 k2 k3 k4).mono (by omega)) id
          (pick_cells hp) ?_ hp.pair (Or.inl ⟨t4, by rw [t3, hcnt], Or.inl (by omega)⟩) ?_
        · refine ready_of (total := g.last - g.first) (N := 3) gs (by have := hp.len; simp only [List.length_cons, List.length_nil] at this; omega) hp.asc (Nat.le_trans hp.tot (by simp; omega)) ?_
          intro x hx k y1 y2
          obtain ⟨x1, x2⟩ := hp.sub x hx
          simp only [List.mem_cons, List.not_mem_nil, or_false] at x1
          rcases x1 with x1 | x1 | x1
          · subst x1
            exact ⟨hlow s1 _ rfl rfl x2 (g1 (by simp only at x2; omega)) (Nat.le_refl _) (by show a ≤ _; omega) (by show a - g.first < _; omega) t7 t11 k y1 y2, Nat.le_refl _, rfl⟩
          · subst x1
            simp only at x2 y2
            have hraw : Raw T (d + h) a b s1 := ⟨by omega, g2 hmidne, fun r k1 k2 => t7 r (by omega) (by omega), t12⟩
            have hmu2 : mu T.length (d + h) a b 2 ≤ μ := by
              have := mu_deep (n := T.length) (d := d) (d' := d + h) (f := g.first) (l := g.last) (f' := a) (l' := b) (k := 1) (k' := 2) (by omega) hdn (by omega) (by omega)
              omega
            refine ⟨?_, hfa, rfl⟩
            rcases hnext with hn0 | ⟨hn1, hv1⟩
            · obtain ⟨z1, z2⟩ := hfit.part (k := k) (x := b - a) (by omega) y2 (by omega)
              exact ⟨z1, .raw (d + h) (by show isa + d + h = _; omega) (by omega) hn0 hraw (by show mu T.length (d + h) a b 1 ≤ μ; unfold mu at hmu2 ⊢; omega) z2⟩
            · obtain ⟨w1, w2, w3⟩ := rep_bound (D := d) (f := g.first) (l := g.last) t5.rk hraw.grp hfa hbl hle (by
                intro r k1 k2 k3
                have k4 := kmi r k1 k2
                rw [t13 r (by omega) (by omega)] at k3 ⊢
                obtain ⟨w, w1, w2, w3⟩ := hr.grp.mem hC.rk k3 (by omega)
                obtain ⟨x, x1, x2⟩ := t6.back hC t5 (r := w) ⟨w1, w2⟩
                exact ⟨x, x1.1, x1.2, by rw [x2, w3]⟩)
              obtain ⟨z1, z2⟩ := hfit.rep (k := k) (x := b - a) (lo := repLo T s1 d a b) (hi := repHi T s1 d b) (by omega) y2 (by omega) (fun _ => by omega)
              exact ⟨z1, .rep (d + h) (by show isa + d + h = _; omega) (by omega) hn1 hraw hmu2 (by rw [show d + h - h = d by omega]; exact z2)⟩
          · subst x1
            exact ⟨hlow s1 _ rfl rfl x2 (g3 (by simp only at x2; omega)) (by show _ ≤ b; omega) (Nat.le_refl _) (by show g.last - b < _; omega) t7 t11 k y1 y2, by show _ ≤ b; omega, rfl⟩
        · rw [after_step (stk := gs ++ s.st) s1.I s1.q e (by rw [← eq]; rfl)]
          exact after_congr rfl t3.symm (by show gs ++ s.st = gs ++ s1.st; rw [t4])
      · obtain ⟨st1, em, hlen, -⟩ := mark_some ht
        obtain ⟨sa3, s1, t1, t2, t3, t4, t5, t6, t7, t8, t9, t10, t11, t12, t13⟩ := htri bud1 st1
        rw [if_pos trivial] at t1
        obtain ⟨g1, g2, g3⟩ := three_groups hr t6 hfa hab hbl t8 t9 t10
        obtain ⟨gs, eg, hp⟩ := chooseTwo_spec (cap := cap) (isad := isa + d) (first := g.first) (a := a) (b := b) (last := g.last)
          (limit := g.limit - 1) (tl := g.trlink) (st := st1) (by omega) hfa hab hbl
        unfold partGo at e
        rw [bind_some' t1, bind_some' t2, if_pos hbig, ec] at e
        simp only at e
        rw [hok, if_neg (by simp), em] at e
        have e' : step cap isa h s.sa s.bud s.st g = some (s1.sa, bud1, pop (gs ++ st1)) := by
          rw [e, Option.bind_eq_bind, Option.bind_eq_bind, Option.bind_eq_bind, Option.bind_some, eg]; rfl
        have hpl := hp.len
        refine three_goal (s1 := s1) (gs := gs) hrun False ht hcap t5 t6 hfa hab hbl t8 t9 t10 t7 (fun r r' k1 k2 k3 k4 => (t12 r r' k1 k2 k3 k4).mono (by omega)) (fun h => h.elim)
          (fun r => by rw [pick_cells2 hp]; simp) ?_ hp.pair (Or.inr ⟨by rw [t4]; exact em, by rw [t3]; exact hcnt⟩) ?_
        · refine ready_of (total := g.last - g.first) (N := 3) gs (by have := hp.len; simp only [List.length_cons, List.length_nil] at this; omega) hp.asc (Nat.le_trans hp.tot (by simp; omega)) ?_
          intro x hx k y1 y2
          obtain ⟨x1, x2⟩ := hp.sub x hx
          simp only [List.mem_cons, List.not_mem_nil, or_false] at x1
          rcases x1 with x1 | x1
          · subst x1
            exact ⟨hlow s1 _ rfl rfl x2 (g1 (by simp only at x2; omega)) (Nat.le_refl _) (by show a ≤ _; omega) (by show a - g.first < _; omega) t7 t11 k y1 y2, Nat.le_refl _, rfl⟩
          · subst x1
            exact ⟨hlow s1 _ rfl rfl x2 (g3 (by simp only at x2; omega)) (by show _ ≤ b; omega) (Nat.le_refl _) (by show g.last - b < _; omega) t7 t11 k y1 y2, by show _ ≤ b; omega, rfl⟩
        · rw [after_step (stk := gs ++ st1) s1.I s1.q e' rfl]
          exact after_congr rfl t3.symm (by show gs ++ st1 = gs ++ s1.st; rw [t4])
    · obtain ⟨sa3, s1, t1, t2, t3, t4, t5, t6, t7, t8, t9, t10, t11, t12, t13⟩ := htri s.bud s.st
      rw [if_pos trivial] at t1
      obtain ⟨g1, g2, g3⟩ := three_groups hr t6 hfa hab hbl t8 t9 t10
      obtain ⟨gs, eg, hp⟩ := chooseTwo_spec (cap := cap) (isad := isa + d) (first := g.first) (a := a) (b := b) (last := g.last)
        (limit := g.limit - 1) (tl := g.trlink) (st := s.st) (by omega) hfa hab hbl
      unfold partGo at e
      rw [bind_some' t1, bind_some' t2, if_neg hbig, eg] at e
      have hpl := hp.len
      refine three_goal (s1 := s1) (gs := gs) hrun False ht hcap t5 t6 hfa hab hbl t8 t9 t10 t7 (fun r r' k1 k2 k3 k4 => (t12 r r' k1 k2 k3 k4).mono (by omega)) (fun h => h.elim)
        (fun r => by rw [pick_cells2 hp]; simp) ?_ hp.pair (Or.inl ⟨t4, by rw [t3], Or.inr (by omega)⟩) ?_
      · refine ready_of (total := g.last - g.first) (N := 3) gs (by have := hp.len; simp only [List.length_cons, List.length_nil] at this; omega) hp.asc (Nat.le_trans hp.tot (by simp; omega)) ?_
        intro x hx k y1 y2
        obtain ⟨x1, x2⟩ := hp.sub x hx
        simp only [List.mem_cons, List.not_mem_nil, or_false] at x1
        rcases x1 with x1 | x1
        · subst x1
          exact ⟨hlow s1 _ rfl rfl x2 (g1 (by simp only at x2; omega)) (Nat.le_refl _) (by show a ≤ _; omega) (by show a - g.first < _; omega) t7 t11 k y1 y2, Nat.le_refl _, rfl⟩
        · subst x1
          exact ⟨hlow s1 _ rfl rfl x2 (g3 (by simp only at x2; omega)) (by show _ ≤ b; omega) (Nat.le_refl _) (by show g.last - b < _; omega) t7 t11 k y1 y2, by show _ ≤ b; omega, rfl⟩
      · rw [after_step (stk := gs ++ s.st) s1.I s1.q e rfl]
        exact after_congr rfl t3.symm (by show gs ++ s.st = gs ++ s1.st; rw [t4])
  · rw [if_neg hall] at e
    refine equal_goal hT hn hrun hh hC hr hisad hd hmu ht hcap hfit hm (v := (v : Int)) (fun r k1 k2 => kmi r (by omega) (by omega)) ?_
    rw [e, hisad]

/-- A group that has to be sorted is done. -/
theorem raw_goal (hT : Alone T) (hn : T.length < 2 ^ 32) {μ room : Nat} (hrun : Runs' T cap isa h μ) {s : Sta} {g : Frame} {d : Nat} (hh : 0 < h) (hC : Core T isa h s)
    (hr : Raw T d g.first g.last s) (hisad : g.isad = isa + d) (hd : h ≤ d) (hmu : mu T.length d g.first g.last 1 ≤ μ + 1) (ht : TlOk g.trlink s.st)
    (hcap : s.st.length + room ≤ cap) (hfit : Fits (g.last - g.first) room) (hlim : 0 ≤ g.limit) : Goal T cap isa h s g := by
  have h2 := hr.two
  have hG := hr.toGrp hT hC (Nat.le_refl d)
  by_cases c1 : g.last - g.first ≤ 8
  · obtain ⟨sa', e1, k1, k2⟩ := insertionsort_spec hG (by omega)
    refine sorted_goal hT hrun hC hr hisad hd hmu ht hcap hfit k1 k2 ?_
    unfold step
    rw [if_neg (by omega), if_pos c1, hisad, bind_some' e1]
    rfl
  · by_cases c2 : g.limit = 0
    · obtain ⟨sa1, e1, k1, k2⟩ := heapsort_spec (base := g.first) (N := g.last - g.first) (by omega) (by rw [show g.first + (g.last - g.first) = g.last by omega]; exact hG)
      rw [show g.first + (g.last - g.first) = g.last by omega] at k1 k2
      obtain ⟨sa', e2, k3, k4⟩ := markRuns_spec (hG.mov k1) k2 (by omega)
      refine sorted_goal hT hrun hC hr hisad hd hmu ht hcap hfit (k1.res.trans k3) k4 ?_
      unfold step
      rw [if_neg (by omega), if_neg c1, if_pos c2, hisad, bind_some' e1, bind_some' e2]
      rfl
    · refine part_goal hT hn hrun hh hC hr hisad hd hmu ht hcap hfit (by omega) ?_
      unfold step
      rw [if_neg (by omega), if_neg c1, if_neg c2]

end Bwtc.Tr
