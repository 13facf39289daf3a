import Verif.Grammar

/-!
# Evaluation of grammars at the level of keys

Right-hand sides and texts as sequences of keys, evaluation of the rules, renaming of keys, and the
table before the rules are added.
-/

set_option autoImplicit false

namespace Bwtc.Grammar

/-- The bytes of a sequence of keys. -/
def bytesOf (ks : List Key) : List UInt8 := ks.flatMap Key.bytes

/-- The key can be recognised: single bytes are not special, the first byte of a pair is. -/
def Readable (isSpecial : UInt8 → Bool) : Key → Prop
  | .one c => isSpecial c = false
  | .two a _ => isSpecial a = true

theorem uncompress_keys (isSpecial : UInt8 → Bool) (t : Table) (ks : List Key)
    (h : ∀ k ∈ ks, Readable isSpecial k) :
    uncompress isSpecial t (bytesOf ks) = some (ks.flatMap t) := by
  induction ks with
  | nil => simp [bytesOf, uncompress]
  | cons k ks ih =>
    have hk := h k (by simp)
    have ih := ih (fun k hk => h k (by simp [hk]))
    cases k with
    | one c =>
      simp only [Readable] at hk
      have e : bytesOf (.one c :: ks) = c :: bytesOf ks := by simp [bytesOf, Key.bytes]
      rw [e]
      cases hb : bytesOf ks with
      | nil =>
        rw [hb] at ih
        have : ks.flatMap t = [] := by simpa [uncompress] using ih.symm
        simp [uncompress, hk, this]
      | cons d rest =>
        rw [hb] at ih
        simp [uncompress, hk, ih]
    | two a b =>
      simp only [Readable] at hk
      have e : bytesOf (.two a b :: ks) = a :: b :: bytesOf ks := by simp [bytesOf, Key.bytes]
      rw [e]
      simp [uncompress, hk, ih]

/-- Evaluating rules one after the other. -/
def evalRules (t : Table) (rs : List (Key × List Key)) : Table :=
  rs.foldl (fun t r => setKey t r.1 (r.2.flatMap t)) t

theorem evalRules_cons (t : Table) (r : Key × List Key) (rs : List (Key × List Key)) :
    evalRules t (r :: rs) = evalRules (setKey t r.1 (r.2.flatMap t)) rs := rfl

theorem evalRules_append (t : Table) (rs ss : List (Key × List Key)) :
    evalRules t (rs ++ ss) = evalRules (evalRules t rs) ss := by
  simp [evalRules, List.foldl_append]

/-- No right-hand side uses a variable defined by the same or a later rule. -/
def Ordered : List (Key × List Key) → Prop
  | [] => True
  | r :: rs => (∀ k ∈ r.2, k ∉ (r :: rs).map Prod.fst) ∧ Ordered rs

theorem flatMap_congr {f g : Key → List UInt8} (l : List Key) (h : ∀ k ∈ l, f k = g k) :
    l.flatMap f = l.flatMap g := by
  induction l with
  | nil => rfl
  | cons a l ih =>
    simp only [List.flatMap_cons]
    rw [h a (by simp), ih (fun k hk => h k (by simp [hk]))]

/-- Renaming the keys of a grammar does not change what they stand for. -/
theorem evalRules_rename (ren : Key → Key) (V : Key → Prop)
    (inj : ∀ k l, V k → V l → ren k = ren l → k = l) (rs : List (Key × List Key))
    (hV : ∀ r ∈ rs, V r.1 ∧ ∀ k ∈ r.2, V k) (ho : Ordered rs) (t t' : Table)
    (h0 : ∀ k, V k → k ∉ rs.map Prod.fst → t' (ren k) = t k) (k : Key) (hk : V k) :
    evalRules t' (rs.map fun r => (ren r.1, r.2.map ren)) (ren k) = evalRules t rs k := by
  induction rs generalizing t t' with
  | nil => exact h0 k hk (by simp)
  | cons r rs ih =>
    rw [List.map_cons, evalRules_cons, evalRules_cons]
    apply ih (fun r' hr' => hV r' (by simp [hr'])) ho.2
    intro l hl hnl
    obtain ⟨hr1, hr2⟩ := hV r (by simp)
    have e : (r.2.map ren).flatMap t' = r.2.flatMap t := by
      rw [List.flatMap_map]
      apply flatMap_congr
      intro m hm
      exact h0 m (hr2 m hm) (ho.1 m hm)
    simp only [setKey]
    by_cases hlr : l = r.1
    · subst hlr
      simp [e]
    · rw [if_neg (fun hc => hlr (inj _ _ hl hr1 hc)), if_neg hlr]
      exact h0 l hl (by simp only [List.map_cons, List.mem_cons, not_or]; exact ⟨hlr, hnl⟩)

/-- Rules whose right-hand sides use no variable of the group. -/
theorem evalRules_new (rs : List (Key × List Key)) (hn : (rs.map Prod.fst).Nodup)
    (h : ∀ r ∈ rs, ∀ k ∈ r.2, k ∉ rs.map Prod.fst) (t : Table) :
    (∀ k, k ∉ rs.map Prod.fst → evalRules t rs k = t k) ∧
      ∀ r ∈ rs, evalRules t rs r.1 = r.2.flatMap t := by
  induction rs generalizing t with
  | nil => exact ⟨fun k _ => rfl, by simp⟩
  | cons a rs ih =>
    simp only [List.map_cons, List.nodup_cons] at hn
    obtain ⟨h1, h2⟩ := ih hn.2 (fun r hr k hk hc => h r (by simp [hr]) k hk (by
      simp only [List.map_cons, List.mem_cons]; exact Or.inr hc)) (setKey t a.1 (a.2.flatMap t))
    rw [evalRules_cons]
    refine ⟨?_, ?_⟩
    · intro k hk
      simp only [List.map_cons, List.mem_cons, not_or] at hk
      rw [h1 k hk.2, setKey, if_neg hk.1]
    · intro r hr
      rcases List.mem_cons.mp hr with rfl | hr'
      · rw [h1 _ hn.1, setKey, if_pos rfl]
      · rw [h2 r hr']
        apply flatMap_congr
        intro k hk
        have := h r hr k hk
        simp only [List.map_cons, List.mem_cons, not_or] at this
        rw [setKey, if_neg this.1]

/-! ## The table before the rules -/

theorem foldl_freed (l : List ((UInt8 × UInt8) × UInt8)) (hn : (l.map Prod.fst).Nodup)
    (t : Table) :
    let t' := l.foldl (fun t e => setKey t (.two e.1.1 e.1.2) (t (.two e.1.1 e.1.2) ++ [e.2])) t
    (∀ c, t' (.one c) = t (.one c)) ∧
      (∀ p, p ∉ l.map Prod.fst → t' (.two p.1 p.2) = t (.two p.1 p.2)) ∧
      ∀ e ∈ l, t' (.two e.1.1 e.1.2) = t (.two e.1.1 e.1.2) ++ [e.2] := by
  induction l generalizing t with
  | nil => simp
  | cons a l ih =>
    simp only [List.map_cons, List.nodup_cons] at hn
    simp only [List.foldl_cons]
    obtain ⟨h1, h2, h3⟩ := ih hn.2 (setKey t (.two a.1.1 a.1.2) (t (.two a.1.1 a.1.2) ++ [a.2]))
    refine ⟨?_, ?_, ?_⟩
    · intro c
      rw [h1]
      simp [setKey]
    · intro p hp
      simp only [List.map_cons, List.mem_cons, not_or] at hp
      rw [h2 p hp.2, setKey, if_neg]
      intro hc
      simp only [Key.two.injEq] at hc
      exact hp.1 (Prod.ext hc.1 hc.2)
    · intro e he
      rcases List.mem_cons.mp he with rfl | he
      · rw [h2 _ hn.1, setKey, if_pos rfl]
      · rw [h3 e he]
        congr 1
        rw [setKey, if_neg]
        intro hc
        simp only [Key.two.injEq] at hc
        apply hn.1
        rw [← show e.1 = a.1 from Prod.ext hc.1 hc.2]
        exact List.mem_map_of_mem he

theorem mapM_exists {α β : Type} (f : α → Option β) (l : List α) (h : ∀ a ∈ l, ∃ b, f a = some b) :
    ∃ m, l.mapM f = some m ∧ m.length = l.length ∧
      ∀ (i : Nat) a, l[i]? = some a → ∃ b, m[i]? = some b ∧ f a = some b := by
  induction l with
  | nil => exact ⟨[], by simp, rfl, by simp⟩
  | cons a l ih =>
    obtain ⟨b, hb⟩ := h a (by simp)
    obtain ⟨m, hm, hl, hi⟩ := ih (fun a ha => h a (by simp [ha]))
    refine ⟨b :: m, by simp [List.mapM_cons, hb, hm], by simp [hl], ?_⟩
    intro i x hx
    cases i with
    | zero => simp at hx; subst hx; exact ⟨b, by simp, hb⟩
    | succ i => simpa using hi i x (by simpa using hx)

theorem initTable_spec (g : G) (hn : g.specials.Nodup)
    (hle : g.spr.length ≤ g.specials.length * g.specials.length) :
    ∃ t, initTable g = some t ∧ (∀ c, t (.one c) = [c]) ∧
      (∀ (i : Nat) c p, g.spr[i]? = some (false, c) → specialPair g.specials i = some p →
        t (.two p.1 p.2) = [c]) := by
  obtain ⟨m, hm, hml, hmi⟩ := mapM_exists
    (fun e : (Bool × UInt8) × Nat => (specialPair g.specials e.2).map fun p => (p, e.1.2))
    (g.spr.zipIdx.filter fun e => !e.1.1) (by
      intro e he
      have he := (List.mem_filter.mp he).1
      obtain ⟨hlt, _⟩ := List.mem_zipIdx' he
      obtain ⟨p, hp⟩ := specialPair_isSome (sp := g.specials) (i := e.2) (by omega)
      exact ⟨_, by rw [hp]; rfl⟩)
  have hnd : (m.map Prod.fst).Nodup := by
    unfold List.Nodup
    rw [List.pairwise_iff_getElem]
    intro i j hi hj hij hc
    have hc := congrArg some hc
    rw [← List.getElem?_eq_getElem, ← List.getElem?_eq_getElem] at hc
    rw [List.length_map, hml] at hi hj
    obtain ⟨b, hb1, hb2⟩ := hmi i _ (List.getElem?_eq_getElem (show i < _ by omega))
    obtain ⟨b', hb1', hb2'⟩ := hmi j _ (List.getElem?_eq_getElem hj)
    rw [List.getElem?_map, List.getElem?_map, hb1, hb1'] at hc
    simp only [Option.map_some, Option.some.injEq] at hc
    simp only [Option.map_eq_some_iff] at hb2 hb2'
    obtain ⟨p, hp, rfl⟩ := hb2
    obtain ⟨p', hp', rfl⟩ := hb2'
    simp only at hc
    subst hc
    have hidx := specialPair_inj hn hp hp'
    have hlt : (g.spr.zipIdx.filter fun e => !e.1.1).Pairwise (fun a b => a.2 < b.2) := by
      apply List.Pairwise.filter
      rw [List.pairwise_iff_getElem]
      intro a b ha hb hab
      simpa using hab
    have := List.pairwise_iff_getElem.mp hlt i j (by omega) hj hij
    omega
  have hf : freedSymbols g = some m := hm
  refine ⟨_, by simp only [initTable, hf]; rfl, ?_, ?_⟩
  · intro c
    exact (foldl_freed m hnd _).1 c
  · intro i c p hi hp
    have hmem : (((false, c), i) : (Bool × UInt8) × Nat) ∈ g.spr.zipIdx.filter fun e => !e.1.1 := by
      apply List.mem_filter.mpr
      refine ⟨?_, rfl⟩
      rw [List.mem_zipIdx_iff_getElem?]
      exact hi
    obtain ⟨k, hk⟩ := List.getElem?_of_mem hmem
    obtain ⟨b, hb1, hb2⟩ := hmi k _ hk
    simp only [hp, Option.map_some, Option.some.injEq] at hb2
    have := (foldl_freed m hnd baseTable).2.2 b (List.mem_of_getElem? hb1)
    rw [← hb2] at this
    simpa [baseTable] using this

end Bwtc.Grammar
