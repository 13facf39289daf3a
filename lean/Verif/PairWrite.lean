import Verif.PairReplace

/-!
# The replaced version has the same meaning
-/

set_option autoImplicit false

namespace Bwtc.PairReplace
open Grammar

/-- What the table of replacements must satisfy for the choice of a round. -/
structure TableOK (g : G) (prs : List ((UInt8 × UInt8) × UInt8)) (isNew : UInt8 → Bool)
    (repl : UInt8 → UInt8 × UInt8) (common : UInt8) (R : Repl) : Prop where
  new : ∀ x y, isNew x = true → R x y = repl x ∧ (repl x).1 ≠ common ∧ (repl x).2 ≠ common
  old : ∀ x y, isNew x = false → R x y = (common, common) ∨
    ∃ v, ((x, y), v) ∈ prs ∧ v ≠ common ∧ R x y = (v, common)
  pairs : ∀ e ∈ prs, e.1.1 ∉ g.specials ∧ e.1.2 ∉ g.specials
  specials : ∀ c, isNew c = true → c ∉ g.specials

/-- The effect of the writer on the symbols. -/
def enc (isNew : UInt8 → Bool) (repl : UInt8 → UInt8 × UInt8) (common : UInt8) (R : Repl) :
    List Key → List Key
  | [] => []
  | [k] => [renKey isNew repl k]
  | .one x :: .one y :: rest =>
    if isNew x = true ∨ R x y = (common, common) then
      renKey isNew repl (.one x) :: enc isNew repl common R (.one y :: rest)
    else .one (R x y).1 :: enc isNew repl common R rest
  | k :: l :: rest => renKey isNew repl k :: enc isNew repl common R (l :: rest)

theorem TableOK.special {g : G} {prs : List ((UInt8 × UInt8) × UInt8)} {isNew : UInt8 → Bool}
    {repl : UInt8 → UInt8 × UInt8} {common : UInt8} {R : Repl}
    (h : TableOK g prs isNew repl common R) {x : UInt8} (hx : x ∈ g.specials) (y : UInt8) :
    R x y = (common, common) := by
  rcases h.old x y (by
    cases hn : isNew x with
    | false => rfl
    | true => exact absurd hx (h.specials x hn)) with hr | ⟨v, hv, _, _⟩
  · exact hr
  · exact absurd hx (h.pairs _ hv).1

theorem writeGo_noop {common : UInt8} {R : Repl} {c d : UInt8} {rest : List UInt8}
    (h : R c d = (common, common)) :
    writeGo R common c (d :: rest) = c :: writeGo R common d rest := by
  rw [writeGo.eq_def]; simp [h]

theorem writeGo_esc {common : UInt8} {R : Repl} {c d : UInt8} {rest : List UInt8}
    (h : (R c d).2 ≠ common) :
    writeGo R common c (d :: rest) = (R c d).1 :: (R c d).2 :: writeGo R common d rest := by
  rw [writeGo.eq_def]
  simp only
  rw [if_neg (by intro hc; rw [hc] at h; exact h rfl), if_neg h]

theorem writeGo_pair {common : UInt8} {R : Repl} {c d v : UInt8} {rest : List UInt8}
    (hv : v ≠ common) (h : R c d = (v, common)) :
    writeGo R common c (d :: rest) = v :: (match rest with
        | [] => []
        | e :: rest' => writeGo R common e rest') := by
  rw [writeGo.eq_def]
  simp only [h]
  rw [if_neg (by intro hc; simp only [Prod.mk.injEq] at hc; exact hv hc.1), if_pos trivial]
  cases rest <;> rfl

theorem bytesOf_cons (k : Key) (ks : List Key) : bytesOf (k :: ks) = k.bytes ++ bytesOf ks := rfl

/-- The bytes of one symbol followed by other bytes: two special symbols pass through. -/
theorem writeGo_two {g : G} {prs : List ((UInt8 × UInt8) × UInt8)} {isNew : UInt8 → Bool}
    {repl : UInt8 → UInt8 × UInt8} {common : UInt8} {R : Repl}
    (h : TableOK g prs isNew repl common R) {a b : UInt8} (ha : a ∈ g.specials)
    (hb : b ∈ g.specials) (rest : List UInt8) :
    writeGo R common a (b :: rest) = a :: b :: (match rest with
      | [] => []
      | e :: rest' => writeGo R common e rest') := by
  rw [writeGo_noop (h.special ha b)]
  cases rest with
  | nil => rw [writeGo.eq_def]; simp [h.special hb 0]
  | cons e rest' => rw [writeGo_noop (h.special hb e)]

theorem KeyOK.two_mem {g : G} {a b : UInt8} (h : KeyOK g (.two a b)) :
    a ∈ g.specials ∧ b ∈ g.specials := by
  obtain ⟨i, _, hi⟩ := h
  exact specialPair_mem hi

theorem writeGo_enc {g : G} {prs : List ((UInt8 × UInt8) × UInt8)} {isNew : UInt8 → Bool}
    {repl : UInt8 → UInt8 × UInt8} {common : UInt8} {R : Repl}
    (h : TableOK g prs isNew repl common R) (n : Nat) : ∀ (toks : List Key), toks.length ≤ n →
      (∀ k ∈ toks, KeyOK g k) → ∀ c rest, bytesOf toks = c :: rest →
      writeGo R common c rest = bytesOf (enc isNew repl common R toks) := by
  induction n with
  | zero =>
    intro toks hl _ c rest hb
    have : toks = [] := List.eq_nil_of_length_eq_zero (by omega)
    subst this
    simp [bytesOf] at hb
  | succ n ih =>
    intro toks hl hk c rest hb
    -- the rest after a symbol that was handled
    have ih' : ∀ ks : List Key, ks.length ≤ n → (∀ k ∈ ks, KeyOK g k) →
        (match bytesOf ks with
          | [] => []
          | e :: rest' => writeGo R common e rest') = bytesOf (enc isNew repl common R ks) := by
      intro ks hl hk
      cases hbk : bytesOf ks with
      | nil =>
        cases ks with
        | nil => rfl
        | cons k ks => cases k <;> simp [bytesOf_cons, Key.bytes] at hbk
      | cons e rest' => exact ih ks hl hk e rest' hbk
    match toks, hl, hk, hb with
    | [], _, _, hb => simp [bytesOf] at hb
    | .two a b :: ks, hl, hk, hb =>
      obtain ⟨ma, mb⟩ := KeyOK.two_mem (hk (.two a b) (by simp))
      simp only [bytesOf_cons, Key.bytes, List.cons_append, List.nil_append, List.cons.injEq] at hb
      obtain ⟨rfl, rfl⟩ := hb
      rw [writeGo_two h ma mb, ih' ks (by simp at hl; omega) (fun k hk' => hk k (by simp [hk']))]
      cases ks with
      | nil => simp [enc, renKey, bytesOf, Key.bytes]
      | cons l ks =>
        rw [enc]
        · simp [renKey, bytesOf_cons, Key.bytes]
        · intro x y h1; cases h1
    | [.one x], hl, hk, hb =>
      have hb' : [x] = c :: rest := hb
      simp only [List.cons.injEq] at hb'
      obtain ⟨hc, hr⟩ := hb'
      rw [← hc, ← hr]
      rw [writeGo.eq_def, enc]
      by_cases hn : isNew x = true
      · obtain ⟨h1, h2, h3⟩ := h.new x 0 hn
        simp [h1, h3, renKey, hn, bytesOf, Key.bytes]
      · have hn' : isNew x = false := by simpa using hn
        have h2 : (R x 0).2 = common := by
          rcases h.old x 0 hn' with hr | ⟨v, _, _, hr⟩ <;> rw [hr]
        simp [h2, renKey, hn', bytesOf, Key.bytes]
    | .one x :: .two a b :: ks, hl, hk, hb =>
      obtain ⟨ma, mb⟩ := KeyOK.two_mem (hk (.two a b) (by simp))
      have hb0 : bytesOf (Key.two a b :: ks) = a :: b :: bytesOf ks := rfl
      rw [bytesOf_cons, hb0] at hb
      simp only [Key.bytes, List.cons_append, List.nil_append, List.cons.injEq] at hb
      obtain ⟨rfl, rfl⟩ := hb
      have hih := ih (.two a b :: ks) (by simp at hl ⊢; omega) (fun k hk' => hk k (List.mem_cons_of_mem _ hk'))
        a _ hb0
      have he : enc isNew repl common R (.one x :: .two a b :: ks) =
          renKey isNew repl (.one x) :: enc isNew repl common R (.two a b :: ks) := by
        rw [enc]
        intro x' y' _ h2; cases h2
      rw [he, bytesOf_cons, ← hih]
      by_cases hn : isNew x = true
      · obtain ⟨h1, h2, h3⟩ := h.new x a hn
        rw [writeGo_esc (by rw [h1]; exact h3), h1]
        simp [renKey, hn, Key.bytes]
      · have hn' : isNew x = false := by simpa using hn
        rcases h.old x a hn' with hr | ⟨v, hv, _, _⟩
        · rw [writeGo_noop hr]
          simp [renKey, hn', Key.bytes]
        · exact absurd ma (h.pairs _ hv).2
    | .one x :: .one y :: ks, hl, hk, hb =>
      have hb0 : bytesOf (Key.one y :: ks) = y :: bytesOf ks := rfl
      rw [bytesOf_cons, hb0] at hb
      simp only [Key.bytes, List.cons_append, List.nil_append, List.cons.injEq] at hb
      obtain ⟨rfl, rfl⟩ := hb
      have hih := ih (.one y :: ks) (by simp at hl ⊢; omega) (fun k hk' => hk k (List.mem_cons_of_mem _ hk'))
        y _ hb0
      rw [enc]
      by_cases hn : isNew x = true
      · obtain ⟨h1, h2, h3⟩ := h.new x y hn
        rw [writeGo_esc (by rw [h1]; exact h3), h1, if_pos (Or.inl hn), bytesOf_cons, ← hih]
        simp [renKey, hn, Key.bytes]
      · have hn' : isNew x = false := by simpa using hn
        rcases h.old x y hn' with hr | ⟨v, hv, hvc, hr⟩
        · rw [writeGo_noop hr, if_pos (Or.inr hr), bytesOf_cons, ← hih]
          simp [renKey, hn', Key.bytes]
        · rw [writeGo_pair hvc hr, ih' ks (by simp at hl; omega) (fun k hk' => hk k (by simp [hk'])),
            if_neg, hr, bytesOf_cons]
          · rfl
          · rw [hr]
            rintro (h1 | h1)
            · exact hn h1
            · simp only [Prod.mk.injEq] at h1
              exact hvc h1.1

/-- The symbols written are again symbols of the grammar and mean the same. -/
theorem enc_spec {g g' : G} {prs : List ((UInt8 × UInt8) × UInt8)} {isNew : UInt8 → Bool}
    {repl : UInt8 → UInt8 × UInt8} {common : UInt8} {R : Repl}
    (h : TableOK g prs isNew repl common R) {frees : List UInt8} {t t' : Table}
    (hK : ∀ k, KeyOK g k → KeyOK g' (renKey isNew repl k)) (hKv : ∀ e ∈ prs, KeyOK g' (.one e.2))
    (ht : ∀ k, KeyOK g k → (∀ c ∈ frees, k ≠ .one c) → t' (renKey isNew repl k) = t k)
    (htv : ∀ e ∈ prs, t' (.one e.2) = t (.one e.1.1) ++ t (.one e.1.2)) (n : Nat) :
    ∀ toks : List Key, toks.length ≤ n → (∀ k ∈ toks, KeyOK g k) →
      (∀ k ∈ toks, ∀ c ∈ frees, k ≠ .one c) →
      (∀ k ∈ enc isNew repl common R toks, KeyOK g' k) ∧
      (enc isNew repl common R toks).flatMap t' = toks.flatMap t := by
  induction n with
  | zero =>
    intro toks hl _ _
    have : toks = [] := List.eq_nil_of_length_eq_zero (by omega)
    subst this
    simp [enc]
  | succ n ih =>
    intro toks hl hk hf
    have step : ∀ k ks, (k :: ks).length ≤ n + 1 → (∀ l ∈ k :: ks, KeyOK g l) →
        (∀ l ∈ k :: ks, ∀ c ∈ frees, l ≠ .one c) →
        (∀ l ∈ renKey isNew repl k :: enc isNew repl common R ks, KeyOK g' l) ∧
        (renKey isNew repl k :: enc isNew repl common R ks).flatMap t' = (k :: ks).flatMap t := by
      intro k ks hl hk hf
      obtain ⟨i1, i2⟩ := ih ks (by simp at hl; omega) (fun l hl => hk l (by simp [hl]))
        (fun l hl => hf l (by simp [hl]))
      refine ⟨?_, ?_⟩
      · intro l hl
        rcases List.mem_cons.mp hl with rfl | hl
        · exact hK _ (hk k (by simp))
        · exact i1 l hl
      · rw [List.flatMap_cons, List.flatMap_cons, i2, ht k (hk k (by simp)) (hf k (by simp))]
    match toks, hl, hk, hf with
    | [], _, _, _ => simp [enc]
    | [k], hl, hk, hf =>
      have := step k [] hl hk hf
      simpa [enc] using this
    | .one x :: .one y :: rest, hl, hk, hf =>
      rw [enc]
      split
      · exact step _ _ hl hk hf
      · rename_i hc
        rw [not_or] at hc
        rcases h.old x y (by simpa using hc.1) with hr | ⟨v, hv, _, hr⟩
        · exact absurd hr hc.2
        · obtain ⟨i1, i2⟩ := ih rest (by simp at hl; omega) (fun l hl => hk l (by simp [hl]))
            (fun l hl => hf l (by simp [hl]))
          rw [hr]
          refine ⟨?_, ?_⟩
          · intro l hl
            rcases List.mem_cons.mp hl with rfl | hl
            · exact hKv _ hv
            · exact i1 l hl
          · have hvt : t' (.one v) = t (.one x) ++ t (.one y) := htv _ hv
            rw [List.flatMap_cons, i2]
            simp [List.flatMap_cons, hvt, List.append_assoc]
    | .one x :: .two a b :: rest, hl, hk, hf =>
      rw [enc]
      · exact step _ _ hl hk hf
      · intro x' y' _ h2; cases h2
    | .two a b :: l :: rest, hl, hk, hf =>
      rw [enc]
      · exact step _ _ hl hk hf
      · intro x' y' h1; cases h1

end Bwtc.PairReplace
