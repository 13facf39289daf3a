import Verif.GrammarIOParts
import Verif.GrammarCount
import Verif.Props.Varint

/-!
# A written grammar is read back
-/

set_option autoImplicit false

namespace Bwtc.Grammar
open Varint

/-- The number computed for a variable made of two special symbols. -/
theorem keyNumber_spec {g : G} {ars : List (Key × List Key)} (h : OK g ars) {k : Key}
    (hk : KeyOK g k) {e : Nat} (he : keyNumber (enumerate g.specials) k = some e) :
    ∃ a b, k = .two a b ∧ e < g.spr.length ∧ specialPair g.specials e = some (a, b) := by
  cases k with
  | one c => simp [keyNumber] at he
  | two a b =>
    obtain ⟨i, hi, hp⟩ := hk
    refine ⟨a, b, rfl, ?_⟩
    obtain ⟨m1, m2⟩ := specialPair_mem hp
    obtain ⟨x, hx⟩ := List.getElem?_of_mem m1
    obtain ⟨y, hy⟩ := List.getElem?_of_mem m2
    simp only [keyNumber, enumerate_spec _ h.nodup _ _ hx, enumerate_spec _ h.nodup _ _ hy,
      Option.some.injEq] at he
    have h1 := specialPair_number hx hy
    rw [he] at h1
    have := specialPair_inj h.nodup hp h1
    subst this
    exact ⟨hi, hp⟩

theorem keyNumber_of_pair {g : G} {ars : List (Key × List Key)} (h : OK g ars) {a b : UInt8} {e : Nat}
    (hp : specialPair g.specials e = some (a, b)) :
    keyNumber (enumerate g.specials) (.two a b) = some e := by
  obtain ⟨m1, m2⟩ := specialPair_mem hp
  obtain ⟨x, hx⟩ := List.getElem?_of_mem m1
  obtain ⟨y, hy⟩ := List.getElem?_of_mem m2
  simp only [keyNumber, enumerate_spec _ h.nodup _ _ hx, enumerate_spec _ h.nodup _ _ hy]
  exact congrArg some (specialPair_inj h.nodup hp (specialPair_number hx hy)).symm

/-- The last entry does not belong to a square. -/
theorem OK.last {g : G} {ars : List (Key × List Key)} (h : OK g ars) (hs : g.spr ≠ []) :
    2 ≤ g.specials.length ∧ 3 ≤ g.spr.length ∧ ∀ k, g.spr.length - 1 ≠ k * k := by
  have hpos : 0 < g.spr.length := by
    cases hc : g.spr with
    | nil => exact absurd hc hs
    | cons _ _ => simp
  have hle := h.le
  have hge := h.ge
  generalize hn : g.specials.length = n at hle hge
  generalize g.spr.length = m at hle hge hpos
  match n, hn with
  | 0, _ => omega
  | 1, _ => simp at hge hle; omega
  | n + 2, _ =>
    rcases hge with hge | hge
    · omega
    · simp only [show n + 2 - 1 = n + 1 by omega] at hge
      have e1 := sq_succ (n + 1)
      have e2 := sq_succ n
      simp only [show n + 1 + 1 = n + 2 by omega] at e1
      refine ⟨by omega, by omega, ?_⟩
      intro k hk
      by_cases h1 : k ≤ n + 1
      · have := Nat.mul_le_mul h1 h1
        omega
      · have : (n + 2) * (n + 2) ≤ k * k := Nat.mul_le_mul (by omega) (by omega)
        omega

theorem freed_le {g : G} {ars : List (Key × List Key)} (h : OK g ars) (hl : Listed g) :
    (freedFrom g.spr 0 0).length ≤ 255 := by
  by_cases hs : g.spr = []
  · rw [hs]; simp [freedFrom]
  · obtain ⟨h2, _, _⟩ := h.last hs
    have hnd : (freedFrom g.spr 0 0).Nodup := by
      apply nodup_freedFrom _ _ _ Tracks.zero
      intro j j' c h1 h2 h3 h4
      simp only [Nat.zero_add] at h3 h4
      exact hl.uniq j j' c h1 h3 h2 h4
    apply nodup_bytes_missing hnd (c := g.specials[0])
    intro hm
    obtain ⟨j, h1, h3⟩ := mem_freedFrom _ _ _ Tracks.zero hm
    simp only [Nat.zero_add] at h3
    apply (hl.used j _ h1 h3).2
    rw [List.getElem?_eq_getElem (by omega)]

/-- The grammar that is read. -/
structure SameGrammar (g g' : G) : Prop where
  rules : g'.rules = g.rules
  specials : g'.specials = g.specials
  isSpecial : g'.isSpecial = g.isSpecial
  freqs : g'.freqs = g.freqs
  isVariable : ∀ c, c ∉ g.specials → g'.isVariable c = g.isVariable c
  freed : freedSymbols g' = freedSymbols g

theorem SameGrammar.postprocess {g g' : G} (h : SameGrammar g g') (data : List UInt8) :
    postprocess g' data = postprocess g data := by
  unfold Grammar.postprocess Grammar.postTable initTable
  rw [h.freed, h.rules, h.isSpecial]

theorem length_of_mem_keys {ks : List Key} : (bytesOf ks).length =
    (ks.map fun k => if k.isLarge then 2 else 1).sum := by
  induction ks with
  | nil => rfl
  | cons k ks ih =>
    rw [bytesOf, List.flatMap_cons, List.length_append, ← bytesOf, ih]
    cases k <;> simp [Key.bytes, Key.isLarge]

theorem packInteger_reads {n : Nat} (h : n < 2 ^ 56) : ∃ p k, packInteger n = some (p, k) ∧
    (writeCounted k p).length = k ∧ k ≤ 8 ∧
    ∀ rest, readVar (bytesBits (writeCounted k p) ++ rest) = some (n, k, rest) := by
  obtain ⟨p, k, h1, _, _, _, hk, h2, h3, h4⟩ := Props.C01_packed_integer_roundtrip n h
  refine ⟨p, k, h1, by rw [h3, h2], ?_, fun rest => by rw [h3]; exact (h4 rest).2.1⟩
  apply Decidable.byContradiction
  intro hc
  have h8 := hk (by omega)
  have : 2 ^ 56 ≤ 2 ^ (7 * (k - 1)) := Nat.pow_le_pow_right (by omega) (by omega)
  omega

theorem sum_le_mul (m : Nat) : ∀ l : List Nat, (∀ x ∈ l, x ≤ m) → l.sum ≤ m * l.length := by
  intro l
  induction l with
  | nil => simp
  | cons x l ih =>
    intro h
    have := h x (by simp)
    have := ih fun y hy => h y (by simp [hy])
    rw [List.sum_cons, List.length_cons, Nat.mul_succ]
    omega

/-- Writing and reading. -/
theorem read_write {g : G} {ars : List (Key × List Key)} (h : OK g ars) (hl : Listed g) :
    ∃ w, writeGrammar g = some (w, w.length) ∧ w.length < 2 ^ 20 ∧
      ∀ rest, ∃ g', readGrammar (bytesBits (w ++ rest)) = some (g', bytesBits rest) ∧
        SameGrammar g g' := by
  have hrl := rules_le h
  have hr : g.rules.length < 2 ^ 32 := by omega
  obtain ⟨p, k, n1, n2, n3, n4⟩ := packInteger_reads (n := g.rules.length)
    (Nat.lt_trans hr (by omega))
  by_cases h0 : g.rules.length = 0
  · have hnil : g.rules = [] := List.eq_nil_of_length_eq_zero h0
    have hsp := hl.start hnil
    have hars : ars = [] := by
      have := congrArg List.length h.rules_eq
      rw [h0, List.length_map] at this
      exact List.eq_nil_of_length_eq_zero this.symm
    refine ⟨writeCounted k p, ?_, by omega, ?_⟩
    · rw [writeGrammar, writeNumberOfRules, n1]
      simp only [Option.bind_eq_bind, Option.bind_some, Option.pure_def]
      rw [if_pos h0, n2, Nat.mod_eq_of_lt (by omega)]
    · intro rest
      refine ⟨empty, ?_, ?_⟩
      · rw [readGrammar, bytesBits_append, n4]
        simp only [Option.bind_eq_bind, Option.bind_some, h0]
        rfl
      · refine ⟨hnil.symm, hsp.symm, ?_, ?_, ?_, ?_⟩
        · funext c
          have := h.spec c
          rw [hsp] at this
          cases hc : g.isSpecial c with
          | false => rfl
          | true => exact absurd (this.mp hc) (by simp)
        · funext c
          rw [h.freq, hnil]
          rfl
        · intro c hc
          have := h.var c hc
          rw [hars] at this
          cases hc : g.isVariable c with
          | false => rfl
          | true => exact absurd (this.mp hc) (by simp)
        · have hspr : g.spr = [] := by
            have := h.le
            rw [hsp] at this
            exact List.eq_nil_of_length_eq_zero (by simpa using this)
          simp [freedSymbols, hspr, Grammar.empty]
  · -- the parts
    have hlhs : (g.rules.map fun r => r.lhs) = ars.map Prod.fst := by
      rw [h.rules_eq, List.map_map]
      rfl
    obtain ⟨hn, hfr⟩ := writeFreed_eq g
    have hf255 := freed_le h hl
    have hlens : ∀ l ∈ g.rules.map (fun r => r.rhs.length), 2 ≤ l ∧ l ≤ 4 := by
      intro l hm
      rw [h.rules_eq, List.map_map] at hm
      obtain ⟨a, ha, rfl⟩ := List.mem_map.mp hm
      obtain ⟨_, h2, _⟩ := h.keys a ha
      match hk : a.2, h2 with
      | [x, y], _ =>
        simp only [Function.comp_apply, toRule, hk]
        cases x <;> cases y <;> simp [bytesOf, Key.bytes]
    obtain ⟨wl, l1, l2, l3⟩ := lengths_spec _ _ (Nat.le_refl _) hlens
    rw [List.length_map] at l2 l3
    obtain ⟨pad, hpad, hflags⟩ := flags_spec (g.rules.map fun r => r.lhs.isLarge)
    have hflen := flags_length (g.rules.map fun r => r.lhs.isLarge)
    rw [List.length_map] at hflen
    have hvars : writeVariables g = bytesOf (ars.map Prod.fst) := by
      rw [← hlhs, bytesOf, List.flatMap_map, writeVariables]
    have hvlen : (writeVariables g).length = (g.rules.map fun r => if r.lhs.isLarge then 2 else 1).sum := by
      rw [hvars, length_of_mem_keys, ← hlhs, List.map_map]
      rfl
    have hvs : (g.rules.map fun r => if r.lhs.isLarge then 2 else 1).sum ≤ 2 * g.rules.length := by
      have := sum_le_mul 2 (g.rules.map fun r => if r.lhs.isLarge then 2 else 1) (by
        intro x hx
        obtain ⟨r, _, rfl⟩ := List.mem_map.mp hx
        split <;> omega)
      rwa [List.length_map] at this
    have hrs : (g.rules.flatMap fun r => r.rhs).length ≤ 4 * g.rules.length := by
      have := sum_le_mul 4 (g.rules.map fun r => r.rhs.length) fun x hx => (hlens x hx).2
      rwa [List.length_map, ← List.length_flatMap] at this
    have hspe := hl.few
    have hrest : restSize g + 8 < 2 ^ 20 := by
      rw [restSize, hn]
      split <;> split <;> omega
    have hlw : (writeCounted k p ++ (writeSpecialSymbols g ++ (writeVariableFlags g ++ (writeVariables g ++
      ((UInt8.ofNat (freedFrom g.spr 0 0).length :: freedFrom g.spr 0 0) ++ (wl ++
        writeRightSides g)))))).length = k + restSize g := by
      simp only [List.length_append, n2, writeSpecialSymbols, List.length_cons, hvlen, l2,
        writeVariableFlags, hflen, writeRightSides, restSize, hn]
      omega
    refine ⟨writeCounted k p ++ (writeSpecialSymbols g ++ (writeVariableFlags g ++ (writeVariables g ++
      ((UInt8.ofNat (freedFrom g.spr 0 0).length :: freedFrom g.spr 0 0) ++ (wl ++
        writeRightSides g))))), ?_, by rw [hlw]; omega, ?_⟩
    · rw [writeGrammar, writeNumberOfRules, n1]
      simp only [Option.bind_eq_bind, Option.bind_some, Option.pure_def]
      rw [if_neg h0, hfr, writeLengthsOfRules, l1]
      simp only [Option.bind_some]
      rw [hlw, Nat.mod_eq_of_lt (by omega)]
    · intro rest
      generalize hrest : bytesBits rest = s
      have hs8 : s.length % 8 = 0 := by rw [← hrest, bytesBits_length]; omega
      have hnum : ∀ k ∈ ars.map Prod.fst, KeyOK g k := by
        intro k hk
        obtain ⟨a, ha, rfl⟩ := List.mem_map.mp hk
        exact (h.keys a ha).1
      obtain ⟨oi1, oi2⟩ := originalInit_spec g.specials.length
      obtain ⟨st, v1, v2, v3, v4, v5, v6, v7, v8, v9⟩ := readVars_spec (enumerate g.specials)
        (bytesBits ((UInt8.ofNat (freedFrom g.spr 0 0).length :: freedFrom g.spr 0 0) ++ (wl ++
          writeRightSides g)) ++ s) (ars.map Prod.fst)
        ⟨fun _ => 0, fun _ => false, originalInit g.specials.length, 0, []⟩ (by
          intro k hk e he
          obtain ⟨_, _, _, h2, _⟩ := keyNumber_spec h (hnum k hk) he
          simp only [oi1]
          have := h.le
          omega)
      simp only [oi1, List.nil_append, Nat.zero_add, Bool.false_or] at v1 v2 v3 v4 v5 v6 v7 v8 v9
      have hlined : Lined g.specials st.original g.spr 0 0 := by
        apply lined_of _ _ _ _ _ Tracks.zero
        intro j e hj
        have hjl : j < g.spr.length := by
          apply Decidable.byContradiction
          intro hcon
          rw [List.getElem?_eq_none (by omega)] at hj
          cases hj
        have hjn := Nat.lt_of_lt_of_le hjl h.le
        refine ⟨by rw [v5]; exact hjn, ?_, ?_⟩
        · intro k hk
          rw [Nat.zero_add] at hk
          have hkl : k < g.specials.length := by
            apply Decidable.byContradiction
            intro hcon
            have := Nat.mul_le_mul (Nat.le_of_not_lt hcon) (Nat.le_of_not_lt hcon)
            omega
          have := h.squares k _ (List.getElem?_eq_getElem hkl)
          rw [← hk, hj] at this
          simp only [Option.some.injEq] at this
          rw [this]
          exact ⟨List.getElem?_eq_getElem hkl, rfl⟩
        · intro hk
          simp only [Nat.zero_add] at hk
          rw [v6 j hjn]
          obtain ⟨q, hq⟩ := specialPair_isSome hjn
          have hent := h.entries j e.1 e.2 q hj hq hk
          cases he : e.1 with
          | true =>
            rw [he] at hent
            rw [if_pos]
            · rfl
            · exact List.mem_map.mpr ⟨_, hent.mp rfl, keyNumber_of_pair h hq⟩
          | false =>
            rw [he] at hent
            rw [if_neg, oi2 j hjn hk]
            · rfl
            · intro hm
              obtain ⟨kk, hk1, hk2⟩ := List.mem_map.mp hm
              obtain ⟨a, b, rfl, _, h3⟩ := keyNumber_spec h (hnum kk hk1) hk2
              rw [hq] at h3
              simp only [Option.some.injEq] at h3
              rw [h3] at hent
              exact absurd (hent.mpr hk1) (by simp)
      obtain ⟨pre, post, curr, sqr, f1, f2, f3, f4, f5, f6⟩ := freed_spec g.specials
        (bytesBits (wl ++ writeRightSides g) ++ s) g.spr st.original 0 0 Tracks.zero hlined
      simp only [Nat.zero_add] at f3 f4 f6
      have hfill : fillSpr g.specials (if 0 < st.maxSymbol then st.maxSymbol + 1 - curr else 0) curr sqr =
          some post := by
        have hle : ∀ k ∈ ars.map Prod.fst, ∀ e, keyNumber (enumerate g.specials) k = some e →
            e < g.spr.length := by
          intro k hk e he
          obtain ⟨_, _, _, h2, _⟩ := keyNumber_spec h (hnum k hk) he
          exact h2
        have hmax : st.maxSymbol = 0 ∨ st.maxSymbol < g.spr.length := by
          rcases v9 with v9 | v9
          · exact Or.inl v9
          · obtain ⟨kk, hk1, hk2⟩ := List.mem_map.mp v9
            exact Or.inr (hle kk hk1 _ hk2)
        by_cases hcur : curr = g.spr.length
        · have : (if 0 < st.maxSymbol then st.maxSymbol + 1 - curr else 0) = g.spr.length - curr := by
            split <;> omega
          rw [this]
          exact f4
        · have hne : g.spr ≠ [] := by
            intro hc
            rw [hc] at hcur f3
            simp at hcur f3
            omega
          obtain ⟨z1, z2, z3⟩ := h.last hne
          have hlt : g.spr.length - 1 < g.spr.length := by omega
          have hget := List.getElem?_eq_getElem hlt
          rcases f6 (g.spr.length - 1) _ (by omega) hget with ⟨k, hk⟩ | htrue
          · exact absurd hk (z3 k)
          · obtain ⟨q, hq⟩ := specialPair_isSome (Nat.lt_of_lt_of_le hlt h.le)
            have := (h.entries _ _ _ q hget hq z3).mp htrue
            have := v8 _ this _ (keyNumber_of_pair h hq)
            have : (if 0 < st.maxSymbol then st.maxSymbol + 1 - curr else 0) = g.spr.length - curr := by
              split <;> omega
            rw [this]
            exact f4
      have hlensum : (g.rules.map fun r => r.rhs.length).sum = (writeRightSides g).length := by
        rw [writeRightSides, List.length_flatMap]
      refine ⟨⟨(writeRightSides g).foldl inc st.freqs, fun c => decide (c ∈ g.specials), st.isVariable,
        g.specials, pre ++ post, g.rules, 0⟩, ?_, ?_⟩
      · rw [readGrammar]
        simp only [bytesBits_append, List.append_assoc, hrest]
        rw [n4]
        simp only [Option.bind_eq_bind, Option.bind_some, Nat.mod_eq_of_lt hr]
        rw [if_neg h0]
        have hb1 : (UInt8.ofNat g.specials.length).toNat = g.specials.length := by
          rw [UInt8.toNat_ofNat']
          have := hl.few
          omega
        have hb2 : (UInt8.ofNat (freedFrom g.spr 0 0).length).toNat = (freedFrom g.spr 0 0).length := by
          rw [UInt8.toNat_ofNat']
          omega
        simp only [writeSpecialSymbols, bytesBits_cons, List.append_assoc, readByte_byteBits,
          Option.bind_some, hb1, readBytes_spec]
        rw [writeVariableFlags, hflags, List.append_assoc, readBits_append' (by simp)]
        simp only [Option.bind_some]
        rw [alignIn_pad _ _ (by simpa using hpad) (by
          simp only [List.length_append, bytesBits_length, byteBits_length]; omega)]
        have hfl : (g.rules.map fun r => r.lhs.isLarge) = (ars.map Prod.fst).map Key.isLarge := by
          rw [← hlhs, List.map_map]
          rfl
        rw [hvars, hfl, bytesOf]
        simp only [bytesBits_append, bytesBits_cons, List.cons_append, List.append_assoc] at v1
        rw [v1]
        simp only [Option.bind_some, readByte_byteBits, hb2]
        rw [bytesBits_append, List.append_assoc] at f1
        rw [f1]
        simp only [Option.bind_some, hfill]
        rw [← l2, l3]
        simp only [Option.bind_some, hlensum, readBytes_spec, Option.pure_def]
        rw [v2, ← hlhs, writeRightSides, split_rules]
      · refine ⟨rfl, rfl, ?_, ?_, ?_, ?_⟩
        · funext c
          have := h.spec c
          cases hc : g.isSpecial c with
          | false =>
            rw [hc] at this
            simpa using fun hm => by simpa using this.mpr hm
          | true => simpa using this.mp hc
        · funext c
          simp only
          rw [foldl_inc, v3, h.freq]
          have key : ∀ rs : List Rule, (rs.flatMap ruleBytes).count c =
              ((rs.map fun r => r.lhs).flatMap Key.bytes).count c + (rs.flatMap fun r => r.rhs).count c := by
            intro rs
            induction rs with
            | nil => rfl
            | cons r rs ih =>
              simp only [List.flatMap_cons, List.map_cons, List.count_append, ruleBytes, ih]
              omega
          rw [key, hlhs, writeRightSides]
        · intro c hc
          simp only
          rw [v4]
          have := h.var c hc
          cases hv : g.isVariable c with
          | false =>
            rw [hv] at this
            rw [decide_eq_false_iff_not]
            exact fun hm => absurd (this.mpr hm) (by simp)
          | true => simpa using this.mp hv
        · simp only [freedSymbols]
          rw [f5, normSpr_filter]

end Bwtc.Grammar
