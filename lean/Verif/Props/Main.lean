import Verif.Main
import Verif.Props.Sound

/-!
# C58: the options of the command line
-/

set_option autoImplicit false

namespace Bwtc.Props
open Container Main

/-- What the help text promises: the options that may be given. -/
structure Documented (a : Args) : Prop where
  starts : ∀ n, a.starts = some n → 1 ≤ n ∧ n ≤ 256
  bwt : ∀ c, a.bwt = some c → c.toNat ∈ ['d'.toNat, 's'.toNat, 'a'.toNat]
  prepr : ∀ p, a.prepr = some p → ∀ c ∈ p, c.toNat = 'p'.toNat
  enc : ∀ c, a.enc = some c → c.toNat ∈ ['H'.toNat, 'M'.toNat, 'm'.toNat, 'b'.toNat, 'B'.toNat, 'u'.toNat]

theorem validPrepr_iff (p : List UInt8) : validPrepr p = true ↔ ∀ c ∈ p, c = 112 := by
  induction p with
  | nil => simp [validPrepr]
  | cons c p ih =>
    rw [validPrepr]
    by_cases h : c = 112
    · simp [h, ih]
    · simp [h]

theorem checks_iff (a : Args) : (validStarts (a.starts.getD 8) && validBwt (a.bwt.getD 97) && validPrepr (a.prepr.getD []) &&
    validEnc (a.enc.getD 66)) = true ↔ Documented a := by
  have hb : ∀ c d : UInt8, c.toNat = d.toNat ↔ c = d := fun c d => UInt8.toNat_inj
  simp only [Bool.and_eq_true, validPrepr_iff]
  constructor
  · rintro ⟨⟨⟨h1, h2⟩, h3⟩, h4⟩
    refine ⟨?_, ?_, ?_, ?_⟩
    · intro n hn
      rw [hn, Option.getD_some, validStarts, decide_eq_true_iff] at h1
      omega
    · intro c hc
      rw [hc, Option.getD_some, validBwt] at h2
      simp only [Bool.or_eq_true, beq_iff_eq] at h2
      rcases h2 with (rfl | rfl) | rfl <;> decide
    · intro p hp c hc
      rw [hp, Option.getD_some] at h3
      rw [h3 c hc]
      decide
    · intro c hc
      rw [hc, Option.getD_some, validEnc] at h4
      simp only [Bool.or_eq_true, beq_iff_eq] at h4
      rcases h4 with ((((rfl | rfl) | rfl) | rfl) | rfl) | rfl <;> decide
  · rintro ⟨h1, h2, h3, h4⟩
    refine ⟨⟨⟨?_, ?_⟩, ?_⟩, ?_⟩
    · cases hs : a.starts with
      | none => decide
      | some n =>
        rw [Option.getD_some, validStarts, decide_eq_true_iff]
        have := h1 n hs
        omega
    · cases hs : a.bwt with
      | none => decide
      | some c =>
        have := h2 c hs
        simp only [List.mem_cons, List.not_mem_nil, or_false] at this
        rw [Option.getD_some, validBwt]
        simp only [Bool.or_eq_true, beq_iff_eq]
        rw [← hb c 100, ← hb c 115, ← hb c 97]
        rcases this with h | h | h
        · exact .inl (.inl h)
        · exact .inl (.inr h)
        · exact .inr h
    · intro c hc
      cases hs : a.prepr with
      | none => rw [hs] at hc; simp at hc
      | some p =>
        rw [hs, Option.getD_some] at hc
        exact (hb c 112).mp (h3 p hs c hc)
    · cases hs : a.enc with
      | none => decide
      | some c =>
        have := h4 c hs
        simp only [List.mem_cons, List.not_mem_nil, or_false] at this
        rw [Option.getD_some, validEnc]
        simp only [Bool.or_eq_true, beq_iff_eq]
        rw [← hb c 72, ← hb c 109, ← hb c 77, ← hb c 117, ← hb c 98, ← hb c 66]
        rcases this with h | h | h | h | h | h
        · exact .inl (.inl (.inl (.inl (.inl h))))
        · exact .inl (.inl (.inl (.inr h)))
        · exact .inl (.inl (.inl (.inl (.inr h))))
        · exact .inl (.inr h)
        · exact .inr h
        · exact .inl (.inl (.inr h))

/-- C58: the program ends with an error, and without touching the output, exactly for options that the help text does not offer. -/
theorem C58_rejects_exactly_the_undocumented (cells : List UInt8 → Nat → Nat → List Int) (a : Args) (e : Env) (fuel : Nat) (input : List UInt8) :
    compressMain cells a e fuel input = .error ↔ ¬ Documented a := by
  rw [← checks_iff, compressMain]
  by_cases h : (validStarts (a.starts.getD 8) && validBwt (a.bwt.getD 97) && validPrepr (a.prepr.getD []) && validEnc (a.enc.getD 66)) = true
  · simp only [h, Bool.not_true, Bool.false_eq_true, if_false]
    split <;> simp
  · simp only [Bool.not_eq_true] at h
    simp [h]

theorem ran_parts {cells : List UInt8 → Nat → Nat → List Int} {a : Args} {e : Env} {fuel : Nat} {input : List UInt8} {r : Option (List UInt8 × Nat)}
    (h : compressMain cells a e fuel input = .ran r) : Documented a ∧ a.help = false ∧
      r = compressWith (a.bwt.getD 97) cells ⟨a.enc.getD 66, a.starts.getD 8, (a.prepr.getD []).length, memLimitOf (a.mem.getD 100)⟩ e fuel input := by
  have hd : Documented a := by
    refine Classical.byContradiction fun hc => ?_
    rw [(C58_rejects_exactly_the_undocumented cells a e fuel input).mpr hc] at h
    simp at h
  rw [compressMain] at h
  simp only [(checks_iff a).mpr hd, Bool.not_true, Bool.false_eq_true, if_false] at h
  split at h
  · simp at h
  case isFalse hh =>
    simp only [Outcome.ran.injEq] at h
    exact ⟨hd, by simpa using hh, h.symm⟩

theorem memLimitOf_small {mem : Nat} (h : mem ≤ 2902) : memLimitOf mem = (if mem = 0 then 1 else mem) * 1000000 := by
  rw [memLimitOf]
  refine Nat.mod_eq_of_lt ?_
  have h1 : (if mem = 0 then 1 else mem) ≤ 2902 := by split <;> omega
  exact Nat.lt_of_le_of_lt (Nat.mul_le_mul_right _ h1) (by decide)

theorem memLimitOf_bounds {mem bound : Nat} (h : mem ≤ bound) (hb : bound ≤ 2902) (h1 : 1 ≤ bound) :
    6 ≤ memLimitOf mem ∧ memLimitOf mem ≤ bound * 1000000 := by
  rw [memLimitOf_small (Nat.le_trans h hb)]
  have h2 : 1 ≤ (if mem = 0 then 1 else mem) := by split <;> omega
  have h3 : (if mem = 0 then 1 else mem) ≤ bound := by split <;> omega
  generalize (if mem = 0 then 1 else mem) = x at h2 h3
  omega

theorem compress_letter {o : Options} {e : Env} {fuel n : Nat} {input file : List UInt8} (h : compress o e fuel input = some (file, n)) :
    file.head? = some o.letter := by
  rw [compress] at h
  simp only [Option.bind_eq_bind, Option.bind_eq_some_iff, Option.pure_def, Option.some.injEq, Prod.mk.injEq] at h
  obtain ⟨_, _, rfl, _⟩ := h
  rfl

/-- C58: with options that the program accepts, no preprocessing and at most 2902 MB, with every sorter: if a file is written then its first byte is the letter of the
coder (by default `B`), the number of starting points is the one given (by default 8), the size printed is its size, and `uncompress` makes the input of it. -/
theorem C58_accepted_runs_are_restored (cells : List UInt8 → Nat → Nat → List Int) (hc : Allocated cells) (a : Args) (e : Env) (fuel : Nat)
    (input : List UInt8) (hp : a.prepr.getD [] = []) (hm : ∀ m, a.mem = some m → m ≤ 2902) (hin : input.length < 2 ^ 56) (file : List UInt8) (n : Nat)
    (h : compressMain cells a e fuel input = .ran (some (file, n))) :
    file.head? = some (a.enc.getD 66) ∧ a.enc.getD 66 ∈ letters ∧ clampStarts (a.starts.getD 8) = a.starts.getD 8 ∧
      n = file.length % 2 ^ 64 ∧ ∃ N, ∀ fuel', N ≤ fuel' → ∀ junk (rest : List UInt8), uncompressMain junk fuel' (file ++ rest) = some input := by
  obtain ⟨hd, _, hr⟩ := ran_parts h
  rw [hp, List.length_nil] at hr
  have h1 := C49_never_different _ cells hc _ e fuel input _ hr.symm
  have hmem : a.mem.getD 100 ≤ 2902 := by
    cases hs : a.mem with
    | none => decide
    | some m => exact hm m hs
  obtain ⟨b1, b2⟩ := memLimitOf_bounds hmem (by decide) (by decide)
  obtain ⟨h2, h3⟩ := C56_written_files_restored _ _ _ e input b1 b2 hin fuel file n h1
  refine ⟨compress_letter h1, ?_, ?_, h2, h3⟩
  · have hv := (checks_iff a).mpr hd
    simp only [Bool.and_eq_true] at hv
    have hv := hv.2
    rw [validEnc] at hv
    simp only [Bool.or_eq_true, beq_iff_eq] at hv
    rcases hv with ((((h | h) | h) | h) | h) | h <;> rw [h] <;> decide
  · have hv := (checks_iff a).mpr hd
    simp only [Bool.and_eq_true] at hv
    have hv := hv.1.1.1
    rw [validStarts, decide_eq_true_iff] at hv
    rw [clampStarts, if_neg (by omega), if_neg (by omega)]

/-- C58: with `--enc H`, without preprocessing and with at most 113 MB (by default 100), every accepted command line writes a file, and `uncompress` makes the input of it. -/
theorem C58_huffman_runs (cells : List UInt8 → Nat → Nat → List Int) (hc : Allocated cells) (a : Args) (e : Env)
    (input : List UInt8) (hd : Documented a) (hh : a.help = false) (he : a.enc = some 72) (hp : a.prepr.getD [] = [])
    (hm : ∀ m, a.mem = some m → m ≤ 113) (hin : input.length < 2 ^ 56) :
    ∃ N, ∀ fuel fuel', N ≤ fuel → fuel < fuel' → ∃ file, compressMain cells a e fuel input = .ran (some (file, file.length % 2 ^ 64)) ∧
      ∀ junk (rest : List UInt8), uncompressMain junk fuel' (file ++ rest) = some input := by
  have hmem : a.mem.getD 100 ≤ 113 := by
    cases hs : a.mem with
    | none => decide
    | some m => exact hm m hs
  have b := memLimitOf_bounds hmem (by decide) (by decide)
  obtain ⟨N, h⟩ := C49_huffman_roundtrip (a.bwt.getD 97) cells hc (a.starts.getD 8) _ e input b.1 b.2 hin
  refine ⟨N, fun fuel fuel' h1 h2 => ?_⟩
  obtain ⟨file, h3, h4⟩ := h fuel fuel' h1 h2
  refine ⟨file, ?_, h4⟩
  rw [compressMain]
  simp only [(checks_iff a).mpr hd, Bool.not_true, Bool.false_eq_true, if_false, hh]
  rw [he, hp, Option.getD_some, List.length_nil, h3]

/-- A run that meets the hypotheses of the two theorems above: `--mem 50 --starts 256 --bwt s --enc H` on a file of four bytes. -/
example (cells : List UInt8 → Nat → Nat → List Int) (hc : Allocated cells) : ∃ fuel file n,
    compressMain cells ⟨false, some 50, some 256, some 115, some [], some 72⟩ sampleEnv fuel [97, 98, 97, 98] = .ran (some (file, n)) ∧
      file.head? = some 72 := by
  obtain ⟨N, h⟩ := C58_huffman_runs cells hc ⟨false, some 50, some 256, some 115, some [], some 72⟩ sampleEnv [97, 98, 97, 98]
    ((checks_iff _).mp (by decide)) rfl rfl rfl (by intro m hm; cases hm; decide) (by decide)
  obtain ⟨file, h1, _⟩ := h N (N + 1) (by omega) (by omega)
  exact ⟨N, file, _, h1, (C58_accepted_runs_are_restored cells hc _ sampleEnv N [97, 98, 97, 98] rfl (by intro m hm; cases hm; decide) (by decide)
    file _ h1).1⟩

/-- C58: the choice of the sorter changes nothing (at most 113 MB, no preprocessing). -/
theorem C58_bwt_option_irrelevant (cells cells' : List UInt8 → Nat → Nat → List Int) (hc : Allocated cells) (hc' : Allocated cells') (a b : Args) (e : Env)
    (fuel : Nat) (input : List UInt8) (ha : Documented a) (hb : Documented b) (hsame : b = { a with bwt := b.bwt }) (hp : a.prepr.getD [] = [])
    (hm : ∀ m, a.mem = some m → m ≤ 113) : compressMain cells a e fuel input = compressMain cells' b e fuel input := by
  have hmem : a.mem.getD 100 ≤ 113 := by
    cases hs : a.mem with
    | none => decide
    | some m => exact hm m hs
  have hl := (memLimitOf_bounds hmem (by decide) (by decide)).2
  rw [compressMain, compressMain]
  simp only [(checks_iff a).mpr ha, (checks_iff b).mpr hb, Bool.not_true, Bool.false_eq_true, if_false]
  obtain ⟨h1, h2, h3, h4, h5⟩ : b.help = a.help ∧ b.mem = a.mem ∧ b.starts = a.starts ∧ b.prepr = a.prepr ∧ b.enc = a.enc := by
    rw [hsame]; exact ⟨rfl, rfl, rfl, rfl, rfl⟩
  rw [h1, h2, h3, h4, h5, hp, List.length_nil, C49_plain _ cells hc _ _ _ e fuel input hl, C49_plain _ cells' hc' _ _ _ e fuel input hl]

/-- The bound on `mem` is needed: `--mem 288230376151711744` is accepted and makes the limit zero; the file holds nothing. -/
theorem C58_huge_mem_loses_data (cells : List UInt8 → Nat → Nat → List Int) (hc : Allocated cells) (e : Env) (fuel : Nat) (input : List UInt8) :
    Documented ⟨false, some (2 ^ 58), none, none, none, none⟩ ∧
      compressMain cells ⟨false, some (2 ^ 58), none, none, none, none⟩ e fuel input = .ran (some ([66, 0], 2)) ∧
      ∀ junk fuel', uncompressMain junk fuel' [66, 0] = some [] := by
  have hd : Documented ⟨false, some (2 ^ 58), none, none, none, none⟩ :=
    ⟨fun _ h => by simp at h, fun _ h => by simp at h, fun _ h => by simp at h, fun _ h => by simp at h⟩
  obtain ⟨h1, h2⟩ := C39_data_lost 66 8 0 e fuel input (by decide)
  refine ⟨hd, ?_, h2⟩
  rw [compressMain]
  have hv := (checks_iff _).mpr hd
  simp only [Option.getD_none] at hv
  simp only [Option.getD_none, hv, Option.getD_some, Bool.not_true, Bool.false_eq_true, if_false, List.length_nil]
  rw [C39_option_wraps, C49_plain _ cells hc _ _ _ e fuel input (by decide), h1]

/-- The hypotheses can be met: a command line with everything given, and the empty one. -/
example : Documented ⟨false, some 50, some 256, some 115, some [], some 72⟩ ∧ Documented ⟨false, none, none, none, none, none⟩ ∧
    ¬ Documented ⟨false, none, some 257, none, none, none⟩ ∧ ¬ Documented ⟨true, none, none, none, some [112, 113], none⟩ := by
  refine ⟨(checks_iff _).mp (by decide), (checks_iff _).mp (by decide), fun h => ?_, fun h => ?_⟩
  · have := (checks_iff _).mpr h
    revert this
    decide
  · have := (checks_iff _).mpr h
    revert this
    decide

/-- Two command lines that differ in the sorter only. -/
example : (⟨false, some 50, some 256, some 115, some [], some 72⟩ : Args) =
      { (⟨false, some 50, some 256, some 100, some [], some 72⟩ : Args) with bwt := some 115 } ∧
    Documented ⟨false, some 50, some 256, some 100, some [], some 72⟩ :=
  ⟨rfl, (checks_iff _).mp (by decide)⟩

end Bwtc.Props
