import Verif.Tools
import Verif.Props.Local

/-!
# C64: the preprocessing and postprocessing tools
-/

set_option autoImplicit false

namespace Bwtc.Props
open Container Tools Grammar PairReplace FreqTable

/-- Options with which the program is called to write a file without preprocessing. -/
structure Plain (a : PreArgs) : Prop where
  help : a.help = false
  prepr : a.prepr = none ∨ a.prepr = some []
  block : ∀ b, a.block = some b → b < 2 ^ 64

/-- A block size is given, and it is a positive multiple of `2^54` kB. -/
def SizeWraps (a : PreArgs) : Prop := ∃ b, a.block = some b ∧ 0 < b ∧ b % 2 ^ 54 = 0

/-- The block size in bytes that was asked for: 100000 kB by default, 1 kB instead of nothing; only so much as fits into 64 bits. -/
def asked (a : PreArgs) : Nat := match a.block with
  | none => 102400000
  | some b => if b = 0 then 1024 else b % 2 ^ 54 * 1024

theorem plain_main {a : PreArgs} (h : Plain a) (e : Env) (input : List UInt8) :
    preprocessMain a e input = .ran (preprocessTool ⟨72, 1, 0, 0⟩ e (asked a) input) := by
  have hp : a.prepr.getD [] = [] := by rcases h.prepr with h | h <;> rw [h] <;> rfl
  rw [preprocessMain]
  simp only [hp, h.help, Main.validPrepr, Bool.not_true, Bool.false_eq_true, if_false, List.length_nil]
  congr 2
  unfold asked
  cases hb : a.block with
  | none => rfl
  | some b =>
    simp only [Option.getD_some]
    by_cases h0 : b = 0
    · subst h0
      rfl
    · rw [if_neg (by omega), if_neg h0]
      omega

/-- The bytes of a block of a file without preprocessing: size, empty grammar, data. -/
def Written (c bytes : List UInt8) : Prop :=
  ∃ field g, packed c.length = some (field, field.length) ∧ writeGrammar empty = some (g, g.length) ∧ bytes = field ++ (g ++ c)

theorem preprocess_layout {e : Env} {bs : Nat} (hbs : 0 < bs) {input : List UInt8} {cs : List (List UInt8)}
    (hcs : InChunks bs input cs) (hlt : ∀ c ∈ cs, c.length < 2 ^ 56) :
    ∀ f, cs.length < f → ∃ ws : List (List UInt8), List.Forall₂ Written cs ws ∧
      preprocessBlocks ⟨72, 1, 0, 0⟩ e bs f input = some ws.flatten := by
  induction hcs with
  | nil =>
    intro f hf
    obtain ⟨f, rfl⟩ : ∃ k, f = k + 1 := ⟨f - 1, by omega⟩
    exact ⟨[], .nil, by rw [preprocessBlocks, if_pos (by simp)]; rfl⟩
  | @cons l cs hl h ih =>
    intro f hf
    rw [List.length_cons] at hf
    obtain ⟨f, rfl⟩ : ∃ k, f = k + 1 := ⟨f - 1, by omega⟩
    have hlp := List.length_pos_iff.mpr hl
    have hle : (l.take bs).length = min bs l.length := List.length_take
    obtain ⟨a, a1, a2, a3⟩ := packed_spec (hlt (l.take bs) (by simp))
    obtain ⟨g, g1, _⟩ := restores_empty (l.take bs)
    obtain ⟨ws, w1, w2⟩ := ih (fun c hc => hlt c (by simp [hc])) f (by omega)
    refine ⟨(a ++ (g ++ l.take bs)) :: ws, .cons ⟨a, g, a1, g1, rfl⟩ w1, ?_⟩
    rw [preprocessBlocks, if_neg (by omega), precompress_zero rfl]
    simp only [Option.bind_eq_bind, Option.bind_some, a1, g1, w2, Option.pure_def, List.flatten_cons, List.append_assoc]

/-- Reading the blocks of a file without preprocessing, whatever follows. -/
theorem postprocess_layout {cs ws : List (List UInt8)} (h : List.Forall₂ Written cs ws) (hlt : ∀ c ∈ cs, c ≠ [] ∧ c.length < 2 ^ 56) :
    cs.length ≤ ws.flatten.length ∧ ∀ k (rest : List UInt8),
      postprocessBlocks (k + cs.length) (bytesBits (ws.flatten ++ rest)) = (postprocessBlocks k (bytesBits rest)).map (cs.flatten ++ ·) := by
  induction h with
  | nil =>
    refine ⟨Nat.le_refl _, fun k rest => ?_⟩
    simp
  | @cons c w cs ws hw _ ih =>
    obtain ⟨i1, i2⟩ := ih fun c hc => hlt c (by simp [hc])
    obtain ⟨hne, hlen⟩ := hlt c (by simp)
    obtain ⟨field, g, f1, g1, rfl⟩ := hw
    obtain ⟨a, a1, a2, a3⟩ := packed_spec hlen
    rw [f1, Option.some.injEq, Prod.mk.injEq] at a1
    obtain ⟨rfl, _⟩ := a1
    obtain ⟨g', b1, b2⟩ := restores_empty c
    rw [g1, Option.some.injEq, Prod.mk.injEq] at b1
    obtain ⟨rfl, _⟩ := b1
    have hpos := List.length_pos_iff.mpr hne
    refine ⟨by simp only [List.length_cons, List.flatten_cons, List.length_append]; omega, fun k rest => ?_⟩
    obtain ⟨q, q1, q2⟩ := b2 (c ++ (ws.flatten ++ rest))
    rw [List.length_cons, ← Nat.add_assoc, postprocessBlocks]
    simp only [List.flatten_cons, List.append_assoc]
    rw [bytesBits_append, a3]
    simp only [Option.bind_eq_bind, Option.bind_some]
    rw [if_neg (by omega), q1]
    simp only [Option.bind_some, bytesBits_append c, readBytes_spec, q2]
    rw [i2 k rest]
    cases postprocessBlocks k (bytesBits rest) with
    | none => rfl
    | some x => rfl

/-- C64, the file written: for every size of the blocks that does not wrap to zero, it consists of the blocks of the input, all of the size asked for but the last, each
with its size and the empty grammar in front, and a zero byte. -/
theorem C64_file_layout (a : PreArgs) (h : Plain a) (e : Env) (input : List UInt8) (hin : input.length < 2 ^ 56) (cs : List (List UInt8))
    (hcs : InChunks (asked a) input cs) (hs : ¬ SizeWraps a) :
    ∃ ws : List (List UInt8), List.Forall₂ Written cs ws ∧ preprocessMain a e input = .ran (some (ws.flatten ++ [0])) := by
  have hpos : 0 < asked a := by
    unfold asked
    cases hb : a.block with
    | none => simp
    | some b =>
      simp only
      split
      · omega
      · have : b % 2 ^ 54 ≠ 0 := fun hc => hs ⟨b, hb, by omega, hc⟩
        omega
  obtain ⟨f1, f2, f3⟩ := hcs.facts hpos
  obtain ⟨ws, w1, w2⟩ := preprocess_layout (e := e) hpos hcs (fun c hc => by have := (f3 c hc).2.2; omega) (input.length + 1) (by omega)
  refine ⟨ws, w1, ?_⟩
  rw [plain_main h, preprocessTool, w2]
  rfl

/-- C64, the round trip: exactly when the size of the blocks does not wrap to zero, the postprocessing tool restores every file; otherwise all data is lost without a
message.  What follows the file is not looked at. -/
theorem C64_restored (a : PreArgs) (h : Plain a) (e : Env) (input : List UInt8) (hin : input.length < 2 ^ 56) :
    ∃ file, preprocessMain a e input = .ran (some file) ∧
      (¬ SizeWraps a → ∀ rest : List UInt8, postprocessTool (file ++ rest) = some input) ∧
      (SizeWraps a → file = [0] ∧ ∀ rest : List UInt8, postprocessTool (file ++ rest) = some []) := by
  by_cases hs : SizeWraps a
  · refine ⟨[0], ?_, fun hn => absurd hs hn, fun _ => ⟨rfl, fun rest => ?_⟩⟩
    · obtain ⟨b, hb, h0, hm⟩ := hs
      have : asked a = 0 := by
        unfold asked
        rw [hb]
        simp only
        rw [if_neg (by omega), hm]
      rw [plain_main h, this, preprocessTool, preprocessBlocks, if_pos (by simp)]
      rfl
    · rw [postprocessTool, postprocessBlocks, List.singleton_append, Container.readVar_zero]
      rfl
  · have hpos : 0 < asked a := by
      unfold asked
      cases hb : a.block with
      | none => simp
      | some b =>
        simp only
        split
        · omega
        · have : b % 2 ^ 54 ≠ 0 := fun hc => hs ⟨b, hb, by omega, hc⟩
          omega
    obtain ⟨cs, hcs⟩ := InChunks.exists hpos _ input (Nat.le_refl _)
    obtain ⟨f1, f2, f3⟩ := hcs.facts hpos
    obtain ⟨ws, w1, w2⟩ := C64_file_layout a h e input hin cs hcs hs
    refine ⟨_, w2, fun _ rest => ?_, fun hc => absurd hc hs⟩
    obtain ⟨l1, l2⟩ := postprocess_layout w1 fun c hc => ⟨(f3 c hc).1, by have := (f3 c hc).2.2; omega⟩
    rw [postprocessTool, List.append_assoc, List.singleton_append]
    obtain ⟨k, hk⟩ : ∃ k, (ws.flatten ++ 0 :: rest).length + 1 = k + 1 + cs.length :=
      ⟨(ws.flatten ++ 0 :: rest).length - cs.length, by simp only [List.length_append, List.length_cons]; omega⟩
    rw [hk, l2, postprocessBlocks, Container.readVar_zero]
    simp [f1]

/-- C64, the options: an error exactly for a preprocessing string with another character than `p`, the help exactly if it was asked for, and otherwise one round of pair
replacement for every character, in blocks of the size asked for. -/
theorem C64_options (a : PreArgs) (e : Env) (input : List UInt8) (hb : ∀ b, a.block = some b → b < 2 ^ 54) :
    (preprocessMain a e input = .error ↔ ∃ p, a.prepr = some p ∧ ∃ c ∈ p, c ≠ 112) ∧
    (preprocessMain a e input = .help ↔ a.help = true ∧ ∀ p, a.prepr = some p → ∀ c ∈ p, c = 112) ∧
    ∀ n, a.help = false → (a.prepr = some (List.replicate n 112) ∨ n = 0 ∧ a.prepr = none) →
      preprocessMain a e input = .ran (preprocessTool ⟨72, 1, n, 0⟩ e
        (match a.block with | none => 100000 * 1024 | some 0 => 1024 | some b => b * 1024) input) := by
  have hv : ∀ p : List UInt8, Main.validPrepr p = true ↔ ∀ c ∈ p, c = 112 := by
    intro p
    induction p with
    | nil => simp [Main.validPrepr]
    | cons c p ih =>
      rw [Main.validPrepr]
      by_cases hc : c = 112
      · simp [hc, ih]
      · simp [hc]
  have hsize : (if a.block.getD 100000 ≤ 0 then 1 else a.block.getD 100000) * 1024 % 2 ^ 64 =
      match a.block with | none => 100000 * 1024 | some 0 => 1024 | some b => b * 1024 := by
    cases hk : a.block with
    | none => rfl
    | some b =>
      have := hb b hk
      cases b with
      | zero => rfl
      | succ b =>
        simp only [Option.getD_some]
        rw [if_neg (by omega)]
        omega
  refine ⟨?_, ?_, ?_⟩
  · rw [preprocessMain]
    cases hp : a.prepr with
    | none =>
      simp only [Option.getD_none, Main.validPrepr, Bool.not_true, Bool.false_eq_true, if_false]
      cases a.help <;> simp
    | some p =>
      simp only [Option.getD_some]
      by_cases hq : Main.validPrepr p = true
      · rw [hq]
        have hq := (hv p).mp hq
        constructor
        · cases a.help <;> simp
        · rintro ⟨q, hpq, c, hc, hne⟩
          rw [Option.some.injEq] at hpq
          subst hpq
          exact absurd (hq c hc) hne
      · have hf : Main.validPrepr p = false := by simpa using hq
        rw [hf]
        simp only [Bool.not_false, if_true, true_iff]
        refine ⟨p, rfl, Classical.byContradiction fun hc => hq ((hv p).mpr fun c hm => Classical.byContradiction fun hne => hc ⟨c, hm, hne⟩)⟩
  · rw [preprocessMain]
    cases hp : a.prepr with
    | none =>
      simp only [Option.getD_none, Main.validPrepr, Bool.not_true, Bool.false_eq_true, if_false]
      cases a.help <;> simp
    | some p =>
      simp only [Option.getD_some]
      by_cases hq : Main.validPrepr p = true
      · rw [hq]
        have hq := (hv p).mp hq
        cases a.help <;> simp
        exact hq
      · have hf : Main.validPrepr p = false := by simpa using hq
        rw [hf]
        simp only [Bool.not_false, if_true]
        constructor
        · intro hc
          exact absurd hc (by simp)
        · rintro ⟨_, hc⟩
          exact absurd ((hv p).mpr (hc p rfl)) hq
  · intro n hh hp
    have hn : a.prepr.getD [] = List.replicate n 112 := by
      rcases hp with hp | ⟨rfl, hp⟩ <;> rw [hp] <;> rfl
    rw [preprocessMain]
    simp only [hn, hh, (hv _).mpr (fun c hc => (List.mem_replicate.mp hc).2), Bool.not_true, Bool.false_eq_true, if_false, List.length_replicate, hsize]

/-- C64: what the postprocessing tool makes of a file, written by the other tool or not, does not change when bytes are appended. -/
theorem C64_appended_bytes_ignored (file rest out : List UInt8) (h : postprocessTool file = some out) :
    postprocessTool (file ++ rest) = some out := by
  rw [postprocessTool] at h
  obtain ⟨v, r, hs, h3⟩ := postprocessBlocks_loc _ _ _ h
  have hl := congrArg List.length hs
  rw [bytesBits_len] at hl
  simp only [List.length_append, List.length_replicate] at hl
  rw [postprocessTool, bytesBits_append, hs, List.append_assoc]
  exact h3 (r ++ bytesBits rest) (by rw [List.length_append]; have := bytesBits_mod rest; omega) _ (by rw [List.length_append]; omega)

/-- C64: if the tool gets to an end with the bytes `0xff` that the stream delivers behind the end of a file, it did not read any. -/
theorem C64_never_ends_beyond_the_file (file out : List UInt8) (k : Nat) (h : postprocessTool (file ++ List.replicate k 255) = some out) :
    postprocessTool file = some out := by
  rw [postprocessTool] at h
  obtain ⟨v, r, h1, h2⟩ := postprocessBlocks_loc _ _ _ h
  rw [bytesBits_append, bits_ones] at h1
  have hl := congrArg List.length h1
  simp only [List.length_append, List.length_replicate, bytesBits_len] at hl
  have hr : 8 * k ≤ r.length := by
    refine Classical.byContradiction fun hc => ?_
    have h3 : (v ++ List.replicate 8 false ++ r)[v.length + 7]? = some false := by
      rw [List.append_assoc, List.getElem?_append_right (by omega), List.getElem?_append_left (by simp),
        List.getElem?_replicate, if_pos (by omega)]
    rw [← h1, List.getElem?_append_right (by rw [bytesBits_len]; omega), List.getElem?_replicate] at h3
    split at h3 <;> simp at h3
  have h4 : r = r.take (r.length - 8 * k) ++ List.replicate (8 * k) true := by
    have h5 := congrArg (List.drop ((v ++ List.replicate 8 false).length + (r.length - 8 * k))) h1
    rw [List.drop_length_add_append] at h5
    have h6 : (v ++ List.replicate 8 false).length + (r.length - 8 * k) = (bytesBits file).length := by
      simp only [List.length_append, List.length_replicate, bytesBits_len]
      omega
    rw [h6, List.drop_left] at h5
    rw [h5, List.take_append_drop]
  have h7 : bytesBits file = v ++ List.replicate 8 false ++ r.take (r.length - 8 * k) := by
    rw [h4, ← List.append_assoc] at h1
    exact List.append_cancel_right h1
  have hl7 := congrArg List.length h7
  rw [postprocessTool, h7]
  simp only [List.length_append, List.length_replicate, List.length_take, bytesBits_len] at hl7
  exact h2 _ (by rw [List.length_take]; omega) _ (by omega)

/-- C64: no proper beginning of a file written without preprocessing is read to an end, not even with bytes `0xff` behind it. -/
theorem C64_truncated_files_are_not_read (a : PreArgs) (h : Plain a) (e : Env) (input : List UInt8) (hin : input.length < 2 ^ 56)
    (file : List UInt8) (hf : preprocessMain a e input = .ran (some file)) (p : List UInt8) (hp : p <+: file) (hne : p ≠ file) (k : Nat) :
    postprocessTool (p ++ List.replicate k 255) = none := by
  have hd : postprocessTool file.dropLast = none := by
    by_cases hs : SizeWraps a
    · obtain ⟨file', h1, _, h2⟩ := C64_restored a h e input hin
      rw [hf] at h1
      simp only [PreOutcome.ran.injEq, Option.some.injEq] at h1
      subst h1
      rw [(h2 hs).1]
      rw [postprocessTool, postprocessBlocks, Varint.readVar, Varint.readVarGo]
      rfl
    · have hpos : 0 < asked a := by
        unfold asked
        cases hb : a.block with
        | none => simp
        | some b =>
          simp only
          split
          · omega
          · have : b % 2 ^ 54 ≠ 0 := fun hc => hs ⟨b, hb, by omega, hc⟩
            omega
      obtain ⟨cs, hcs⟩ := InChunks.exists hpos _ input (Nat.le_refl _)
      obtain ⟨f1, f2, f3⟩ := hcs.facts hpos
      obtain ⟨ws, w1, w2⟩ := C64_file_layout a h e input hin cs hcs hs
      rw [hf] at w2
      simp only [PreOutcome.ran.injEq, Option.some.injEq] at w2
      subst w2
      obtain ⟨l1, l2⟩ := postprocess_layout w1 fun c hc => ⟨(f3 c hc).1, by have := (f3 c hc).2.2; omega⟩
      rw [List.dropLast_concat, postprocessTool]
      obtain ⟨j, hj⟩ : ∃ j, ws.flatten.length + 1 = j + 1 + cs.length := ⟨ws.flatten.length - cs.length, by omega⟩
      have := l2 (j + 1) []
      rw [List.append_nil] at this
      rw [hj, this, postprocessBlocks, Varint.readVar, Varint.readVarGo]
      rfl
  cases hq : postprocessTool (p ++ List.replicate k 255) with
  | none => rfl
  | some out =>
    have h3 := C64_never_ends_beyond_the_file p out k hq
    obtain ⟨q, hq⟩ := prefix_dropLast hp hne
    have h4 := C64_appended_bytes_ignored p q out h3
    rw [hq, hd] at h4
    simp at h4

/-- Non-vacuity: options of both kinds, and an input in blocks. -/
example : Plain ⟨false, some 1, none⟩ ∧ ¬ SizeWraps ⟨false, some 1, none⟩ ∧ asked ⟨false, some 1, none⟩ = 1024 ∧
    Plain ⟨false, some (2 ^ 54), some []⟩ ∧ SizeWraps ⟨false, some (2 ^ 54), some []⟩ ∧
    ∃ cs, InChunks 1024 (List.replicate 2500 7) cs := by
  refine ⟨⟨rfl, .inl rfl, ?_⟩, ?_, by decide, ⟨rfl, .inr rfl, ?_⟩, ⟨_, rfl, by decide, by decide⟩, ?_⟩
  · rintro b hb
    simp only [Option.some.injEq] at hb
    omega
  · rintro ⟨b, hb, _, h2⟩
    simp only [Option.some.injEq] at hb
    omega
  · rintro b hb
    simp only [Option.some.injEq] at hb
    omega
  · exact InChunks.exists (by decide) _ _ (Nat.le_refl _)

end Bwtc.Props
