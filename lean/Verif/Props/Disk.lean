import Verif.Disk
import Verif.Props.Local
import Verif.Props.Tools

/-!
# C74: output on a full disk
-/

set_option autoImplicit false

namespace Bwtc.Disk
open Streams (OutSt bytes48 bytes48_spec bytes48_length)

/-! ## Simulation of a file with room -/

theorem overwrite_take (cap P : Nat) (F d : List UInt8) (hP : P ≤ F.length) :
    (F.take cap).take (min cap P) ++ d.take (cap - min cap P) ++ (F.take cap).drop (min cap P + (d.take (cap - min cap P)).length) =
      (F.take P ++ d ++ F.drop (P + d.length)).take cap := by
  apply List.ext_getElem?
  intro i
  simp only [List.getElem?_append, List.getElem?_take, List.getElem?_drop, List.length_take, List.length_append]
  repeat' split
  all_goals (try omega)
  all_goals (try rfl)
  all_goals (try (congr 1; omega))

/-- `st` is what is left of the file `F` with position `P`. -/
structure Cut (cap : Nat) (st : OutSt) (F : List UInt8) (P : Nat) : Prop where
  file : st.file = F.take cap
  pos : st.pos = min cap P
  le : P ≤ F.length

theorem fwrite_cut {cap : Nat} {st : OutSt} {F : List UInt8} {P : Nat} (h : Cut cap st F P) (d : List UInt8) :
    ∃ st', fwrite cap d st = some st' ∧ st'.buf = st.buf ∧ Cut cap st' (F.take P ++ d ++ F.drop (P + d.length)) (P + d.length) := by
  obtain ⟨h1, h2, h3⟩ := h
  refine ⟨_, if_pos ?_, rfl, ?_, ?_, ?_⟩
  · rw [h1, h2, List.length_take]; omega
  · show st.file.take st.pos ++ _ ++ _ = _
    rw [h1, h2]
    exact overwrite_take cap P F d h3
  · show st.pos + _ = _
    rw [h2, List.length_take]; omega
  · simp only [List.length_append, List.length_take, List.length_drop]; omega

theorem fputcs_cut {cap : Nat} (d : List UInt8) : ∀ {st : OutSt} {F : List UInt8} {P : Nat}, Cut cap st F P →
    ∃ st', fputcs cap d st = some st' ∧ st'.buf = st.buf ∧ Cut cap st' (F.take P ++ d ++ F.drop (P + d.length)) (P + d.length) := by
  induction d with
  | nil =>
    intro st F P h
    exact ⟨st, rfl, rfl, by simpa using h⟩
  | cons b d ih =>
    intro st F P h
    obtain ⟨s1, e1, b1, c1⟩ := fwrite_cut h [b]
    obtain ⟨s2, e2, b2, c2⟩ := ih c1
    refine ⟨s2, ?_, b2.trans b1, ?_⟩
    · rw [fputcs, e1]; exact e2
    · have hle := h.le
      have l1 : (F.take P ++ [b]).length = P + 1 := by rw [List.length_append, List.length_take, List.length_singleton]; omega
      rw [List.length_singleton, List.take_append_of_le_length (by omega), List.take_of_length_le (by omega), List.drop_append, l1,
        List.drop_eq_nil_of_le (by omega), List.drop_drop, List.nil_append] at c2
      rw [List.length_cons, show P + (d.length + 1) = P + 1 + d.length by omega]
      have e3 : P + 1 + (P + 1 + d.length - (P + 1)) = P + 1 + d.length := by omega
      rw [e3] at c2
      simpa using c2

/-- The stream on a full disk against all that has been written, `a`, and the position marked, `m`. -/
structure Rel (cap K : Nat) (s : OutSt × Nat) (a : List UInt8 × Nat) : Prop where
  ex : ∃ F, a.1 = F ++ s.1.buf ∧ Cut cap s.1 F F.length
  buf : s.1.buf.length < K
  mark : s.2 = min cap a.2
  le : a.2 ≤ a.1.length

theorem append_cut {cap : Nat} {st : OutSt} {F : List UInt8} (h : Cut cap st F F.length) (d : List UInt8) :
    ∃ st', fwrite cap d st = some st' ∧ st'.buf = st.buf ∧ Cut cap st' (F ++ d) (F ++ d).length := by
  obtain ⟨s, e, b, c⟩ := fwrite_cut h d
  rw [List.take_length, List.drop_eq_nil_of_le (by omega), List.append_nil, ← List.length_append] at c
  exact ⟨s, e, b, c⟩

theorem flush_cut {cap : Nat} {st : OutSt} {F : List UInt8} (h : Cut cap st F F.length) :
    ∃ st', flush cap st = some st' ∧ st'.buf = [] ∧ Cut cap st' (F ++ st.buf) (F ++ st.buf).length := by
  rw [flush]
  by_cases hb : st.buf.length > 0
  · obtain ⟨s, e, b, c⟩ := append_cut h st.buf
    rw [if_pos hb, e]
    exact ⟨{ s with buf := [] }, rfl, rfl, c.file, c.pos, c.le⟩
  · have hn : st.buf = [] := List.length_eq_zero_iff.mp (by omega)
    rw [if_neg hb, hn, List.append_nil]
    exact ⟨st, rfl, hn, h⟩

theorem step_rel {cap K : Nat} (hK : 0 < K) {s : OutSt × Nat} {a a' : List UInt8 × Nat} {c : Call} (h : Rel cap K s a) (ha : adds a c = some a') :
    ∃ s', step cap K s c = some s' ∧ Rel cap K s' a' := by
  obtain ⟨st, mk⟩ := s
  obtain ⟨a, m⟩ := a
  obtain ⟨⟨F, hF, hc⟩, hbuf, hm, hle⟩ := h
  dsimp only at hF hc hbuf hm hle
  have hl := congrArg List.length hF
  rw [List.length_append] at hl
  cases c with
  | byte b =>
    rw [adds, Option.some.injEq] at ha
    subst ha
    rw [step, writeByte, if_pos hbuf]
    dsimp only
    by_cases hk : (st.buf ++ [b]).length = K
    · obtain ⟨s, e, _, c⟩ := append_cut (st := { st with buf := st.buf ++ [b] }) ⟨hc.file, hc.pos, hc.le⟩ (st.buf ++ [b])
      rw [if_pos hk, e]
      refine ⟨({ s with buf := [] }, mk), rfl, ⟨F ++ (st.buf ++ [b]), ?_, c.file, c.pos, c.le⟩, hK, hm, ?_⟩
      · simp [hF]
      · rw [List.length_append]; exact Nat.le_trans hle (Nat.le_add_right _ _)
    · rw [if_neg hk]
      refine ⟨({ st with buf := st.buf ++ [b] }, mk), rfl, ⟨F, ?_, hc.file, hc.pos, hc.le⟩, ?_, hm, ?_⟩
      · simp [hF]
      · rw [List.length_append, List.length_singleton] at hk ⊢; omega
      · rw [List.length_append]; exact Nat.le_trans hle (Nat.le_add_right _ _)
  | block d =>
    rw [adds, Option.some.injEq] at ha
    subst ha
    rw [step, writeBlock]
    by_cases hk : st.buf.length + d.length < K
    · rw [if_pos hk]
      refine ⟨({ st with buf := st.buf ++ d }, mk), rfl, ⟨F, ?_, hc.file, hc.pos, hc.le⟩, ?_, hm, ?_⟩
      · simp [hF]
      · rw [List.length_append]; exact hk
      · rw [List.length_append]; exact Nat.le_trans hle (Nat.le_add_right _ _)
    · rw [if_neg hk]
      obtain ⟨s1, e1, b1, c1⟩ := flush_cut hc
      obtain ⟨s2, e2, b2, c2⟩ := append_cut c1 d
      rw [e1]
      simp only [Option.bind_eq_bind, Option.bind_some, e2]
      refine ⟨(s2, mk), rfl, ⟨F ++ st.buf ++ d, ?_, c2⟩, ?_, hm, ?_⟩
      · rw [b2, b1, List.append_nil, hF]
      · rw [b2, b1]; exact hK
      · rw [List.length_append]; exact Nat.le_trans hle (Nat.le_add_right _ _)
  | flush =>
    rw [adds, Option.some.injEq] at ha
    subst ha
    obtain ⟨s1, e1, b1, c1⟩ := flush_cut hc
    rw [step, e1]
    refine ⟨(s1, mk), rfl, ⟨F ++ st.buf, ?_, c1⟩, ?_, hm, hle⟩
    · rw [b1, List.append_nil]; exact hF
    · rw [b1]; exact hK
  | mark =>
    rw [adds, Option.some.injEq] at ha
    subst ha
    obtain ⟨s1, e1, b1, c1⟩ := flush_cut hc
    rw [step, getPos, e1]
    refine ⟨(s1, s1.pos), rfl, ⟨F ++ st.buf, ?_, c1⟩, ?_, ?_, Nat.le_refl _⟩
    · rw [b1, List.append_nil]; exact hF
    · rw [b1]; exact hK
    · show s1.pos = _
      rw [c1.pos, hF]
  | patch v =>
    rw [adds] at ha
    by_cases h6 : m + 6 ≤ a.length
    · rw [if_pos h6, Option.some.injEq] at ha
      subst ha
      obtain ⟨s1, e1, b1, c1⟩ := flush_cut hc
      rw [← hF] at c1
      obtain ⟨s2, e2, b2, c2⟩ := fputcs_cut (bytes48 v) (st := { s1 with pos := mk }) (F := a) (P := m) ⟨c1.file, hm, hle⟩
      rw [bytes48_length] at c2
      rw [step, write48, e1]
      simp only [Option.bind_eq_bind, Option.bind_some, e2]
      have hlen : (a.take m ++ bytes48 v ++ a.drop (m + 6)).length = a.length := by
        simp only [List.length_append, List.length_take, List.length_drop, bytes48_length]; omega
      rw [bytes48_spec]
      refine ⟨({ s2 with pos := s1.pos }, mk), rfl, ⟨a.take m ++ bytes48 v ++ a.drop (m + 6), ?_, c2.file, ?_, Nat.le_refl _⟩, ?_, hm, ?_⟩
      · show _ = _ ++ s2.buf
        rw [b2, b1, List.append_nil]
      · show s1.pos = _
        rw [c1.pos, hlen]
      · show s2.buf.length < K
        rw [b2, b1]; exact hK
      · show m ≤ _
        rw [hlen]; exact hle
    · rw [if_neg h6] at ha
      cases ha

theorem run_rel {cap K : Nat} (hK : 0 < K) (cs : List Call) : ∀ {s : OutSt × Nat} {a a' : List UInt8 × Nat}, Rel cap K s a → written a cs = some a' →
    ∃ s', run cap K s cs = some s' ∧ Rel cap K s' a' := by
  induction cs with
  | nil =>
    intro s a a' h ha
    rw [written, Option.some.injEq] at ha
    exact ⟨s, rfl, ha ▸ h⟩
  | cons c cs ih =>
    intro s a a' h ha
    rw [written, Option.bind_eq_bind, Option.bind_eq_some_iff] at ha
    obtain ⟨a1, h1, h2⟩ := ha
    obtain ⟨s1, e1, r1⟩ := step_rel hK h h1
    obtain ⟨s2, e2, r2⟩ := ih r1 h2
    exact ⟨s2, by rw [run, e1]; exact e2, r2⟩

end Bwtc.Disk

namespace Bwtc.Props
open Disk Container

/-- The full claim C74: a program that ends has stored all it has written. -/
def C74_claim : Prop := ∀ (cap K : Nat) (calls : List Call) (all file : List UInt8) (m : Nat), 0 < K → written ([], 0) calls = some (all, m) →
  output cap K calls = some file → file = all

/-- On a disk with room for `cap` bytes, every program ends normally and leaves the first `cap` bytes of its output, with all length fields that lie among them filled in. -/
theorem C74_truncated (cap K : Nat) (hK : 0 < K) (calls : List Call) (all : List UInt8) (m : Nat) (h : written ([], 0) calls = some (all, m)) :
    output cap K calls = some (all.take cap) := by
  obtain ⟨⟨st, mk⟩, e, ⟨F, hF, hc⟩, _, _, _⟩ := run_rel (cap := cap) hK calls (s := (Streams.OutSt.open, 0)) (a := ([], 0))
    ⟨⟨[], rfl, by simp [Streams.OutSt.open], by simp [Streams.OutSt.open], Nat.le_refl _⟩, hK, by simp, Nat.le_refl _⟩ h
  obtain ⟨s1, e1, _, c1⟩ := flush_cut hc
  dsimp only at hF e1 c1
  rw [output, e, hF, ← c1.file]
  show close cap st = _
  rw [close]
  by_cases hb : st.buf.length > 0
  · rw [if_pos hb, e1]; rfl
  · rw [flush, if_neg hb, Option.some.injEq] at e1
    rw [if_neg hb, e1]; rfl

/-- C74 as far as there is room. -/
theorem C74_enough_partial (cap K : Nat) (hK : 0 < K) (calls : List Call) (all : List UInt8) (m : Nat) (h : written ([], 0) calls = some (all, m)) (hc : all.length ≤ cap) :
    output cap K calls = some all := by
  rw [C74_truncated cap K hK calls all m h, List.take_of_length_le hc]

/-- The calls for a block put its length and its content behind what has been written. -/
theorem C74_block_calls (before content : List UInt8) (m len : Nat) :
    written (before, m) (blockCalls content len) = some (before ++ packBits (bitsOf 48 len) ++ content, before.length) := by
  have gen : ∀ (bs a : List UInt8) (m : Nat) (cs : List Call), written (a, m) (bs.map Call.byte ++ cs) = written (a ++ bs, m) cs := by
    intro bs
    induction bs with
    | nil => intro a m cs; simp
    | cons b bs ih =>
      intro a m cs
      rw [List.map_cons, List.cons_append, written]
      simp only [adds, Option.bind_eq_bind, Option.bind_some, ih]
      rw [List.append_assoc, List.singleton_append]
  have e : blockCalls content len = .mark :: ((List.replicate 6 (0 : UInt8) ++ content).map Call.byte ++ [.patch len]) := by
    simp [blockCalls]
  have h6 : (packBits (bitsOf 48 len)).length = 6 := by rw [Streams.bytes48_spec, Streams.bytes48_length]
  rw [e, written]
  simp only [adds, Option.bind_eq_bind, Option.bind_some]
  rw [gen, written]
  simp only [adds, Option.bind_eq_bind]
  rw [if_pos (by simp)]
  simp only [Option.bind_some, written]
  rw [List.take_left, List.drop_append, List.drop_eq_nil_of_le (by omega), List.nil_append, Nat.add_sub_cancel_left,
    List.drop_left' (List.length_replicate)]

/-- On a full disk the compressor (any program that writes its file) ends as if nothing had happened; the decompressor cannot read what is left. -/
theorem C74_archive_lost (letter : UInt8) (starts memLimit : Nat) (e : Env) (input : List UInt8) (h6 : 6 ≤ memLimit)
    (hm : memLimit ≤ 2902000000) (hin : input.length < 2 ^ 56) (fuel : Nat) (file : List UInt8) (n : Nat)
    (hc : compress ⟨letter, starts, 0, memLimit⟩ e fuel input = some (file, n)) :
    ∃ N, ∀ fuel', N ≤ fuel' → ∀ cap K calls m junk, 0 < K → written ([], 0) calls = some (file, m) → cap < file.length →
      ∃ left, output cap K calls = some left ∧ ∀ k, decompress junk fuel' (left ++ List.replicate k 255) = none := by
  obtain ⟨N, hN⟩ := C57_truncated_files_are_not_read letter starts memLimit e input h6 hm hin fuel file n hc
  refine ⟨N, fun fuel' hf cap K calls m junk hK hw hcap => ⟨_, C74_truncated cap K hK calls file m hw, hN fuel' hf junk _ (List.take_prefix cap file) ?_⟩⟩
  intro h
  have := congrArg List.length h
  rw [List.length_take] at this
  omega

/-- The same with preprocessing, under the conditions of `C56_preprocessed_partial`. -/
theorem C74_preprocessed_lost (letter : UInt8) (starts rounds memLimit : Nat) (e : Env) (input : List UInt8) (cs : List (List UInt8))
    (he : ∀ F, FreqTable.Initial F (e.table F)) (hb : rounds ≤ 1 ∨ ∃ y, e.beyond = some y ∧ 2 ^ 32 ≤ y) (hr : 1 ≤ rounds)
    (h20 : 20 ≤ memLimit) (hm : memLimit ≤ 2415000000) (hin : input.length < 2 ^ 56) (hcs : InChunks (times074 memLimit) input cs)
    (hpre : ∀ c ∈ cs, ∃ out g, PairReplace.precompress e.table e.beyond (e.small c.length) rounds (c ++ [e.junk]) c.length = some (out, g) ∧
      out.length ≤ c.length ∧ PairReplace.SafeRounds e.table e.beyond (e.small c.length) c.length rounds
        ⟨c ++ [e.junk], none, false, c.length, 0, Grammar.empty⟩) (fuel : Nat) (file : List UInt8) (n : Nat)
    (hc : compress ⟨letter, starts, rounds, memLimit⟩ e fuel input = some (file, n)) :
    ∃ N, ∀ fuel', N ≤ fuel' → ∀ cap K calls m junk, 0 < K → written ([], 0) calls = some (file, m) → cap < file.length →
      ∃ left, output cap K calls = some left ∧ ∀ k, decompress junk fuel' (left ++ List.replicate k 255) = none := by
  obtain ⟨N, hN⟩ := C57_preprocessed_partial letter starts rounds memLimit e input cs he hb hr h20 hm hin hcs hpre fuel file n hc
  refine ⟨N, fun fuel' hf cap K calls m junk hK hw hcap => ⟨_, C74_truncated cap K hK calls file m hw, hN fuel' hf junk _ (List.take_prefix cap file) ?_⟩⟩
  intro h
  have := congrArg List.length h
  rw [List.length_take] at this
  omega

/-- Nor does the preprocessing tool: the postprocessing tool cannot read what is left of its file either. -/
theorem C74_tool_lost (a : Tools.PreArgs) (h : Plain a) (e : Env) (input : List UInt8) (hin : input.length < 2 ^ 56) (file : List UInt8)
    (hf : Tools.preprocessMain a e input = .ran (some file)) (cap K : Nat) (calls : List Call) (m : Nat) (hK : 0 < K)
    (hw : written ([], 0) calls = some (file, m)) (hcap : cap < file.length) :
    ∃ left, output cap K calls = some left ∧ ∀ k, postprocessTool (left ++ List.replicate k 255) = none := by
  refine ⟨_, C74_truncated cap K hK calls file m hw, fun k => C64_truncated_files_are_not_read a h e input hin file hf _ (List.take_prefix cap file) ?_ k⟩
  intro h
  have := congrArg List.length h
  rw [List.length_take] at this
  omega

/-- Nor does the decompressor notice: of every output that does not fit, the beginning is left. -/
theorem C74_output_lost (cap K : Nat) (hK : 0 < K) (out : List UInt8) (hc : cap < out.length) :
    ∃ left, output cap K (out.map .byte) = some left ∧ left = out.take cap ∧ left ≠ out := by
  have gen : ∀ (bs a : List UInt8), written (a, 0) (bs.map Call.byte) = some (a ++ bs, 0) := by
    intro bs
    induction bs with
    | nil => intro a; simp [written]
    | cons b bs ih =>
      intro a
      rw [List.map_cons, written]
      simp only [adds, Option.bind_eq_bind, Option.bind_some, ih]
      rw [List.append_assoc, List.singleton_append]
  refine ⟨_, C74_truncated cap K hK _ out 0 (gen out []), rfl, fun h => ?_⟩
  have := congrArg List.length h
  rw [List.length_take] at this
  omega

/-- C74 is false of the code. -/
theorem C74_fails : ¬ C74_claim := by
  intro h
  obtain ⟨left, h1, -, h2⟩ := C74_output_lost 0 1 (by decide) [97] (by decide)
  exact h2 (h 0 1 [.byte 97] [97] left 0 (by decide) rfl h1)

/-- The hypotheses can be met: two blocks, of which the second has its length cut off. -/
example : written ([], 0) (.byte 72 :: (blockCalls [1, 2, 3] 3 ++ blockCalls [4, 5] 258 ++ [.byte 0, .flush, .block [9]])) =
      some ([72, 0, 0, 0, 0, 0, 3, 1, 2, 3, 0, 0, 0, 0, 1, 2, 4, 5, 0, 9], 10) ∧
    output 15 4 (.byte 72 :: (blockCalls [1, 2, 3] 3 ++ blockCalls [4, 5] 258 ++ [.byte 0, .flush, .block [9]])) =
      some [72, 0, 0, 0, 0, 0, 3, 1, 2, 3, 0, 0, 0, 0, 1] := by decide +kernel

/-- There are archives to lose: the one of "ba" with a Markov model, on a disk with room for five bytes. -/
example : ∃ file n N, compress ⟨109, 1, 0, 1000⟩ sampleEnv 20 [98, 97] = some (file, n) ∧ 5 < file.length ∧ ∀ fuel', N ≤ fuel' →
    ∃ left, output 5 65536 [.block file] = some left ∧ decompress 0 fuel' left = none := by
  have h : ((compress ⟨109, 1, 0, 1000⟩ sampleEnv 20 [98, 97]).any fun r => decide (5 < r.1.length)) = true := by decide +kernel
  obtain ⟨⟨file, n⟩, h, hl⟩ : ∃ r, compress ⟨109, 1, 0, 1000⟩ sampleEnv 20 [98, 97] = some r ∧ decide (5 < r.1.length) = true := by
    revert h
    cases compress ⟨109, 1, 0, 1000⟩ sampleEnv 20 [98, 97] with
    | none => intro h; cases h
    | some r => intro h; exact ⟨r, rfl, h⟩
  have hl := of_decide_eq_true hl
  obtain ⟨N, hN⟩ := C74_archive_lost 109 1 1000 sampleEnv [98, 97] (by decide) (by decide) (by decide) 20 file n h
  refine ⟨file, n, N, h, hl, fun fuel' hf => ?_⟩
  obtain ⟨left, h1, h2⟩ := hN fuel' hf 5 65536 [.block file] 0 0 (by decide) (by simp [written, adds]) hl
  exact ⟨left, h1, by simpa using h2 0⟩

/-- The hypotheses of `C74_tool_lost` can be met: two bytes, on a disk without room (those of `C74_preprocessed_lost` are met beside C75). -/
example : ∃ file, Tools.preprocessMain ⟨false, some 1, none⟩ sampleEnv [98, 97] = .ran (some file) ∧
    ∃ left, output 0 65536 [.block file] = some left ∧ ∀ k, postprocessTool (left ++ List.replicate k 255) = none := by
  have hp : Plain ⟨false, some 1, none⟩ := ⟨rfl, .inl rfl, by
    rintro b hb
    simp only [Option.some.injEq] at hb
    omega⟩
  obtain ⟨file, hf, hr, _⟩ := C64_restored ⟨false, some 1, none⟩ hp sampleEnv [98, 97] (by decide)
  have hr0 := hr (by
    rintro ⟨b, hb, _, h2⟩
    simp only [Option.some.injEq] at hb
    omega) []
  rw [List.append_nil] at hr0
  refine ⟨file, hf, C74_tool_lost _ hp sampleEnv [98, 97] (by decide) file hf 0 65536 [.block file] 0 (by decide) (by simp [written, adds]) ?_⟩
  cases file with
  | nil => exact absurd hr0 (by decide +kernel)
  | cons b f => simp

end Bwtc.Props
