import Verif.Pieces
import Verif.ContainerProof

/-!
# C76: input that arrives in pieces
-/

set_option autoImplicit false

namespace Bwtc.Pieces
open Container (InChunks)

/-- The bytes that are still to come. -/
def St.rest (st : St) : List UInt8 := st.bigbuf.drop st.pos ++ st.src.flatten

/-- `m_bigbuf_left` counts what is left in the buffer. -/
def St.Ok (st : St) : Prop := st.left = (st.bigbuf.drop st.pos).length

theorem fread_flatten (K : Nat) (src : List (List UInt8)) : (fread K src).1 ++ (fread K src).2.flatten = src.flatten := by
  cases src with
  | nil => rfl
  | cons d ds =>
    rw [fread]
    by_cases h : d.length ≤ K
    · simp only [if_pos h, List.take_of_length_le h, List.flatten_cons]
    · simp only [if_neg h, List.flatten_cons]
      rw [← List.append_assoc, List.take_append_drop]

theorem fread_pieces (K : Nat) (hK : 0 < K) (src : List (List UInt8)) (h : [] ∉ src) : [] ∉ (fread K src).2 ∧ ((fread K src).1 = [] → src = []) := by
  cases src with
  | nil => exact ⟨h, fun _ => rfl⟩
  | cons d ds =>
    rw [List.mem_cons, not_or] at h
    rw [fread]
    refine ⟨?_, fun hc => ?_⟩
    · dsimp only
      split
      · exact h.2
      · rw [List.mem_cons, not_or]
        refine ⟨fun hc => ?_, h.2⟩
        have := congrArg List.length hc
        rw [List.length_nil, List.length_drop] at this
        omega
    · have hl := congrArg List.length hc
      have : 0 < d.length := List.length_pos_iff.mpr (fun hd => h.1 hd.symm)
      dsimp only at hl
      rw [List.length_take, List.length_nil] at hl
      omega

theorem fetch_spec (K : Nat) (hK : 0 < K) (st : St) (h : st.Ok) :
    ∃ c st', fetchByte K st = some (c, st') ∧ st'.Ok ∧ st.rest = c.toList ++ st'.rest ∧ ([] ∉ st.src → [] ∉ st'.src ∧ (c = none → st.rest = [])) := by
  have key : ∀ s : St, s.Ok → s.left ≠ 0 → ∃ b, s.bigbuf[s.pos]? = some b ∧ (⟨s.src, s.bigbuf, s.pos + 1, s.left - 1⟩ : St).Ok ∧
      s.rest = b :: (⟨s.src, s.bigbuf, s.pos + 1, s.left - 1⟩ : St).rest := by
    intro s hs hl
    rw [St.Ok] at hs
    rw [hs, List.length_drop] at hl
    have hp : s.pos < s.bigbuf.length := by omega
    refine ⟨s.bigbuf[s.pos], List.getElem?_eq_getElem hp, ?_, ?_⟩
    · rw [St.Ok, hs]
      simp only [List.length_drop]
      omega
    · rw [St.rest, List.drop_eq_getElem_cons hp]
      rfl
  rw [fetchByte]
  by_cases hl : st.left = 0
  · have hd : st.bigbuf.drop st.pos = [] := List.length_eq_zero_iff.mp (by rw [← hl]; exact h.symm)
    have hf := fread_flatten K st.src
    have hr : st.rest = (fread K st.src).1 ++ (fread K st.src).2.flatten := by rw [St.rest, hd, List.nil_append, hf]
    have ho : (⟨(fread K st.src).2, (fread K st.src).1, 0, (fread K st.src).1.length⟩ : St).Ok := rfl
    rw [if_pos hl]
    dsimp only
    by_cases h0 : (fread K st.src).1.length = 0
    · have hn := List.length_eq_zero_iff.mp h0
      rw [if_pos h0]
      refine ⟨none, _, rfl, ho, hr, fun hs => ⟨(fread_pieces K hK st.src hs).1, fun _ => ?_⟩⟩
      rw [hr, hf, (fread_pieces K hK st.src hs).2 hn]
      rfl
    · rw [if_neg h0]
      obtain ⟨b, h1, h2, h3⟩ := key _ ho h0
      dsimp only at h1 h2 h3
      rw [h1]
      exact ⟨some b, _, rfl, h2, hr.trans h3, fun hs => ⟨(fread_pieces K hK st.src hs).1, fun hc => by cases hc⟩⟩
  · simp only [if_neg hl]
    obtain ⟨b, h1, h2, h3⟩ := key st h hl
    rw [h1]
    exact ⟨some b, _, rfl, h2, h3, fun hs => ⟨hs, fun hc => by cases hc⟩⟩

theorem readBlock_spec (K : Nat) (hK : 0 < K) : ∀ (n : Nat) (st : St), st.Ok →
    ∃ b st', readBlock K n st = some (b, st') ∧ st'.Ok ∧ st.rest = b ++ st'.rest ∧ b.length ≤ n ∧
      ([] ∉ st.src → [] ∉ st'.src ∧ b = st.rest.take n ∧ st'.rest = st.rest.drop n) := by
  intro n
  induction n with
  | zero => intro st h; exact ⟨[], st, rfl, h, rfl, Nat.le_refl _, fun hs => ⟨hs, rfl, rfl⟩⟩
  | succ n ih =>
    intro st h
    obtain ⟨c, s1, e1, o1, r1, p1⟩ := fetch_spec K hK st h
    cases c with
    | none =>
      refine ⟨[], s1, by rw [readBlock, e1]; rfl, o1, r1, Nat.zero_le _, fun hs => ⟨(p1 hs).1, ?_, ?_⟩⟩
      · rw [(p1 hs).2 rfl]; rfl
      · have := (p1 hs).2 rfl
        rw [this] at r1 ⊢
        exact r1.symm
    | some x =>
      obtain ⟨b, s2, e2, o2, r2, l2, p2⟩ := ih s1 o1
      have r1 : st.rest = x :: s1.rest := r1
      refine ⟨x :: b, s2, ?_, o2, ?_, ?_, fun hs => ?_⟩
      · rw [readBlock, e1]
        simp only [Option.bind_eq_bind, Option.bind_some, e2]
        rfl
      · rw [r1, r2]; rfl
      · rw [List.length_cons]; omega
      · obtain ⟨q1, q2, q3⟩ := p2 (p1 hs).1
        refine ⟨q1, ?_, ?_⟩
        · rw [r1, List.take_succ_cons, q2]
        · rw [r1, List.drop_succ_cons, q3]

theorem blocks_spec (K B : Nat) (hK : 0 < K) (hB : 0 < B) : ∀ (f : Nat) (st : St), st.Ok → st.rest.length < f →
    ∃ bs, blocks K B f st = some bs ∧ bs.flatten <+: st.rest ∧ (∀ b ∈ bs, 0 < b.length ∧ b.length ≤ B) ∧ ([] ∉ st.src → InChunks B st.rest bs) := by
  intro f
  induction f with
  | zero => intro st _ h; omega
  | succ f ih =>
    intro st h hf
    obtain ⟨b, s, e, o, r, l, p⟩ := readBlock_spec K hK B st h
    rw [blocks, e]
    simp only [Option.bind_eq_bind, Option.bind_some]
    have hl := congrArg List.length r
    rw [List.length_append] at hl
    by_cases h0 : b.length = 0
    · rw [if_pos h0]
      refine ⟨[], rfl, List.nil_prefix, (fun b hb => by cases hb), fun hs => ?_⟩
      have h1 := (p hs).2.1
      have h2 : st.rest = [] := by
        apply List.length_eq_zero_iff.mp
        rw [h1, List.length_take] at h0
        omega
      rw [h2]
      exact InChunks.nil
    · rw [if_neg h0]
      obtain ⟨bs, e1, e2, e3, e4⟩ := ih s o (by omega)
      rw [e1]
      refine ⟨b :: bs, rfl, ?_, ?_, fun hs => ?_⟩
      · rw [List.flatten_cons, r]
        exact (List.prefix_append_right_inj b).mpr e2
      · intro x hx
        rcases List.mem_cons.mp hx with rfl | hx
        · exact ⟨by omega, l⟩
        · exact e3 x hx
      · obtain ⟨q1, q2, q3⟩ := p hs
        have := e4 q1
        rw [q3] at this
        rw [q2]
        refine InChunks.cons ?_ this
        intro hc
        rw [hc, List.length_nil] at hl
        omega

end Bwtc.Pieces

namespace Bwtc.Props
open Pieces Container

/-- The full claim C76: all that the input delivers is compressed. -/
def C76_claim : Prop := ∀ (K B : Nat) (src : List (List UInt8)) (f : Nat), 0 < K → 0 < B → src.flatten.length < f →
  ∃ bs, blocks K B f (St.open src) = some bs ∧ bs.flatten = src.flatten

/-- However the calls of `fread` fail or deliver less than they are asked for, the compressor ends, reads the bytes in their order, none twice, none left out
but at the end, in blocks that fit. -/
theorem C76_in_order (K B : Nat) (hK : 0 < K) (hB : 0 < B) (src : List (List UInt8)) (f : Nat) (hf : src.flatten.length < f) :
    ∃ bs, blocks K B f (St.open src) = some bs ∧ bs.flatten <+: src.flatten ∧ ∀ b ∈ bs, 0 < b.length ∧ b.length ≤ B := by
  obtain ⟨bs, h1, h2, h3, _⟩ := blocks_spec K B hK hB f (St.open src) rfl hf
  exact ⟨bs, h1, h2, h3⟩

/-- C76 if no call delivers nothing before the end: the blocks are those of a file with the same bytes, whatever the pieces and the buffer. -/
theorem C76_any_pieces_partial (K B : Nat) (hK : 0 < K) (hB : 0 < B) (src : List (List UInt8)) (hs : [] ∉ src) (f : Nat) (hf : src.flatten.length < f) :
    ∃ bs, blocks K B f (St.open src) = some bs ∧ InChunks B src.flatten bs := by
  obtain ⟨bs, h1, _, _, h4⟩ := blocks_spec K B hK hB f (St.open src) rfl hf
  exact ⟨bs, h1, h4 hs⟩

theorem chunks_unique {B : Nat} {l : List UInt8} {as bs : List (List UInt8)} (ha : InChunks B l as) : InChunks B l bs → as = bs := by
  induction ha generalizing bs with
  | nil =>
    intro hb
    cases hb with
    | nil => rfl
    | cons h _ => exact absurd rfl h
  | cons h _ ih =>
    intro hb
    cases hb with
    | nil => exact absurd rfl h
    | cons _ hb => rw [ih hb]

/-- Two ways of delivering the same bytes give the same blocks. -/
theorem C76_same_blocks (K K' B : Nat) (hK : 0 < K) (hK' : 0 < K') (hB : 0 < B) (src src' : List (List UInt8)) (hs : [] ∉ src) (hs' : [] ∉ src') (he : src.flatten = src'.flatten)
    (f : Nat) (hf : src.flatten.length < f) : blocks K B f (St.open src) = blocks K' B f (St.open src') := by
  obtain ⟨bs, h1, h2⟩ := C76_any_pieces_partial K B hK hB src hs f hf
  obtain ⟨bs', h3, h4⟩ := C76_any_pieces_partial K' B hK' hB src' hs' f (by rw [← he]; exact hf)
  rw [h1, h3, chunks_unique h2 (by rw [he]; exact h4)]

/-- What follows a failed `fread` at the border of two blocks is lost, whatever it is; nothing reports it. -/
theorem C76_lost (K B : Nat) (hK : B ≤ K) (hB : 0 < B) (d : List UInt8) (hd : d.length = B) (rest : List (List UInt8)) (f : Nat) :
    blocks K B (f + 2) (St.open (d :: [] :: rest)) = some [d] := by
  have gen : ∀ (n p : Nat), p + n = d.length → readBlock K n ⟨[] :: rest, d, p, n⟩ = some (d.drop p, ⟨[] :: rest, d, d.length, 0⟩) := by
    intro n
    induction n with
    | zero =>
      intro p hp
      rw [readBlock, List.drop_eq_nil_of_le (by omega), show p = d.length by omega]
    | succ n ih =>
      intro p hp
      rw [readBlock, fetchByte]
      simp only [Nat.add_one_ne_zero, if_false]
      rw [List.getElem?_eq_getElem (show p < d.length by omega)]
      simp only [Option.bind_eq_bind, Option.bind_some, Option.pure_def, Nat.add_sub_cancel]
      rw [ih (p + 1) (by omega), List.drop_eq_getElem_cons (show p < d.length by omega)]
      rfl
  have h1 : readBlock K B (St.open (d :: [] :: rest)) = some (d, ⟨[] :: rest, d, d.length, 0⟩) := by
    obtain ⟨n, rfl⟩ : ∃ n, B = n + 1 := ⟨B - 1, by omega⟩
    have hl : d.length ≠ 0 := by omega
    have e : fetchByte K (St.open (d :: [] :: rest)) = fetchByte K ⟨[] :: rest, d, 0, n + 1⟩ := by
      rw [fetchByte, fetchByte]
      simp only [St.open, fread, if_true, List.take_of_length_le (show d.length ≤ K by omega), Nat.add_one_ne_zero, if_false, hl, hd, if_pos hK]
    have h2 := gen (n + 1) 0 (by omega)
    rw [readBlock] at h2 ⊢
    rw [e]
    exact h2
  have h2 : readBlock K B ⟨[] :: rest, d, d.length, 0⟩ = some ([], ⟨rest, [], 0, 0⟩) := by
    obtain ⟨n, rfl⟩ : ∃ n, B = n + 1 := ⟨B - 1, by omega⟩
    rw [readBlock, fetchByte]
    simp [fread]
  rw [blocks, h1]
  simp only [Option.bind_eq_bind, Option.bind_some]
  rw [if_neg (by omega), blocks, h2]
  rfl

/-- C76 is false of the code if a call of `fread` fails and a later one would not. -/
theorem C76_fails : ¬ C76_claim := by
  intro h
  obtain ⟨bs, h1, h2⟩ := h 1 1 [[97], [], [98]] 3 (by decide) (by decide) (by decide)
  rw [C76_lost 1 1 (by decide) (by decide) [97] (by decide) [[98]] 1, Option.some.injEq] at h1
  subst h1
  exact absurd h2 (by decide)

/-- The hypotheses can be met: seven bytes in four pieces, a buffer of two, blocks of three. -/
example : blocks 2 3 8 (St.open [[1], [2, 3, 4, 5], [6], [7]]) = some [[1, 2, 3], [4, 5, 6], [7]] := by decide

end Bwtc.Props
