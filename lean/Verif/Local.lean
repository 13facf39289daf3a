import Verif.Sound

/-!
# Readers depend only on what they have read

For every reader of the decompressor: the bits in front of the rest that it returns determine its result, whatever the rest is.
-/

set_option autoImplicit false

namespace Bwtc

/-- The reader `f`, whose results are put together by `mk` from a value and the rest of the input: the input is what was
read and the rest, and with any other rest (of the same length modulo 8: streams consist of bytes) the same is read. -/
def Loc {κ ρ : Type} (mk : κ → List Bool → ρ) (f : List Bool → Option ρ) : Prop :=
  ∀ s v, f s = some v → ∃ k u r, v = mk k r ∧ s = u ++ r ∧ ∀ t : List Bool, t.length % 8 = r.length % 8 → f (u ++ t) = some (mk k t)

/-- Results `(x, rest)`. -/
abbrev two {α : Type} : α → List Bool → α × List Bool := fun x r => (x, r)
/-- Results `(x, y, rest)`. -/
abbrev three {α β : Type} : α × β → List Bool → α × β × List Bool := fun x r => (x.1, x.2, r)
/-- Results `(x, y, z, rest)`. -/
abbrev four {α β γ : Type} : α × β × γ → List Bool → α × β × γ × List Bool := fun x r => (x.1, x.2.1, x.2.2, r)

namespace Loc
variable {κ κ' ρ ρ' : Type} {mk : κ → List Bool → ρ} {mk' : κ' → List Bool → ρ'}

theorem ret {f : List Bool → Option ρ} (k : κ) (h : ∀ s, f s = some (mk k s)) : Loc mk f := by
  intro s v hv
  rw [h, Option.some.injEq] at hv
  exact ⟨k, [], s, hv.symm, rfl, fun t _ => h _⟩

theorem fail : Loc mk (fun _ => none) := by
  intro s v hv
  simp at hv

theorem bind {f : List Bool → Option ρ} {g : ρ → Option ρ'} (hf : Loc mk f) (hg : ∀ k, Loc mk' fun s => g (mk k s)) :
    Loc mk' fun s => f s >>= g := by
  intro s v hv
  simp only [Option.bind_eq_bind, Option.bind_eq_some_iff] at hv
  obtain ⟨w, h1, h2⟩ := hv
  obtain ⟨k, u, r, rfl, rfl, h3⟩ := hf s w h1
  obtain ⟨k', u', r', rfl, rfl, h4⟩ := hg k r v h2
  refine ⟨k', u ++ u', r', rfl, by simp, ?_⟩
  intro t ht
  simp only []
  rw [List.append_assoc, h3 (u' ++ t) (by rw [List.length_append, List.length_append]; omega)]
  simp only [Option.bind_eq_bind, Option.bind_some]
  exact h4 t ht

theorem lift {β : Type} {c : Option β} {g : β → List Bool → Option ρ} (hg : ∀ b, Loc mk (g b)) :
    Loc mk fun s => c >>= fun b => g b s := by
  cases c with
  | none => exact fail
  | some b => exact hg b

theorem ite {c : Prop} {d : List Bool → Decidable c} {f g : List Bool → Option ρ} (hf : c → Loc mk f) (hg : ¬ c → Loc mk g) :
    Loc mk fun s => @_root_.ite _ c (d s) (f s) (g s) := by
  by_cases h : c
  · simp only [if_pos h]; exact hf h
  · simp only [if_neg h]; exact hg h

theorem align {f : List Bool → Option ρ} (hf : Loc mk f) : Loc mk fun s => f (alignIn s) := by
  intro s v hv
  obtain ⟨k, u, r, rfl, h2, h3⟩ := hf _ v hv
  have hs : s = s.take (s.length % 8) ++ (u ++ r) := by
    rw [← h2, alignIn, List.take_append_drop]
  have h8 : (u ++ r).length % 8 = 0 := by
    rw [← h2, alignIn, List.length_drop]; omega
  refine ⟨k, s.take (s.length % 8) ++ u, r, rfl, by rw [List.append_assoc]; exact hs, ?_⟩
  intro t ht
  have hl : (s.take (s.length % 8)).length = s.length % 8 := by
    rw [List.length_take]
    have := Nat.mod_le s.length 8
    omega
  have : alignIn (s.take (s.length % 8) ++ u ++ t) = u ++ t := by
    rw [List.append_assoc, alignIn]
    have : (s.take (s.length % 8) ++ (u ++ t)).length % 8 = (s.take (s.length % 8)).length := by
      rw [List.length_append, hl]
      rw [List.length_append] at h8 ⊢
      omega
    rw [this, List.drop_left]
  simp only [this]
  exact h3 t ht

/-- The result in another form. -/
theorem map {f : List Bool → Option ρ} (hf : Loc mk f) {e : ρ → ρ'} (he : ∀ k, ∃ k', ∀ r, e (mk k r) = mk' k' r) :
    Loc mk' fun s => (f s).map e := by
  intro s v hv
  rw [Option.map_eq_some_iff] at hv
  obtain ⟨w, h1, rfl⟩ := hv
  obtain ⟨k, u, r, rfl, rfl, h3⟩ := hf s w h1
  obtain ⟨k', hk⟩ := he k
  refine ⟨k', u, r, hk r, rfl, ?_⟩
  intro t ht
  simp only [h3 t ht, Option.map_some, hk]

theorem congr {f g : List Bool → Option ρ} (hf : Loc mk f) (h : ∀ s, g s = f s) : Loc mk g := by
  have : g = f := funext h
  rw [this]; exact hf

end Loc

/-! ## Streams and integers -/

theorem readBit_loc : Loc two readBit := by
  intro s v hv
  cases s with
  | nil => simp [readBit] at hv
  | cons b s =>
    simp only [readBit, Option.some.injEq] at hv
    exact ⟨b, [b], s, hv.symm, rfl, fun t _ => rfl⟩

theorem readBits_loc (n : Nat) : Loc two (readBits n) := by
  induction n with
  | zero => exact .ret [] fun _ => rfl
  | succ n ih => exact .bind readBit_loc fun b => .bind ih fun bs => .ret (b :: bs) fun _ => rfl

theorem readByte_loc : Loc two readByte := .bind (readBits_loc 8) fun _ => .ret _ fun _ => rfl

/-- A reader that reads at least `n` bits. -/
def Eats {κ ρ : Type} (n : Nat) (mk : κ → List Bool → ρ) (f : List Bool → Option ρ) : Prop :=
  ∀ s v, f s = some v → ∃ k r, v = mk k r ∧ r.length + n ≤ s.length

theorem Eats.bind {κ κ' ρ ρ' : Type} {n : Nat} {mk : κ → List Bool → ρ} {mk' : κ' → List Bool → ρ'} {f : List Bool → Option ρ}
    {g : ρ → Option ρ'} (hf : Eats n mk f) (hg : ∀ k, Loc mk' fun s => g (mk k s)) : Eats n mk' fun s => f s >>= g := by
  intro s v hv
  simp only [Option.bind_eq_bind, Option.bind_eq_some_iff] at hv
  obtain ⟨w, h1, h2⟩ := hv
  obtain ⟨k, r, rfl, h3⟩ := hf s w h1
  obtain ⟨k', u', r', rfl, rfl, _⟩ := hg k r v h2
  refine ⟨k', r', rfl, ?_⟩
  rw [List.length_append] at h3
  omega

theorem readBits_eats (n : Nat) : Eats n two (readBits n) := by
  induction n with
  | zero => intro s v h; exact ⟨[], s, by simpa [readBits] using h.symm, Nat.le_refl _⟩
  | succ n ih =>
    intro s v h
    cases s with
    | nil => simp [readBits, readBit] at h
    | cons a s =>
      simp only [readBits, readBit, Option.bind_eq_bind, Option.bind_some, Option.bind_eq_some_iff] at h
      obtain ⟨w, h1, h2⟩ := h
      obtain ⟨k, r, rfl, h3⟩ := ih _ _ h1
      simp only [Option.pure_def, Option.some.injEq] at h2
      exact ⟨a :: k, r, h2.symm, by rw [List.length_cons]; omega⟩

theorem readByte_eats : Eats 8 two readByte := .bind (readBits_eats 8) fun _ => .ret _ fun _ => rfl

theorem readByte_shorter {s r : List Bool} {b : UInt8} (h : readByte s = some (b, r)) : r.length + 8 ≤ s.length := by
  obtain ⟨_, _, h1, h2⟩ := readByte_eats _ _ h
  simp only [two, Prod.mk.injEq] at h1
  rw [h1.2]
  exact h2

namespace Varint

theorem readPackedGo_loc (i packed : Nat) : Loc two (readPackedGo i packed) := by
  by_cases h : i < 8
  · have ih := fun p => readPackedGo_loc (i + 1) p
    refine Loc.congr (f := fun s => readByte s >>= fun p => if p.1.toNat &&& 0x80 ≠ 0 then
      readPackedGo (i + 1) (packed ||| (p.1.toNat <<< (i * 8))) p.2 else some (packed ||| (p.1.toNat <<< (i * 8)), p.2)) ?_ ?_
    · refine .bind readByte_loc fun b => ?_
      dsimp +instances only
      refine Loc.ite (fun _ => ?_) fun _ => ?_
      · exact ih _
      · exact .ret _ fun _ => rfl
    · intro s
      rw [readPackedGo, if_pos h]
      cases readByte s <;> rfl
  · refine Loc.congr .fail ?_
    intro s
    rw [readPackedGo, if_neg h]
termination_by 8 - i

theorem readPacked_loc : Loc two readPacked := .bind (readPackedGo_loc 0 0) fun _ => .ret _ fun _ => rfl

theorem readVarGo_loc (j result bytes : Nat) : Loc three (readVarGo j result bytes) := by
  by_cases h : j < 64
  · have ih := fun p => readVarGo_loc (j + 7) p (bytes + 1)
    refine Loc.congr (f := fun s => readByte s >>= fun p => if p.1.toNat &&& 0x80 ≠ 0 then
      readVarGo (j + 7) (result ||| ((p.1.toNat &&& 0x7F) <<< j)) (bytes + 1) p.2
      else some (result ||| ((p.1.toNat &&& 0x7F) <<< j), bytes + 1, p.2)) ?_ ?_
    · refine .bind readByte_loc fun b => ?_
      dsimp +instances only
      refine Loc.ite (fun _ => ?_) fun _ => ?_
      · exact ih _
      · exact .ret (_, _) fun _ => rfl
    · intro s
      rw [readVarGo, if_pos h]
      cases readByte s <;> rfl
  · refine Loc.congr .fail ?_
    intro s
    rw [readVarGo, if_neg h]
termination_by 64 - j

theorem readVar_eats : Eats 8 three readVar := by
  intro s v h
  rw [readVar, readVarGo, if_pos (by omega)] at h
  refine Eats.bind (mk := two) (mk' := three) (g := fun p => if p.1.toNat &&& 0x80 ≠ 0 then
      readVarGo (0 + 7) (0 ||| ((p.1.toNat &&& 0x7F) <<< 0)) (0 + 1) p.2
      else some (0 ||| ((p.1.toNat &&& 0x7F) <<< 0), 0 + 1, p.2)) readByte_eats ?_ s v ?_
  · intro b
    dsimp +instances only
    refine Loc.ite (fun _ => ?_) fun _ => ?_
    · exact readVarGo_loc _ _ _
    · exact .ret (_, _) fun _ => rfl
  · rw [← h]
    simp only []
    cases readByte s <;> rfl

theorem readVar_loc : Loc three readVar := readVarGo_loc 0 0 0

theorem readVarRevGo_loc (j result bytes : Nat) : Loc three (readVarRevGo j result bytes) := by
  by_cases h : j < 64
  · have ih := fun p => readVarRevGo_loc (j + 7) p (bytes + 1)
    refine Loc.congr (f := fun s => readBits 8 s >>= fun p => if natOfRev p.1 &&& 0x80 ≠ 0 then
      readVarRevGo (j + 7) (result ||| ((natOfRev p.1 &&& 0x7F) <<< j)) (bytes + 1) p.2
      else some (result ||| ((natOfRev p.1 &&& 0x7F) <<< j), bytes + 1, p.2)) ?_ ?_
    · refine .bind (readBits_loc 8) fun b => ?_
      dsimp +instances only
      refine Loc.ite (fun _ => ?_) fun _ => ?_
      · exact ih _
      · exact .ret (_, _) fun _ => rfl
    · intro s
      rw [readVarRevGo, if_pos h]
      cases readBits 8 s <;> rfl
  · refine Loc.congr .fail ?_
    intro s
    rw [readVarRevGo, if_neg h]
termination_by 64 - j

theorem readVarRev_loc : Loc three readVarRev := readVarRevGo_loc 0 0 0

end Varint

/-! ## Bit codes -/

open BitCodes

theorem unaryDecodeGo_loc (n : Nat) : Loc two (unaryDecodeGo n) := by
  intro s v hv
  induction s generalizing n with
  | nil => simp [unaryDecodeGo] at hv
  | cons b s ih =>
    cases b with
    | true =>
      simp only [unaryDecodeGo, Option.some.injEq] at hv
      exact ⟨n, [true], s, hv.symm, rfl, fun t _ => rfl⟩
    | false =>
      obtain ⟨k, u, r, h1, h2, h3⟩ := ih (n + 1) hv
      exact ⟨k, false :: u, r, h1, by rw [h2]; rfl, fun t ht => h3 t ht⟩

theorem unaryDecode_loc : Loc two unaryDecode := unaryDecodeGo_loc 1

theorem countZeros_loc (n : Nat) : Loc two (BitBuffer.countZeros n) := by
  intro s v hv
  induction s generalizing n with
  | nil => simp [BitBuffer.countZeros] at hv
  | cons b s ih =>
    cases b with
    | true =>
      simp only [BitBuffer.countZeros, Option.some.injEq] at hv
      exact ⟨n, [true], s, hv.symm, rfl, fun t _ => rfl⟩
    | false =>
      obtain ⟨k, u, r, h1, h2, h3⟩ := ih (n + 1) hv
      exact ⟨k, false :: u, r, h1, by rw [h2]; rfl, fun t ht => h3 t ht⟩

theorem gammaDecode_loc : Loc two BitBuffer.gammaDecode :=
  .bind (countZeros_loc 0) fun _ => .bind (readBits_loc _) fun _ => .lift fun _ => .ret _ fun _ => rfl

theorem readGammas_loc (n : Nat) : Loc two (BitBuffer.readGammas n) := by
  induction n with
  | zero => exact .ret [] fun s => rfl
  | succ n ih => exact .bind gammaDecode_loc fun b => .bind ih fun bs => .ret (b :: bs) fun s => rfl

theorem binaryDecode_loc (lo hi : Nat) : Loc three (binaryDecode lo hi) := by
  unfold binaryDecode
  refine .ite (fun _ => .ret (_, _) fun _ => rfl) fun _ => .lift fun p => ?_
  obtain ⟨a, b, c⟩ := p
  refine .bind (readBits_loc _) fun bs => ?_
  dsimp +instances only
  refine Loc.ite (fun _ => .ret (_, _) fun _ => rfl) fun _ => .bind readBit_loc fun b => ?_
  dsimp +instances only
  exact .ite (fun _ => .ret (_, _) fun _ => rfl) fun _ => .ret (_, _) fun _ => rfl

theorem interpDecode_loc (M lo hi n : Nat) : Loc three (interpDecode M lo hi n) := by
  induction n using Nat.strongRecOn generalizing lo hi with
  | _ n ih =>
    refine Loc.congr ?_ fun s => by rw [interpDecode]
    refine .ite (fun _ => .ret (_, _) fun _ => rfl) fun _ => .ite (fun _ => .ret (_, _) fun _ => rfl) fun _ => ?_
    refine .bind (binaryDecode_loc _ _) fun m => ?_
    refine .bind (ih _ (by omega) _ _) fun a => ?_
    refine .bind (ih _ (by omega) _ _) fun b => ?_
    exact .ret (_, _) fun _ => rfl

/-! ## Headers and grammars -/

theorem readPower_loc (n pos : Nat) : Loc two (BlockHeader.readPower n pos) := by
  induction n generalizing pos with
  | zero => exact .ret pos fun _ => rfl
  | succ n ih => exact .bind readBit_loc fun b => ih _

theorem readPowers_loc (n : Nat) : Loc two (BlockHeader.readPowers n) := by
  induction n with
  | zero => exact .ret [] fun _ => rfl
  | succ n ih => exact .bind (readPower_loc 31 0) fun b => .bind ih fun bs => .ret (b :: bs) fun _ => rfl

theorem header_loc : Loc two BlockHeader.readHeader :=
  .bind readByte_loc fun _ => .bind (readPowers_loc _) fun ps => .align (f := fun s => some (ps, s)) (.ret ps fun _ => rfl)

namespace Sections

theorem readLengths_loc (n : Nat) : Loc two (readLengths n) := by
  induction n with
  | zero => exact .ret [] fun _ => rfl
  | succ n ih => exact .bind Varint.readPacked_loc fun p => .lift fun x => .bind ih fun l => .ret (x :: l) fun _ => rfl

theorem readHeader_eats : Eats 48 four readHeader :=
  .bind (readBits_eats 48) fun l => .bind header_loc fun ps => .bind (readByte_loc.bind fun _ => readLengths_loc _) fun secs =>
    .ret (natOf l, ps, secs) fun _ => rfl

theorem readSections_loc : Loc two readSections := .bind readByte_loc fun _ => readLengths_loc _

theorem readHeader_loc : Loc four readHeader :=
  .bind (readBits_loc 48) fun l => .bind header_loc fun ps => .bind readSections_loc fun secs =>
    .ret (natOf l, ps, secs) fun _ => rfl

end Sections

namespace Grammar

theorem readBytes_loc (n : Nat) : Loc two (readBytes n) := by
  induction n with
  | zero => exact .ret [] fun _ => rfl
  | succ n ih => exact .bind readByte_loc fun b => .bind ih fun bs => .ret (b :: bs) fun _ => rfl

theorem readVars_loc (enum : UInt8 → Nat) (fl : List Bool) (st : RdVars) : Loc two (readVars enum fl st) := by
  induction fl generalizing st with
  | nil => exact .ret st fun _ => rfl
  | cons b fl ih =>
    cases b with
    | false => exact .bind readByte_loc fun v => ih _
    | true =>
      refine .bind readByte_loc fun v => .bind readByte_loc fun w => ?_
      exact .ite (fun _ => ih _) fun _ => .fail

theorem readFreed_loc (specials : List UInt8) (os : List Bool) (k curr sqr : Nat) : Loc four (readFreed specials os k curr sqr) := by
  induction os generalizing k curr sqr with
  | nil =>
    cases k with
    | zero => exact .ret (_, _, _) fun _ => rfl
    | succ k => exact .fail
  | cons o os ih =>
    cases k with
    | zero => exact .ret (_, _, _) fun _ => rfl
    | succ k =>
      refine Loc.congr ?_ fun s => by rw [readFreed]
      refine .ite (fun _ => .lift fun c => .bind (ih _ _ _) fun r => .ret (_, _, _) fun _ => rfl) fun _ => ?_
      refine .ite (fun _ => .bind readByte_loc fun c => .bind (ih _ _ _) fun r => .ret (_, _, _) fun _ => rfl) fun _ => ?_
      exact .bind (ih _ _ _) fun r => .ret (_, _, _) fun _ => rfl

theorem readLengths_loc (k left : Nat) : Loc two (readLengths k left) := by
  induction k generalizing left with
  | zero => exact .ret [] fun _ => rfl
  | succ n ih => exact .bind readByte_loc fun b => .bind (ih _) fun bs => .ret _ fun _ => rfl

theorem readGrammar_loc : Loc two readGrammar := by
  refine .bind Varint.readVar_loc fun v => ?_
  refine .ite (fun _ => .ret _ fun _ => rfl) fun _ => ?_
  refine .bind readByte_loc fun n => .bind (readBytes_loc _) fun sp => .bind (readBits_loc _) fun fl => ?_
  dsimp +instances only
  refine .bind (.align (readVars_loc _ _ _)) fun st => ?_
  dsimp +instances only
  refine .bind readByte_loc fun k => ?_
  dsimp +instances only
  refine .bind (readFreed_loc _ _ _ _ _) fun r => ?_
  dsimp +instances only
  refine .lift fun q => .bind (readLengths_loc _ _) fun lens => ?_
  dsimp +instances only
  refine .bind (readBytes_loc _) fun rhs => ?_
  dsimp +instances only
  exact .ret _ fun _ => rfl

end Grammar

theorem readBlockHeader_loc : Loc two Container.readBlockHeader := by
  refine .bind Varint.readVar_loc fun v => ?_
  dsimp +instances only
  refine .ite (fun _ => .ret none fun _ => rfl) fun _ => ?_
  refine .bind Varint.readVar_loc fun k => ?_
  dsimp +instances only
  refine .bind Grammar.readGrammar_loc fun g => ?_
  exact .ret (some (_, _, _)) fun _ => rfl

/-! ## Huffman coder -/

section
open HuffLookup HuffShape HuffBlock

theorem readLens_loc (maxLen k : Nat) (as t : List Nat) (bits : Nat) : Loc three (readLens maxLen k as t bits) := by
  induction k generalizing as t bits with
  | zero =>
    cases as <;> exact .ret (_, _) fun _ => rfl
  | succ k ih =>
    cases as with
    | nil => exact .fail
    | cons a as => exact .bind unaryDecode_loc fun n => .lift fun t => ih _ _ _

theorem deserializeShape_loc (t : List Nat) : Loc three (deserializeShape t) := by
  refine .bind readByte_loc fun a => .bind readByte_loc fun b => .bind Varint.readVar_loc fun c => ?_
  dsimp +instances only
  refine .bind (interpDecode_loc _ _ _ _) fun d => ?_
  dsimp +instances only
  refine .bind (readLens_loc _ _ _ _ _) fun e => ?_
  dsimp +instances only
  exact .align (f := fun s => some (e.1, (e.2 + 7) / 8, s)) (.ret (e.1, (e.2 + 7) / 8) fun _ => rfl)

theorem boundary_loc (tab : Table) (len0 code0 r : Nat) (st : St) : Loc four (boundary tab len0 code0 r st) := by
  unfold boundary
  cases boundary1 tab len0 code0 r st with
  | none => exact .fail
  | some x =>
    obtain ⟨o1, r1, st1⟩ := x
    dsimp +instances only
    refine .ite (fun _ => ?_) fun _ => .ite (fun _ => ?_) fun _ => .ret (_, _, _) fun _ => rfl
    · cases extract tab len0 code0 r1 st1 with
      | none => exact .fail
      | some x => exact .ret (_, _, _) fun _ => rfl
    · refine Loc.congr (f := fun s => readByte s >>= fun p =>
        match crossExtract true tab len0 code0 r1 st1 p.1.toNat with
        | none => none
        | some (o, r', st') => some (o1 ++ o, r', st', p.2)) ?_ ?_
      · refine .bind readByte_loc fun b => ?_
        dsimp +instances only
        cases crossExtract true tab len0 code0 r1 st1 b.toNat with
        | none => exact .fail
        | some x => exact .ret (_, _, _) fun _ => rfl
      · intro s
        cases readByte s <;> rfl

theorem iter_loc (tab : Table) (len0 code0 r : Nat) (st : St) (b : Nat) : Loc four (iter tab len0 code0 r st b) := by
  unfold iter
  refine .ite (fun _ => .ite (fun _ => .ret (_, _, _) fun _ => rfl) fun _ => ?_) fun _ => .ite (fun _ => ?_) fun _ => ?_
  · cases leadingZeros 8 b with
    | none => exact .fail
    | some lz =>
      refine Loc.congr ((boundary_loc tab len0 code0 (r - (zeroLoop len0 r (st.zc + lz)).1)
        ⟨b, 8 - lz, (zeroLoop len0 r (st.zc + lz)).2⟩).map (mk' := four)
        (e := fun x => (List.replicate (zeroLoop len0 r (st.zc + lz)).1 code0 ++ x.1, x.2)) fun k => ⟨(_ ++ k.1, k.2.1, k.2.2), fun _ => rfl⟩) ?_
      intro s
      dsimp only
      cases boundary tab len0 code0 (r - (zeroLoop len0 r (st.zc + lz)).1) ⟨b, 8 - lz, (zeroLoop len0 r (st.zc + lz)).2⟩ s <;> rfl
  · cases leadingZeros 8 b with
    | none => exact .fail
    | some lz =>
      dsimp only
      cases extract tab len0 code0 r ⟨b, 8 - lz, lz⟩ with
      | none => exact .fail
      | some x => exact .ret (_, _, _) fun _ => rfl
  · cases crossExtract false tab len0 code0 r st b with
    | none => exact .fail
    | some x => exact .ret (_, _, _) fun _ => rfl

theorem decodeLoop_loc (tab : Table) (len0 code0 r : Nat) (st : St) : Loc two (decodeLoop tab len0 code0 r st) := by
  intro s v hv
  induction hn : s.length using Nat.strongRecOn generalizing s r st v with
  | _ n ih =>
    by_cases h0 : r = 0
    · rw [decodeLoop, if_pos h0, Option.some.injEq] at hv
      exact ⟨[], [], s, hv.symm, rfl, fun t _ => by rw [decodeLoop, if_pos h0]; rfl⟩
    · rw [decodeLoop, if_neg h0] at hv
      cases h1 : readByte s with
      | none => rw [h1] at hv; simp at hv
      | some x =>
        obtain ⟨b, s1⟩ := x
        have hl1 := readByte_shorter h1
        obtain ⟨_, u1, _, e1, rfl, g1⟩ := readByte_loc s _ h1
        simp only [two, Prod.mk.injEq] at e1
        obtain ⟨rfl, rfl⟩ := e1
        rw [h1] at hv
        dsimp only at hv
        cases h2 : iter tab len0 code0 r st b.toNat s1 with
        | none => rw [h2] at hv; simp at hv
        | some x =>
          obtain ⟨o, r', st', s2⟩ := x
          rw [h2] at hv
          dsimp only at hv
          obtain ⟨⟨_, _, _⟩, u2, _, e2, rfl, g2⟩ := iter_loc tab len0 code0 r st b.toNat _ _ h2
          simp only [four, Prod.mk.injEq] at e2
          obtain ⟨rfl, rfl, rfl, rfl⟩ := e2
          split at hv
          case isFalse => simp at hv
          case isTrue hlt =>
            cases h3 : decodeLoop tab len0 code0 r' st' s2 with
            | none => rw [h3] at hv; simp at hv
            | some x =>
              obtain ⟨o', s3⟩ := x
              rw [h3, Option.some.injEq] at hv
              subst hv
              obtain ⟨_, u3, _, e3, rfl, g3⟩ := ih s2.length (by omega) _ _ _ _ h3 rfl
              simp only [two, Prod.mk.injEq] at e3
              obtain ⟨rfl, rfl⟩ := e3
              refine ⟨o ++ o', u1 ++ (u2 ++ u3), s3, rfl, by simp, ?_⟩
              intro t ht
              rw [decodeLoop, if_neg h0, List.append_assoc, List.append_assoc,
                g1 (u2 ++ (u3 ++ t)) (by simp only [List.length_append]; omega)]
              dsimp only
              rw [g2 (u3 ++ t) (by simp only [List.length_append]; omega)]
              dsimp only
              rw [dif_pos (by simp only [List.length_append] at hl1 ⊢; omega), g3 t ht]

theorem decode_loc (clen code : List Nat) (n : Nat) : Loc two (decode clen code n) := by
  unfold decode
  cases build (entries clen code) (fun _ _ => none) with
  | none => exact .fail
  | some tab =>
    refine Loc.congr (f := fun s => decodeLoop tab (zeroCode (entries clen code)).1 (zeroCode (entries clen code)).2 n ⟨0, 0, 0⟩ s >>=
      fun p => some (p.1, alignIn p.2)) ?_ ?_
    · refine .bind (decodeLoop_loc _ _ _ _ _) fun o => ?_
      exact .align (f := fun s => some (o, s)) (.ret _ fun _ => rfl)
    · intro s
      dsimp only
      cases decodeLoop tab (zeroCode (entries clen code)).1 (zeroCode (entries clen code)).2 n ⟨0, 0, 0⟩ s <;> rfl

theorem huffSection_loc (size : Nat) : Loc two (HuffBlock.decodeSection size) := by
  refine .bind Varint.readPacked_loc fun p => .lift fun n => ?_
  dsimp +instances only
  refine .bind (deserializeShape_loc _) fun c => ?_
  dsimp +instances only
  refine .lift fun code => .ite (fun _ => ?_) fun _ => .fail
  refine .bind (decode_loc _ _ _) fun syms => ?_
  dsimp +instances only
  refine .bind (readGammas_loc _) fun lens => ?_
  dsimp +instances only
  exact .align (f := fun s => some (_, s)) (.ret _ fun _ => rfl)

theorem huffSections_loc (size : Nat) (ns : List Nat) : Loc two (HuffBlock.decodeSections size ns) := by
  induction ns with
  | nil => exact .ret [] fun _ => rfl
  | cons n ns ih =>
    refine Loc.congr ?_ fun s => by rw [HuffBlock.decodeSections]
    refine .ite (fun _ => ih) fun _ => ?_
    refine .bind (huffSection_loc _) fun a => ?_
    dsimp +instances only
    exact .bind ih fun b => .ret _ fun _ => rfl

theorem huffBlock_loc : Loc two HuffBlock.decodeBlock := by
  refine .bind Sections.readHeader_loc fun h => ?_
  dsimp +instances only
  refine .bind (huffSections_loc _ _) fun d => ?_
  dsimp +instances only
  exact .ret _ fun _ => rfl

theorem huffBlock_eats : Eats 48 two HuffBlock.decodeBlock := by
  refine .bind Sections.readHeader_eats fun h => ?_
  dsimp +instances only
  refine .bind (huffSections_loc _ _) fun d => ?_
  dsimp +instances only
  exact .ret _ fun _ => rfl

end

/-! ## Wavelet coder -/

section
open Wave RangeCoder

/-- Results that are decoders. -/
abbrev decoder : Range × Nat → List Bool → Dec := fun x r => ⟨x.1, x.2, r⟩
/-- Results with a decoder at the end. -/
abbrev withDecoder {α : Type} : α × Range × Nat → List Bool → α × Dec := fun x r => (x.1, ⟨x.2.1, x.2.2, r⟩)

theorem decStart_loc : Loc decoder decStart := by
  refine .bind readByte_loc fun a => ?_
  dsimp +instances only
  refine .bind readByte_loc fun b => ?_
  dsimp +instances only
  refine .bind readByte_loc fun c => ?_
  dsimp +instances only
  refine .bind readByte_loc fun d => ?_
  dsimp +instances only
  exact .ret (_, _) fun _ => rfl

theorem renormDec_loc (fuel : Nat) (x : Range × Nat) : Loc decoder fun s => renormDec fuel (decoder x s) := by
  induction fuel generalizing x with
  | zero => exact .fail
  | succ fuel ih =>
    unfold renormDec
    dsimp +instances only [decoder]
    refine .ite (fun _ => ?_) fun _ => .ret x fun _ => rfl
    refine .bind readByte_loc fun b => ?_
    dsimp +instances only
    exact ih (_, _)

theorem decodeBit_loc (x : Range × Nat) (p : Nat) : Loc withDecoder fun s => decodeBit (decoder x s) p := by
  unfold decodeBit
  dsimp +instances only [decoder]
  refine .bind (renormDec_loc loopFuel (_, _)) fun d => ?_
  exact .ret (_, _, _) fun _ => rfl

theorem exec_loc {α : Type} (m : Prog α) (x : Range × Nat) : Loc withDecoder fun s => m.exec (decoder x s) := by
  induction m generalizing x with
  | ret a => exact .ret (a, x.1, x.2) fun _ => rfl
  | fail => exact .fail
  | ask p k ih =>
    refine Loc.congr (f := fun s => decodeBit (decoder x s) p >>= fun y => (k y.1).exec y.2) ?_ ?_
    · refine .bind (decodeBit_loc x p) fun y => ?_
      exact ih y.1 (y.2.1, y.2.2)
    · intro s
      rw [Prog.exec]
      cases decodeBit (decoder x s) p <;> rfl

theorem waveLengths_loc (ml k : Nat) (as : List Nat) : Loc two (Wave.readLengths ml k as) := by
  induction k generalizing as with
  | zero => cases as <;> exact .ret [] fun _ => rfl
  | succ k ih =>
    cases as with
    | nil => exact .fail
    | cons a as =>
      refine Loc.congr ?_ fun s => by rw [Wave.readLengths]
      refine .bind unaryDecode_loc fun n => ?_
      dsimp +instances only
      refine .ite (fun _ => .fail) fun _ => ?_
      refine .bind (ih _) fun ps => ?_
      dsimp +instances only
      exact .ret _ fun _ => rfl

theorem readIntegerLens_loc : Loc two readIntegerLens := by
  refine .bind Varint.readVarRev_loc fun a => ?_
  dsimp +instances only
  refine .ite (fun _ => ?_) fun _ => .ret [] fun _ => rfl
  refine .bind Varint.readVarRev_loc fun b => ?_
  dsimp +instances only
  refine .bind Varint.readVarRev_loc fun c => ?_
  dsimp +instances only
  refine .bind (interpDecode_loc _ _ _ _) fun d => ?_
  dsimp +instances only
  refine .bind (waveLengths_loc _ _ _) fun e => ?_
  dsimp +instances only
  exact .ret _ fun _ => rfl

theorem readShape_loc : Loc two readShape := by
  refine .bind readByte_loc fun a => ?_
  dsimp +instances only
  refine .bind readByte_loc fun b => ?_
  dsimp +instances only
  refine .bind Varint.readVarRev_loc fun c => ?_
  dsimp +instances only
  refine .bind (interpDecode_loc _ _ _ _) fun d => ?_
  dsimp +instances only
  refine .bind (waveLengths_loc _ _ _) fun e => ?_
  dsimp +instances only
  refine .lift fun root => .lift fun codes => .bind readIntegerLens_loc fun l => ?_
  dsimp +instances only
  refine .lift fun i => ?_
  obtain ⟨it, ic⟩ := i
  dsimp +instances only
  refine .bind (readBits_loc _) fun w => ?_
  dsimp +instances only
  exact .ret _ fun _ => rfl

theorem waveSection_loc {σ : Type} (P : ProbModels.Model σ) (fuel : Nat) (st : WaveBlock.States σ) :
    Loc three (WaveBlock.decodeSection P fuel st) := by
  refine .bind Varint.readPacked_loc fun p => .lift fun n => ?_
  dsimp +instances only
  refine .bind readShape_loc fun c => ?_
  dsimp +instances only
  refine .bind (.align decStart_loc) fun d => ?_
  refine .bind (exec_loc _ d) fun e => ?_
  obtain ⟨⟨g, t⟩, r⟩ := e
  dsimp +instances only
  refine .lift fun out => .lift fun t => ?_
  exact .ret (_, _) fun _ => rfl

theorem waveSections_loc {σ : Type} (P : ProbModels.Model σ) (fuel : Nat) (ns : List Nat) (st : WaveBlock.States σ) :
    Loc three (WaveBlock.decodeSections P fuel ns st) := by
  induction ns generalizing st with
  | nil => exact .ret ([], st) fun _ => rfl
  | cons n ns ih =>
    refine Loc.congr ?_ fun s => by rw [WaveBlock.decodeSections]
    refine .ite (fun _ => ih _) fun _ => ?_
    refine .bind (waveSection_loc _ _ _) fun a => ?_
    dsimp +instances only
    refine .bind (ih _) fun b => ?_
    dsimp +instances only
    exact .ret (_, _) fun _ => rfl

theorem waveBlock_loc {σ : Type} (P : ProbModels.Model σ) (fuel : Nat) (st : WaveBlock.States σ) :
    Loc three (WaveBlock.decodeBlock P fuel st) := by
  refine .bind Sections.readHeader_loc fun h => ?_
  dsimp +instances only
  refine .bind (waveSections_loc _ _ _ _) fun d => ?_
  dsimp +instances only
  exact .ret (_, _) fun _ => rfl

theorem waveBlock_eats {σ : Type} (P : ProbModels.Model σ) (fuel : Nat) (st : WaveBlock.States σ) :
    Eats 48 three (WaveBlock.decodeBlock P fuel st) := by
  refine .bind Sections.readHeader_eats fun h => ?_
  dsimp +instances only
  refine .bind (waveSections_loc _ _ _ _) fun d => ?_
  dsimp +instances only
  exact .ret (_, _) fun _ => rfl

end

/-! ## Container -/

namespace Container
open Varint Grammar

/-- A decoder that depends only on what it reads, at least the 48 bits of the length field. -/
def Coder.Local (C : Coder) : Prop := ∀ fuel st, Loc three (C.decode fuel st) ∧ Eats 48 three (C.decode fuel st)

theorem coder_local (letter : UInt8) : (coderOf letter).Local := by
  have hw : ∀ {σ : Type} (P : ProbModels.Model σ), (wavelet P).Local := fun P fuel st =>
    ⟨waveBlock_loc P fuel st, waveBlock_eats P fuel st⟩
  have hh : huffman.Local := by
    intro fuel st
    refine ⟨huffBlock_loc.map fun k => ⟨(k, ()), fun _ => rfl⟩, ?_⟩
    intro s v hv
    obtain ⟨w, h1, rfl⟩ := Option.map_eq_some_iff.mp hv
    obtain ⟨k, r, rfl, h3⟩ := huffBlock_eats _ _ h1
    exact ⟨(k, ()), r, rfl, h3⟩
  unfold coderOf
  repeat' split
  all_goals first | exact hh | exact hw _

theorem decodeSlices_loc {C : Coder} (hC : C.Local) (junk : UInt8) (fuel cap n : Nat) (acc : List UInt8) (st : C.σ) :
    Loc three (decodeSlices C junk fuel cap n acc st) := by
  induction n generalizing acc st with
  | zero => exact .ret (acc, st) fun _ => rfl
  | succ n ih =>
    intro s v hv
    rw [decodeSlices] at hv
    by_cases h16 : s.length < 16
    · simp [h16] at hv
    rw [if_neg h16] at hv
    have hg : ∀ x : HuffBlock.Decoded × C.σ, Loc three fun s =>
        if cap < acc.length + x.1.size ∨ x.1.size ≠ x.1.data.length then none
        else (InvBWT.inverseBlock x.1.data junk x.1.powers) >>= fun b => decodeSlices C junk fuel cap n (acc ++ b.1) x.2 s :=
      fun x => .ite (fun _ => .fail) fun _ => .lift fun y => ih _ _
    have hl := Loc.bind (mk' := three) (g := fun x => if cap < acc.length + x.1.size ∨ x.1.size ≠ x.1.data.length then none
        else (InvBWT.inverseBlock x.1.data junk x.1.powers) >>= fun b => decodeSlices C junk fuel cap n (acc ++ b.1) x.2.1 x.2.2)
      (hC fuel st).1 hg
    have he := Eats.bind (mk' := three) (g := fun x => if cap < acc.length + x.1.size ∨ x.1.size ≠ x.1.data.length then none
        else (InvBWT.inverseBlock x.1.data junk x.1.powers) >>= fun b => decodeSlices C junk fuel cap n (acc ++ b.1) x.2.1 x.2.2)
      (hC fuel st).2 hg
    obtain ⟨k, u, r, rfl, rfl, h3⟩ := hl s v hv
    obtain ⟨k', r', e1, e2⟩ := he _ _ hv
    simp only [three, Prod.mk.injEq] at e1
    obtain ⟨_, _, rfl⟩ := e1
    rw [List.length_append] at e2
    refine ⟨k, u, r, rfl, rfl, ?_⟩
    intro t ht
    rw [decodeSlices, if_neg (by rw [List.length_append]; omega)]
    exact h3 t ht

theorem readBits_spec (n : Nat) : ∀ s bs r : List Bool, readBits n s = some (bs, r) → s = bs ++ r ∧ bs.length = n := by
  induction n with
  | zero => intro s bs r h; simp only [readBits, Option.some.injEq, Prod.mk.injEq] at h; rw [← h.1, ← h.2]; exact ⟨rfl, rfl⟩
  | succ n ih =>
    intro s bs r h
    cases s with
    | nil => simp [readBits, readBit] at h
    | cons a s =>
      simp only [readBits, readBit, Option.bind_eq_bind, Option.bind_some, Option.bind_eq_some_iff] at h
      obtain ⟨⟨x, y⟩, h1, h2⟩ := h
      simp only [Option.pure_def, Option.some.injEq, Prod.mk.injEq] at h2
      obtain ⟨rfl, rfl⟩ := h2
      obtain ⟨h3, h4⟩ := ih _ _ _ h1
      exact ⟨by rw [h3]; rfl, by rw [List.length_cons, h4]⟩

theorem readByte_spec {s r : List Bool} {b : UInt8} (h : readByte s = some (b, r)) : s = byteBits b ++ r := by
  rw [readByte] at h
  simp only [Option.bind_eq_bind, Option.bind_eq_some_iff] at h
  obtain ⟨⟨x, y⟩, h1, h2⟩ := h
  simp only [Option.pure_def, Option.some.injEq, Prod.mk.injEq] at h2
  obtain ⟨rfl, rfl⟩ := h2
  obtain ⟨h3, h4⟩ := readBits_spec _ _ _ _ h1
  rw [byteBits_ofNat_natOf h4, h3]

/-- A zero ends with a zero byte. -/
theorem readVarGo_zero (j result bytes : Nat) (s r : List Bool) (n : Nat) (h : readVarGo j result bytes s = some (0, n, r)) :
    ∃ v, s = v ++ List.replicate 8 false ++ r := by
  rw [readVarGo] at h
  split at h
  case isFalse => simp at h
  case isTrue hj =>
    cases h1 : readByte s with
    | none => rw [h1] at h; simp at h
    | some x =>
      obtain ⟨b, s1⟩ := x
      rw [h1] at h
      simp only [] at h
      have hs := readByte_spec h1
      split at h
      case isTrue =>
        obtain ⟨v, hv⟩ := readVarGo_zero _ _ _ _ _ _ h
        exact ⟨byteBits b ++ v, by rw [hs, hv]; simp⟩
      case isFalse h2 =>
        simp only [Option.some.injEq, Prod.mk.injEq] at h
        obtain ⟨h3, _, rfl⟩ := h
        have h4 : (b.toNat &&& 0x7F) <<< j = 0 := (Nat.or_eq_zero_iff.mp h3).2
        have h5 : b.toNat &&& 0x7F = 0 := by
          rw [Nat.shiftLeft_eq] at h4
          rcases Nat.mul_eq_zero.mp h4 with h | h
          · exact h
          · exact absurd h (Nat.ne_of_gt (Nat.two_pow_pos j))
        have h6 : b.toNat &&& 0x80 = 0 := by omega
        have h7 : ∀ n : Fin 256, n.val &&& 0x7F = 0 → n.val &&& 0x80 = 0 → n.val = 0 := by decide +kernel
        have h8 : b.toNat = 0 := h7 ⟨b.toNat, b.toNat_lt⟩ h5 h6
        have : byteBits b = List.replicate 8 false := by
          rw [byteBits, h8]; rfl
        exact ⟨[], by rw [hs, this]; rfl⟩
termination_by 64 - j

theorem readBlockHeader_end {s r : List Bool} (h : readBlockHeader s = some (none, r)) :
    ∃ v, s = v ++ List.replicate 8 false ++ r := by
  rw [readBlockHeader] at h
  simp only [Option.bind_eq_bind, Option.bind_eq_some_iff] at h
  obtain ⟨⟨n, k, s1⟩, h1, h2⟩ := h
  dsimp only at h2
  split at h2
  case isTrue h0 =>
    subst h0
    simp only [Option.pure_def, Option.some.injEq, Prod.mk.injEq, true_and] at h2
    subst h2
    exact readVarGo_zero _ _ _ _ _ _ h1
  case isFalse =>
    simp only [Option.bind_eq_some_iff] at h2
    obtain ⟨⟨a, b, c⟩, _, ⟨d, e⟩, _, h2⟩ := h2
    simp at h2

theorem readBlockHeader_eats : Eats 8 two readBlockHeader := by
  refine .bind readVar_eats fun v => ?_
  dsimp +instances only
  refine .ite (fun _ => .ret none fun _ => rfl) fun _ => ?_
  refine .bind Varint.readVar_loc fun k => ?_
  dsimp +instances only
  refine .bind Grammar.readGrammar_loc fun g => ?_
  exact .ret (some (_, _, _)) fun _ => rfl

/-- Nothing behind the end marker matters: the decompressor reads some bits, the last eight of which are the end marker, in a number of
rounds of at most one per byte. -/
theorem decompressBlocks_loc {C : Coder} (hC : C.Local) (junk : UInt8) (fuel f : Nat) (st : C.σ) (s : List Bool) (y : List UInt8)
    (h : decompressBlocks C junk fuel f st s = some y) :
    ∃ v r, s = v ++ List.replicate 8 false ++ r ∧ ∀ t : List Bool, t.length % 8 = r.length % 8 → ∀ f', v.length < 8 * f' →
      decompressBlocks C junk fuel f' st (v ++ List.replicate 8 false ++ t) = some y := by
  induction f generalizing st s y with
  | zero => simp [decompressBlocks] at h
  | succ f ih =>
    rw [decompressBlocks] at h
    simp only [Option.bind_eq_bind, Option.bind_eq_some_iff] at h
    obtain ⟨⟨hd, s1⟩, h1, h2⟩ := h
    obtain ⟨_, u1, _, e1, rfl, g1⟩ := readBlockHeader_loc s _ h1
    simp only [two, Prod.mk.injEq] at e1
    obtain ⟨rfl, rfl⟩ := e1
    obtain ⟨_, _, e1, l1⟩ := readBlockHeader_eats _ _ h1
    simp only [two, Prod.mk.injEq] at e1
    obtain ⟨_, rfl⟩ := e1
    rw [List.length_append] at l1
    cases hd with
    | none =>
      dsimp only at h2
      simp only [Option.pure_def, Option.some.injEq] at h2
      subst h2
      obtain ⟨v, hv⟩ := readBlockHeader_end h1
      have hv := List.append_cancel_right hv
      refine ⟨v, s1, by rw [hv], ?_⟩
      intro t ht f' hf'
      obtain ⟨f', rfl⟩ : ∃ k, f' = k + 1 := ⟨f' - 1, by omega⟩
      rw [← hv, decompressBlocks, g1 t ht]
      rfl
    | some x =>
      obtain ⟨n, k, g⟩ := x
      dsimp only at h2
      simp only [Option.bind_eq_some_iff] at h2
      obtain ⟨⟨data, st', s2⟩, h2, out, h3, z, h4, h5⟩ := h2
      dsimp only at h3 h4 h5
      simp only [Option.pure_def, Option.some.injEq] at h5
      subst h5
      obtain ⟨⟨_, _⟩, u2, _, e2, rfl, g2⟩ := decodeSlices_loc hC junk fuel n k [] st s1 _ h2
      simp only [three, Prod.mk.injEq] at e2
      obtain ⟨rfl, rfl, rfl⟩ := e2
      obtain ⟨v, r, rfl, g3⟩ := ih st' s2 z h4
      refine ⟨u1 ++ (u2 ++ v), r, by simp, ?_⟩
      intro t ht f' hf'
      simp only [List.length_append] at hf'
      obtain ⟨f', rfl⟩ : ∃ k, f' = k + 1 := ⟨f' - 1, by omega⟩
      have ha : u1 ++ (u2 ++ v) ++ List.replicate 8 false ++ t = u1 ++ (u2 ++ (v ++ List.replicate 8 false ++ t)) := by simp
      rw [ha, decompressBlocks, g1 _ (by simp only [List.length_append]; omega)]
      simp only [Option.bind_eq_bind, Option.bind_some]
      rw [g2 _ (by simp only [List.length_append]; omega)]
      simp only [Option.bind_some, h3]
      rw [g3 t ht f' (by omega)]
      rfl

end Container

end Bwtc
