import Verif.WaveBlock

/-!
# Encoding with models that may fail

The lemmas of `WaveBlock` start from models all of whose calls are defined.  Here a call may be undefined (this
happens with the Markov models, see C05 and C06); what is shown is that whenever the encoder gets through, the decoder restores
the data.
-/

set_option autoImplicit false

namespace Bwtc.WaveBlock
open Wave RangeCoder ProbModels Huff Varint Props

/-- Defined calls on the states satisfying `I` preserve `I`, and defined probabilities are at most 4096. -/
structure Sane {σ : Type} (M : Model σ) (I : σ → Prop) : Prop where
  init : I M.init
  update : ∀ s b s', I s → M.update s b = some s' → I s'
  updateState : ∀ s b s', I s → M.updateState s b = some s' → I s'
  reset : ∀ s s', I s → M.reset s = some s' → I s'
  prob : ∀ s p, I s → M.prob s = some p → p ≤ 4096

theorem sane_of_safe {σ : Type} {M : Model σ} {I : σ → Prop} (h : Safe M I) : Sane M I where
  init := h.init
  update := fun s b s' hs e => by
    obtain ⟨t, t1, t2⟩ := h.step s (.update b) hs
    rw [Model.step, e, Option.some.injEq] at t1
    exact t1 ▸ t2
  updateState := fun s b s' hs e => by
    obtain ⟨t, t1, t2⟩ := h.step s (.updateState b) hs
    rw [Model.step, e, Option.some.injEq] at t1
    exact t1 ▸ t2
  reset := fun s s' hs e => by
    obtain ⟨t, t1, t2⟩ := h.step s .reset hs
    rw [Model.step, e, Option.some.injEq] at t1
    exact t1 ▸ t2
  prob := fun s p hs e => by
    obtain ⟨q, h1, _, h2⟩ := h.prob s hs
    rw [e, Option.some.injEq] at h1
    omega

/-- The entries of the table of a Markov model stay between -2 and 2. -/
theorem markov_sane (w : Nat) : Sane (simpleMarkov w) fun m => ∀ x ∈ m.hist, -2 ≤ x ∧ x ≤ 2 where
  init := by
    intro x hx
    have := List.eq_of_mem_replicate hx
    omega
  update := by
    intro s b s' hs e
    simp only [simpleMarkov, Option.bind_eq_bind, Option.bind_eq_some_iff, Option.pure_def, Option.some.injEq] at e
    obtain ⟨h, h1, rfl⟩ := e
    intro x hx
    have hr := hs h (List.mem_of_getElem? h1)
    rcases List.mem_or_eq_of_mem_set hx with hx | hx
    · exact hs x hx
    · subst hx
      cases b
      · simp only [Bool.false_eq_true, if_false]
        split <;> omega
      · simp only [if_true]
        split <;> omega
  updateState := by
    intro s b s' hs e
    simp only [simpleMarkov, Option.some.injEq] at e
    exact e ▸ hs
  reset := by
    intro s s' _ e
    simp only [simpleMarkov, Option.some.injEq] at e
    subst e
    intro x hx
    have := List.eq_of_mem_replicate hx
    omega
  prob := by
    intro s p hs e
    simp only [simpleMarkov, Option.bind_eq_bind, Option.bind_eq_some_iff] at e
    obtain ⟨h, h1, h2⟩ := e
    have hr := hs h (List.mem_of_getElem? h1)
    split at h2
    · have : h = 1 ∨ h = 2 := by omega
      rw [Option.some.injEq] at h2
      subst h2
      rcases this with rfl | rfl <;> decide
    · split at h2
      · cases h2
      · rw [Option.some.injEq] at h2
        subst h2
        decide

section
variable {σ₁ σ₂ σ₃ : Type} {P : Model σ₁} {G : Model σ₂} {A : Model σ₃} {I : σ₁ → Prop} {K : σ₂ → Prop} {J : σ₃ → Prop}

theorem encBit_sane {σ : Type} {M : Model σ} {I : σ → Prop} (hM : Sane M I) {s s' : σ} {b : Bool} {p : Nat} (hs : I s)
    (h : encBit M s b = some (p, s')) : I s' ∧ p ≤ 4096 := by
  simp only [encBit, Option.bind_eq_bind, Option.bind_eq_some_iff, Option.pure_def, Option.some.injEq, Prod.mk.injEq] at h
  obtain ⟨q, h1, t, h2, rfl, rfl⟩ := h
  exact ⟨hM.update _ _ _ hs h2, hM.prob _ _ hs h1⟩

theorem encBits_sane {σ : Type} {M : Model σ} {I : σ → Prop} (hM : Sane M I) : ∀ (bits : List Bool) (s s' : σ)
    (it : List (Bool × Nat)), I s → encBits M bits s = some (it, s') → I s' ∧ ∀ x ∈ it, x.2 ≤ 4096 := by
  intro bits
  induction bits with
  | nil =>
    intro s s' it hs h
    simp only [encBits, Option.some.injEq, Prod.mk.injEq] at h
    obtain ⟨rfl, rfl⟩ := h
    exact ⟨hs, by simp⟩
  | cons b bs ih =>
    intro s s' it hs h
    simp only [encBits, Option.bind_eq_bind, Option.bind_eq_some_iff, Option.pure_def, Option.some.injEq,
      Prod.mk.injEq, Prod.exists] at h
    obtain ⟨p, t, h1, it', t', h2, rfl, rfl⟩ := h
    obtain ⟨a1, a2⟩ := encBit_sane hM hs h1
    obtain ⟨b1, b2⟩ := ih _ _ _ a1 h2
    refine ⟨b1, ?_⟩
    intro x hx
    rcases List.mem_cons.mp hx with rfl | hx
    · exact a2
    · exact b2 x hx

theorem encBoth_sane (hA : Sane A J) : ∀ (bits flags : List Bool) (s s' : σ₃) (it : List (Bool × Nat)), J s →
    encBoth A bits flags s = some (it, s') → J s' ∧ ∀ x ∈ it, x.2 ≤ 4096 := by
  intro bits
  induction bits with
  | nil =>
    intro flags s s' it hs h
    simp only [encBoth, Option.some.injEq, Prod.mk.injEq] at h
    obtain ⟨rfl, rfl⟩ := h
    exact ⟨hs, by simp⟩
  | cons b bs ih =>
    intro flags s s' it hs h
    rcases flags with _ | ⟨_ | _, flags⟩
    · simp [encBoth] at h
    · rw [encBoth] at h
      exact ih _ _ _ _ hs h
    · simp only [encBoth, Option.bind_eq_bind, Option.bind_eq_some_iff, Option.pure_def, Option.some.injEq,
        Prod.mk.injEq, Prod.exists] at h
      obtain ⟨p, t, h1, it', t', h2, rfl, rfl⟩ := h
      obtain ⟨a1, a2⟩ := encBit_sane hA hs h1
      obtain ⟨b1, b2⟩ := ih _ _ _ _ a1 h2
      refine ⟨b1, ?_⟩
      intro x hx
      rcases List.mem_cons.mp hx with rfl | hx
      · exact a2
      · exact b2 x hx

theorem encMixed_sane (hP : Sane P I) (hA : Sane A J) (leftSym : Bool) : ∀ (bits flags : List Bool) (prev : Bool)
    (s1 t1 : σ₁) (s3 t3 : σ₃) (it : List (Bool × Nat)), I s1 → J s3 →
    encMixed P A leftSym prev bits flags s1 s3 = some (it, t1, t3) → I t1 ∧ J t3 ∧ ∀ x ∈ it, x.2 ≤ 4096 := by
  intro bits
  induction bits with
  | nil =>
    intro flags prev s1 t1 s3 t3 it h1 h3 h
    simp only [encMixed, Option.some.injEq, Prod.mk.injEq] at h
    obtain ⟨rfl, rfl, rfl⟩ := h
    exact ⟨h1, h3, by simp⟩
  | cons b bs ih =>
    intro flags prev s1 t1 s3 t3 it h1 h3 h
    rcases flags with _ | ⟨_ | _, flags⟩
    · simp [encMixed] at h
    · rw [encMixed] at h
      by_cases hl : (leftSym && !prev) = true
      · rw [if_pos hl] at h
        exact ih _ _ _ _ _ _ _ h1 h3 h
      · rw [if_neg hl] at h
        simp only [Option.bind_eq_bind, Option.bind_eq_some_iff, Option.pure_def, Option.some.injEq,
          Prod.mk.injEq, Prod.exists] at h
        obtain ⟨p, t, e1, it', t', t3', e2, rfl, rfl, rfl⟩ := h
        obtain ⟨a1, a2⟩ := encBit_sane hP h1 e1
        obtain ⟨b1, b2, b3⟩ := ih _ _ _ _ _ _ _ a1 h3 e2
        refine ⟨b1, b2, ?_⟩
        intro x hx
        rcases List.mem_cons.mp hx with rfl | hx
        · exact a2
        · exact b3 x hx
    · simp only [encMixed, Option.bind_eq_bind, Option.bind_eq_some_iff, Option.pure_def, Option.some.injEq,
        Prod.mk.injEq, Prod.exists] at h
      obtain ⟨p, t, e1, v, e2, it', t', t3', e3, rfl, rfl, rfl⟩ := h
      obtain ⟨a1, a2⟩ := encBit_sane hA h3 e1
      obtain ⟨b1, b2, b3⟩ := ih _ _ _ _ _ _ _ (hP.updateState _ _ _ h1 e2) a1 e3
      refine ⟨b1, b2, ?_⟩
      intro x hx
      rcases List.mem_cons.mp hx with rfl | hx
      · exact a2
      · exact b3 x hx

theorem forall_append {α : Type} {p : α → Prop} {a b : List α} (ha : ∀ x ∈ a, p x) (hb : ∀ x ∈ b, p x) :
    ∀ x ∈ a ++ b, p x := by
  intro x hx
  rcases List.mem_append.mp hx with hx | hx
  · exact ha x hx
  · exact hb x hx

theorem encQueue_sane (hP : Sane P I) (hA : Sane A J) (h : Heap) : ∀ (fuel : Nat) (q : List (Path × List Bool))
    (ints ints' : List Path) (s1 t1 : σ₁) (s3 t3 : σ₃) (it : List (Bool × Nat)), I s1 → J s3 →
    encQueue P A h fuel q ints s1 s3 = some (it, ints', t1, t3) → I t1 ∧ J t3 ∧ ∀ x ∈ it, x.2 ≤ 4096 := by
  intro fuel
  induction fuel with
  | zero => intro q ints ints' s1 t1 s3 t3 it _ _ e; simp [encQueue] at e
  | succ fuel ih =>
    intro q ints ints' s1 t1 s3 t3 it h1 h3 e
    cases q with
    | nil =>
      simp only [encQueue, Option.some.injEq, Prod.mk.injEq] at e
      obtain ⟨rfl, _, rfl, rfl⟩ := e
      exact ⟨h1, h3, by simp⟩
    | cons x q =>
      obtain ⟨p, flags⟩ := x
      rw [encQueue] at e
      simp only [Option.bind_eq_bind, Option.bind_eq_some_iff] at e
      obtain ⟨u1, e1, u3, e3, n, _, b0, _, l, _, r, _, e⟩ := e
      have i1 := hP.reset _ _ h1 e1
      have i3 := hA.reset _ _ h3 e3
      generalize l.sym = ls at e
      generalize r.sym = rs at e
      rcases ls with _ | ls <;> rcases rs with _ | rs
      · simp only [Option.bind_eq_some_iff, Option.pure_def, Option.some.injEq, Prod.mk.injEq, Prod.exists] at e
        obtain ⟨it1, v1, v3, e4, it2, _, w1, w3, e5, rfl, _, rfl, rfl⟩ := e
        obtain ⟨a1, a2, a3⟩ := encMixed_sane hP hA _ _ _ _ _ _ _ _ _ i1 i3 e4
        obtain ⟨b1, b2, b3⟩ := ih _ _ _ _ _ _ _ _ a1 a2 e5
        exact ⟨b1, b2, forall_append a3 b3⟩
      · simp at e
      · simp only [Option.bind_eq_some_iff, Option.pure_def, Option.some.injEq, Prod.mk.injEq, Prod.exists] at e
        obtain ⟨it1, v1, v3, e4, it2, _, w1, w3, e5, rfl, _, rfl, rfl⟩ := e
        obtain ⟨a1, a2, a3⟩ := encMixed_sane hP hA _ _ _ _ _ _ _ _ _ i1 i3 e4
        obtain ⟨b1, b2, b3⟩ := ih _ _ _ _ _ _ _ _ a1 a2 e5
        exact ⟨b1, b2, forall_append a3 b3⟩
      · simp only [Option.bind_eq_some_iff, Option.pure_def, Option.some.injEq, Prod.mk.injEq, Prod.exists] at e
        obtain ⟨it1, v3, e4, it2, _, w1, w3, e5, rfl, _, rfl, rfl⟩ := e
        obtain ⟨a2, a3⟩ := encBoth_sane hA _ _ _ _ _ i3 e4
        obtain ⟨b1, b2, b3⟩ := ih _ _ _ _ _ _ _ _ i1 a2 e5
        exact ⟨b1, b2, forall_append a3 b3⟩

theorem encRound_sane (hG : Sane G K) (h : Heap) : ∀ (ps l r : List Path) (s t : σ₂) (it : List (Bool × Nat)), K s →
    encRound G h ps s = some (it, l, r, t) → K t ∧ ∀ x ∈ it, x.2 ≤ 4096 := by
  intro ps
  induction ps with
  | nil =>
    intro l r s t it hs e
    simp only [encRound, Option.some.injEq, Prod.mk.injEq] at e
    obtain ⟨rfl, _, _, rfl⟩ := e
    exact ⟨hs, by simp⟩
  | cons p ps ih =>
    intro l r s t it hs e
    simp only [encRound, Option.bind_eq_bind, Option.bind_eq_some_iff, Option.pure_def, Option.some.injEq,
      Prod.mk.injEq, Prod.exists] at e
    obtain ⟨n, _, it1, u, e1, it2, _, _, v, e2, rfl, _, _, rfl⟩ := e
    obtain ⟨a1, a2⟩ := encBits_sane hG _ _ _ _ hs e1
    obtain ⟨b1, b2⟩ := ih _ _ _ _ _ a1 e2
    exact ⟨b1, forall_append a2 b2⟩

theorem encInts_sane (hG : Sane G K) (h : Heap) : ∀ (fuel : Nat) (ps : List Path) (s t : σ₂) (it : List (Bool × Nat)), K s →
    encInts G h fuel ps s = some (it, t) → K t ∧ ∀ x ∈ it, x.2 ≤ 4096 := by
  intro fuel
  induction fuel with
  | zero => intro ps s t it _ e; simp [encInts] at e
  | succ fuel ih =>
    intro ps s t it hs e
    cases ps with
    | nil =>
      simp only [encInts, Option.some.injEq, Prod.mk.injEq] at e
      obtain ⟨rfl, rfl⟩ := e
      exact ⟨hs, by simp⟩
    | cons p ps =>
      simp only [encInts, Option.bind_eq_bind, Option.bind_eq_some_iff, Option.pure_def, Option.some.injEq,
        Prod.mk.injEq, Prod.exists] at e
      obtain ⟨u, e0, it1, l, r, v, e1, it2, w, e2, rfl, rfl⟩ := e
      obtain ⟨a1, a2⟩ := encRound_sane hG h _ _ _ _ _ _ (hG.reset _ _ hs e0) e1
      obtain ⟨b1, b2⟩ := ih _ _ _ _ a1 e2
      exact ⟨b1, forall_append a2 b2⟩

theorem encodeTree_sane (hP : Sane P I) (hG : Sane G K) (hA : Sane A J) {fuel : Nat} {h : Heap} {s1 t1 : σ₁} {s2 t2 : σ₂}
    {s3 t3 : σ₃} {it : List (Bool × Nat)} (h1 : I s1) (h2 : K s2) (h3 : J s3)
    (e : encodeTree P G A fuel h s1 s2 s3 = some (it, t1, t2, t3)) : I t1 ∧ K t2 ∧ J t3 ∧ ∀ x ∈ it, x.2 ≤ 4096 := by
  simp only [encodeTree, Option.bind_eq_bind, Option.bind_eq_some_iff, Option.pure_def, Option.some.injEq,
    Prod.mk.injEq, Prod.exists] at e
  obtain ⟨root, _, b0, _, it1, u1, e1, it2, ints, v1, v3, e2, it3, v2, e3, rfl, rfl, rfl, rfl⟩ := e
  obtain ⟨a1, a2⟩ := encBits_sane hP _ _ _ _ h1 e1
  obtain ⟨b1, b2, b3⟩ := encQueue_sane hP hA h _ _ _ _ _ _ _ _ _ a1 h3 e2
  obtain ⟨c1, c2⟩ := encInts_sane hG h _ _ _ _ _ h2 e3
  exact ⟨b1, c1, b2, forall_append (forall_append a2 b3) c2⟩

end

theorem resetAll_sane {σ : Type} {P : Model σ} {I : σ → Prop} {K J : Fsm Nat → Prop} (hP : Sane P I)
    (hK : Sane integerModel K) (hJ : Sane gapModel J) {st t : States σ} (h : Fine I K J st)
    (e : resetAll P st = some t) : Fine I K J t := by
  simp only [resetAll, Option.bind_eq_bind, Option.bind_eq_some_iff, Option.pure_def, Option.some.injEq] at e
  obtain ⟨a, a1, b, b1, c, c1, rfl⟩ := e
  exact ⟨hP.reset _ _ h.inner a1, hK.reset _ _ h.run b1, hJ.reset _ _ h.gap c1⟩

/-- One section: if it is encoded, the counted length is the number of bytes, it is decoded again from the same
states, and the states agree afterwards. -/
theorem section_sound {σ : Type} {P : Model σ} {I : σ → Prop} {K J : Fsm Nat → Prop} (hP : Sane P I)
    (hK : Sane integerModel K) (hJ : Sane gapModel J) {cheap : Nat → Nat → Nat × Nat → Bool} {sec : List UInt8}
    (hne : sec ≠ []) (hlen : sec.length < 2 ^ 32) (hrun : ∀ r ∈ Runs.runsOf sec, r.2 < 2 ^ 30) {fuel n : Nat} {st t : States σ}
    {w : List UInt8} (hst : Fine I K J st) (he : encodeSection P cheap fuel st sec = some (w, n, t)) :
    n = w.length ∧ Fine I K J t ∧ ∃ N, ∀ fuel', N ≤ fuel' → ∀ rest : List UInt8,
      decodeSection P fuel' st (bytesBits (w ++ rest)) = some (sec, t, bytesBits rest) := by
  simp only [encodeSection, Option.bind_eq_bind, Option.bind_eq_some_iff, Option.pure_def, Option.some.injEq,
    Prod.mk.injEq, Prod.exists] at he
  obtain ⟨c, h, hm, root, hr, p, k, hp, shape, hs, items, u1, u2, u3, ht, x1, x2, x3, t1, F, hF, rfl, rfl, rfl⟩ := he
  obtain ⟨hc, hh⟩ := makeTree_parts hm
  obtain ⟨hg, hk⟩ := messageCodes_good hne hlen hc
  obtain ⟨bits, hb1, hb2⟩ := shape_of_message hne hlen hrun hc
  rw [hs, Option.some.injEq] at hb1
  subst hb1
  have hrl := root_length hg hne hlen hk hh hr
  have hle := Runs.runsOf_length_le sec
  obtain ⟨p', k', p1, p2, _, _, _, p6, _, p8⟩ := C01_packed_integer_roundtrip root.bits.length (by omega)
  rw [hp, Option.some.injEq, Prod.mk.injEq] at p1
  obtain ⟨rfl, rfl⟩ := p1
  obtain ⟨i1, i2, i3, hle4⟩ := encodeTree_sane hP hK hJ hst.inner hst.run hst.gap ht
  obtain ⟨N, hmsg⟩ := C24_message_roundtrip cheap sec hne hlen c h hm
  refine ⟨by simp only [List.length_append, p6], resetAll_sane hP hK hJ ⟨i1, i2, i3⟩ t1, max (fuel + 1) N, ?_⟩
  intro fuel' hf' rest
  obtain ⟨F', g, v2, hF', hreb, hv, hdec⟩ := C25_lossless P integerModel gapModel integer_reset c hg sec hne hlen hk h hh root hr
    fuel fuel' (by omega) st.1 u1 st.2.1 u2 st.2.2 u3 items ht hle4
  rw [hF, Option.some.injEq] at hF'
  subst hF'
  obtain ⟨d, d', d1, d2, d5⟩ := hdec (bytesBits rest)
  have d4 := hmsg fuel' (by omega) g hreb
  have hreset : resetAll P (u1, v2, u3) = some (x1, x2, x3) := by
    rw [← t1]
    rcases hv with hv | hv
    · rw [hv]
    · simp only [resetAll, integer_reset_twice hv]
  obtain ⟨j, hj, ej⟩ := bytesBits_packBits_append shape (F ++ rest)
  have hal : alignIn (List.replicate j false ++ bytesBits (F ++ rest)) = bytesBits (F ++ rest) :=
    HuffBlock.alignIn_replicate hj _
  rw [decodeSection, List.append_assoc, List.append_assoc, bytesBits_append, (p8 _).1]
  simp only [Option.bind_eq_bind, Option.bind_some, p2, ej, hb2, hal]
  rw [bytesBits_append, d1]
  simp only [Option.bind_some, d2, d4, hreset, d5, Option.pure_def]

theorem sections_sound {σ : Type} {P : Model σ} {I : σ → Prop} {K J : Fsm Nat → Prop} (hP : Sane P I)
    (hK : Sane integerModel K) (hJ : Sane gapModel J) (cheap : List UInt8 → Nat → Nat → Nat × Nat → Bool) (fuel : Nat) :
    ∀ (ns : List Nat) (data : List UInt8), ns.sum = data.length → data.length < 2 ^ 32 →
      (∀ c, ¬ List.replicate (2 ^ 30) c <:+: data) → ∀ (st t : States σ) (w : List UInt8) (n : Nat), Fine I K J st →
      encodeSections P cheap fuel ns st data = some (w, n, t) →
      n = w.length ∧ Fine I K J t ∧ ∃ N, ∀ fuel', N ≤ fuel' → ∀ rest : List UInt8,
        decodeSections P fuel' ns st (bytesBits (w ++ rest)) = some (data, t, bytesBits rest) := by
  intro ns
  induction ns with
  | nil =>
    intro data hsum _ _ st t w n hst he
    have : data = [] := by simpa using hsum.symm
    subst this
    simp only [encodeSections, Option.some.injEq, Prod.mk.injEq] at he
    obtain ⟨rfl, rfl, rfl⟩ := he
    exact ⟨rfl, hst, 0, fun _ _ _ => rfl⟩
  | cons m ns ih =>
    intro data hsum hlen hrun st t w n hst he
    rw [List.sum_cons] at hsum
    rw [encodeSections] at he
    by_cases h0 : m = 0
    · rw [if_pos h0] at he
      obtain ⟨a1, a2, N, a3⟩ := ih data (by omega) hlen hrun st t w n hst he
      refine ⟨a1, a2, N, ?_⟩
      intro fuel' hf' rest
      rw [decodeSections, if_pos h0, a3 fuel' hf']
    · rw [if_neg h0, if_pos (by omega)] at he
      simp only [Option.bind_eq_bind, Option.bind_eq_some_iff, Option.pure_def, Option.some.injEq,
        Prod.mk.injEq, Prod.exists] at he
      obtain ⟨a, x, ta1, ta2, ta3, e1, b, y, tb1, tb2, tb3, e2, rfl, rfl, rfl⟩ := he
      have ht : (data.take m).length = m := by rw [List.length_take]; omega
      have htn : data.take m ≠ [] := by
        intro hc; rw [hc] at ht; simp at ht; omega
      obtain ⟨a1, a2, N1, a3⟩ := section_sound hP hK hJ htn (by omega)
        (HuffBlock.runs_infix (List.take_prefix m data).isInfix hrun) hst e1
      obtain ⟨b1, b2, N2, b3⟩ := ih (data.drop m) (by rw [List.length_drop]; omega) (by rw [List.length_drop]; omega)
        (fun c hc => hrun c (hc.trans (List.drop_suffix m data).isInfix)) _ _ _ _ a2 e2
      refine ⟨by rw [List.length_append, a1, b1], b2, max N1 N2, ?_⟩
      intro fuel' hf' rest
      rw [decodeSections, if_neg h0, List.append_assoc, a3 fuel' (by omega)]
      simp only [Option.bind_eq_bind, Option.bind_some]
      rw [b3 fuel' (by omega) rest]
      simp only [Option.bind_some, Option.pure_def, List.take_append_drop]

/-- A block: if it is encoded, it is decoded again. -/
theorem block_sound {σ : Type} {P : Model σ} {I : σ → Prop} {K J : Fsm Nat → Prop} (hP : Sane P I)
    (hK : Sane integerModel K) (hJ : Sane gapModel J) {cheap : List UInt8 → Nat → Nat → Nat × Nat → Bool}
    {powers stats : List Nat} {data : List UInt8} (h1 : 1 ≤ powers.length) (h2 : powers.length ≤ 256)
    (h3 : ∀ p ∈ powers, p < 2 ^ 31) (h4 : stats.length ≤ 256) (h5 : stats.sum = data.length) (h6 : data ≠ [])
    (h7 : data.length < 2 ^ 31) (h8 : ∀ c, ¬ List.replicate (2 ^ 30) c <:+: data) {fuel n : Nat} {st t : States σ} {w : List UInt8}
    (hst : Fine I K J st) (he : encodeBlock P cheap fuel powers stats st data = some (w, n, t)) :
    n = w.length ∧ Fine I K J t ∧ 16 ≤ (bytesBits w).length ∧ ∃ N, ∀ fuel', N ≤ fuel' → ∀ rest : List UInt8,
      decodeBlock P fuel' st (bytesBits (w ++ rest)) = some (⟨powers, data, data.length⟩, t, bytesBits rest) := by
  have hpos : 0 < data.length := List.length_pos_iff.mpr h6
  obtain ⟨h, e1, e2⟩ := Sections.readHeader_write powers stats h1 h2 h3 (by omega) (by omega) h4
  obtain ⟨s1, _, _, _, _⟩ := Sections.sections_spec stats (by omega)
  simp only [encodeBlock, e1, Option.bind_eq_bind, Option.bind_some, Option.bind_eq_some_iff] at he
  obtain ⟨⟨b, m, t'⟩, d1, he⟩ := he
  simp only [Option.pure_def, Option.some.injEq, Prod.mk.injEq] at he
  obtain ⟨rfl, rfl, rfl⟩ := he
  obtain ⟨a1, a2, N, a3⟩ := sections_sound hP hK hJ cheap fuel (Sections.sections stats) data (by omega) (by omega) h8 st _ _ _ hst d1
  have h6' : (packBits (bitsOf 48 (h.length + m))).length = 6 := by
    rw [packBits_length, bitsOf_length]
  refine ⟨by rw [List.length_append, List.length_append, h6', a1]; omega, a2, ?_, N, ?_⟩
  · rw [bytesBits_length, List.length_append, List.length_append, h6']
    omega
  · intro fuel' hf' rest
    have hb : bytesBits (packBits (bitsOf 48 (h.length + m))) = bitsOf 48 (h.length + m) := by
      obtain ⟨k, hk, hp⟩ := bytesBits_packBits (bitsOf 48 (h.length + m))
      have := congrArg List.length hp
      rw [bytesBits_length, h6', List.length_append, bitsOf_length, List.length_replicate] at this
      have : k = 0 := by omega
      rw [hp, this, List.replicate_zero, List.append_nil]
    have := e2 ((h.length + m) % 2 ^ 48) (bytesBits (b ++ rest)) (Nat.mod_lt _ (by decide))
      (by rw [bytesBits_length]; omega)
    rw [bitsOf_mod] at this
    simp only [decodeBlock, bytesBits_append, hb, List.append_assoc] at this ⊢
    rw [this]
    simp only [Option.bind_eq_bind, Option.bind_some]
    have hd := a3 fuel' hf' rest
    rw [bytesBits_append] at hd
    rw [hd]
    simp only [Option.bind_some, Option.pure_def]

end Bwtc.WaveBlock
