import Verif.WaveWhole
import Verif.Props.WaveTree
import Verif.Props.ProbModels

/-!
# C25: coding the bit vectors of the wavelet tree is lossless
-/

set_option autoImplicit false

namespace Bwtc.Props
open Wave Huff RangeCoder ProbModels

theorem mem_runs {x : UInt8} {data : List UInt8} (h : x ∈ data) : x ∈ (Runs.runsOf data).map (·.1) := by
  rw [← (Runs.runsOf_isRuns data).expands, Runs.expand, List.mem_flatMap] at h
  obtain ⟨r, hr, hx⟩ := h
  exact List.mem_map.mpr ⟨r, hr, (List.eq_of_mem_replicate hx).symm⟩

theorem keys_runs {c : Codes} (hg : GoodCodes c) {data : List UInt8} (hk : ∀ x : UInt8, x.toNat ∈ c.codes.map (·.1) ↔ x ∈ data) :
    ∀ s ∈ c.codes.map (·.1), ∃ x ∈ (Runs.runsOf data).map (·.1), x.toNat = s := by
  intro s hs
  have hlt : s < 256 := by
    obtain ⟨x, hx, rfl⟩ := List.mem_map.mp hs
    exact hg.lt256 x hx
  have he : (UInt8.ofNat s).toNat = s := by rw [UInt8.toNat_ofNat']; exact Nat.mod_eq_of_lt hlt
  exact ⟨UInt8.ofNat s, mem_runs ((hk _).mp (by rw [he]; exact hs)), he⟩

theorem rebuilt_of_labelled {c : Codes} {rs : List (UInt8 × Nat)} {g : Heap} (h : Labelled c rs g) :
    Rebuilt c (treeOf c rs) g := by
  refine ⟨?_, h.byte, ?_⟩
  · intro q n hn hb
    rw [treeOf_bits hn] at hb ⊢
    exact h.bits q hb
  · intro p q s s' l r n hp hq hi hn
    have hnil : c.root.get (p ++ q) = .nil := root_below hp hq
    have hx : ∃ x ∈ rs, p ++ q <+: word c x := by
      rw [treeOf, ofShape_none.mpr hnil] at hn
      cases e : rs.find? (fun r => word c r = p ++ q) with
      | some x =>
        refine ⟨x, List.mem_of_find?_eq_some e, ?_⟩
        have := List.find?_some e
        rw [decide_eq_true_eq] at this
        rw [this]; exact List.prefix_refl _
      | none =>
        rw [e] at hn
        by_cases hb : bitsAt (words c rs) (p ++ q) = []
        · simp [hb] at hn
        · obtain ⟨b, hb⟩ := List.exists_mem_of_ne_nil _ hb
          obtain ⟨w, hw, hn⟩ := mem_bitsAt.mp hb
          obtain ⟨x, hx, rfl⟩ := List.mem_map.mp hw
          exact ⟨x, hx, prefix_of_snoc (nextBit_iff_prefix.mp hn)⟩
    obtain ⟨x, hx, hpre⟩ := hx
    exact h.int p q s s' l r x hp hq hi hx hpre

/-- C25.  For all codes given by code trees, every message over exactly the coded bytes, all three
probability models (the one of the run lengths can be reset) and all their states: if the encoder gets
through the tree of the message and hands only legal probabilities to the range coder, then the
range coder writes some bytes, and the decoder started on them with the same states rebuilds a tree
with the same bit vectors.  It uses exactly these bytes.  The states are the same afterwards, except that
the decoder may have reset the model of the run lengths once more. -/
theorem C25_lossless {σ₁ σ₂ σ₃ : Type} (P : Model σ₁) (G : Model σ₂) (A : Model σ₃)
    (hreset : ∀ s, ∃ s', G.reset s = some s') (c : Codes) (hg : GoodCodes c) (data : List UInt8) (hne : data ≠ [])
    (hlen : data.length < 2 ^ 32) (hk : ∀ x : UInt8, x.toNat ∈ c.codes.map (·.1) ↔ x ∈ data) (h : Heap)
    (hh : pushMessage c data = some h) (root : Node) (hr : h [] = some root) (fuel fuel' : Nat) (hf : fuel < fuel')
    (s1 u1 : σ₁) (s2 u2 : σ₂) (s3 u3 : σ₃) (items : List (Bool × Nat))
    (he : encodeTree P G A fuel h s1 s2 s3 = some (items, u1, u2, u3)) (hp : ∀ x ∈ items, x.2 ≤ 4096) :
    ∃ F g v2, encodeSeq Range.init items = some F ∧ Rebuilt c h g ∧ (v2 = u2 ∨ G.reset u2 = some v2) ∧
      ∀ tail, ∃ d d', decStart (bytesBits F ++ tail) = some d ∧
        (decodeTree P G A fuel' c root.bits.length s1 s2 s3).exec d = some ((g, u1, v2, u3), d') ∧ d'.input = tail := by
  rw [pushMessage_eq hg hne hlen (fun x hx => (hk x).mpr hx), Option.some.injEq] at hh
  subst hh
  have hcov := runs_covered (c := c) hlen (fun x hx => (hk x).mpr hx)
  obtain ⟨g, v2, hgI, hv, hfeed⟩ := tree_lockstep hg hcov (keys_runs hg hk) P G A (Runs.runsOf_isRuns data).adj hreset hf he
  obtain ⟨F, _, hF, _, _⟩ := DecRel.start hp []
  refine ⟨F, g, v2, hF, rebuilt_of_labelled (HInv.labelled hg hcov (keys_runs hg hk) hgI), hv, ?_⟩
  intro tail
  obtain ⟨F', d, hF', hd, hrel⟩ := DecRel.start hp tail
  rw [hF, Option.some.injEq] at hF'
  subst hF'
  have hfeed := hfeed []
  rw [List.append_nil, ← treeOf_bits hr] at hfeed
  obtain ⟨d', r', he', hrel'⟩ := Prog.exec_of_feed _ hfeed hp hrel
  exact ⟨d, d', hd, he', hrel'.finish⟩

/-- C25: with models that never fail (all the program can choose except the Markov models, see C05) the encoder gets
through the tree of every message and hands only legal probabilities to the range coder. -/
theorem C25_encoder_total {σ₁ σ₂ σ₃ : Type} {P : Model σ₁} {G : Model σ₂} {A : Model σ₃} {I : σ₁ → Prop} {K : σ₂ → Prop}
    {J : σ₃ → Prop} (hP : Safe P I) (hG : Safe G K) (hA : Safe A J) (c : Codes) (hg : GoodCodes c) (data : List UInt8)
    (hne : data ≠ []) (hlen : data.length < 2 ^ 32) (hk : ∀ x : UInt8, x.toNat ∈ c.codes.map (·.1) ↔ x ∈ data) :
    ∃ h root, pushMessage c data = some h ∧ h [] = some root ∧ ∃ N, ∀ fuel, N ≤ fuel → ∀ s1 s2 s3, I s1 → K s2 → J s3 →
      ∃ items u1 u2 u3, encodeTree P G A fuel h s1 s2 s3 = some (items, u1, u2, u3) ∧ I u1 ∧ K u2 ∧ J u3 ∧
        ∀ x ∈ items, x.2 ≤ 4096 := by
  have hcov := runs_covered (c := c) hlen (fun x hx => (hk x).mpr hx)
  have hrn : ∃ l r, c.root.get [] = .node none l r := by
    rw [Sh.get_nil_path]
    rcases hg.root with ⟨l, r, h, _⟩ | ⟨s, h⟩
    · exact ⟨l, r, h⟩
    · exact ⟨_, _, h⟩
  obtain ⟨l, r, hroot⟩ := hrn
  refine ⟨_, _, pushMessage_eq hg hne hlen (fun x hx => (hk x).mpr hx), treeOf_root hroot,
    c.root.inners + (((Runs.runsOf data).map fun x => (icode c x.2).length).sum + 1), ?_⟩
  intro fuel hf s1 s2 s3 i1 i2 i3
  refine tree_total hg hcov (keys_runs hg hk) P G A (Bwtc.Wave.Safe.total hP) (Bwtc.Wave.Safe.total hG)
    (Bwtc.Wave.Safe.total hA) (runsOf_ne_nil hne) (Runs.runsOf_isRuns data).adj (by omega) ?_ i1 i2 i3
  intro x hx
  have : (icode c x.2).length ∈ (Runs.runsOf data).map fun x => (icode c x.2).length := List.mem_map.mpr ⟨x, hx, rfl⟩
  have := Sections.le_sum this
  omega

theorem integer_reset (s : Fsm Nat) : ∃ s', integerModel.reset s = some s' := by
  rw [integerModel, fsm]
  simp only []
  rw [mapM_const (f := (unbiased 100 5 2048).reset) (b := 2048) (fun _ => rfl)]
  exact ⟨_, rfl⟩

/-- C25 and C24 together, for the tree the encoder builds from a message, its models of the run lengths and gaps,
and every model of the inner bits that never fails: whatever the states left by earlier messages, the message is coded
into some bytes, from which the decoder (with states in which one more reset may have been done) recovers it. -/
theorem C25_message {σ₁ : Type} {P : Model σ₁} {I : σ₁ → Prop} (hP : Safe P I) :
    ∃ (K J : Fsm Nat → Prop), Safe integerModel K ∧ Safe gapModel J ∧
    ∀ (cheap : Nat → Nat → Nat × Nat → Bool) (data : List UInt8), data ≠ [] → data.length < 2 ^ 32 →
    ∀ (c : Codes) (h : Heap), makeTree cheap data = some (c, h) → ∃ root, h [] = some root ∧
    ∃ N, ∀ fuel fuel', N ≤ fuel → fuel < fuel' → ∀ s1 s2 s3, I s1 → K s2 → J s3 →
      ∃ items u1 u2 u3 F, encodeTree P integerModel gapModel fuel h s1 s2 s3 = some (items, u1, u2, u3) ∧
        encodeSeq Range.init items = some F ∧ I u1 ∧ K u2 ∧ J u3 ∧
        ∀ tail, ∃ d d' g v2, decStart (bytesBits F ++ tail) = some d ∧
          (decodeTree P integerModel gapModel fuel' c root.bits.length s1 s2 s3).exec d = some ((g, u1, v2, u3), d') ∧
          (v2 = u2 ∨ integerModel.reset u2 = some v2) ∧ message fuel' c g = some data ∧ d'.input = tail := by
  have hG : ∃ K, Safe integerModel K := ⟨_, fsm_safe (by omega) (unbiased_safe (by omega) (by omega) (by omega))⟩
  have hA : ∃ J, Safe gapModel J := ⟨_, fsm_safe (by omega) (unbiased_safe (by omega) (by omega) (by omega))⟩
  obtain ⟨K, hG⟩ := hG
  obtain ⟨J, hA⟩ := hA
  refine ⟨K, J, hG, hA, ?_⟩
  intro cheap data hne hlen c h hm
  obtain ⟨N2, hmsg⟩ := C24_message_roundtrip cheap data hne hlen c h hm
  have hc : messageCodes cheap data = some c ∧ pushMessage c data = some h := by
    rw [makeTree] at hm
    cases hc : messageCodes cheap data with
    | none => rw [hc] at hm; simp at hm
    | some c' =>
      rw [hc] at hm
      cases hh : pushMessage c' data with
      | none => simp [hh] at hm
      | some h' =>
        simp [hh] at hm
        obtain ⟨rfl, rfl⟩ := hm
        exact ⟨rfl, hh⟩
  obtain ⟨hc, hh⟩ := hc
  obtain ⟨hg, hk⟩ := messageCodes_good hne hlen hc
  obtain ⟨h', root, hh', hr, N, htot⟩ := C25_encoder_total hP hG hA c hg data hne hlen hk
  rw [hh, Option.some.injEq] at hh'
  subst hh'
  refine ⟨root, hr, max N N2, ?_⟩
  intro fuel fuel' hf hf' s1 s2 s3 i1 i2 i3
  obtain ⟨items, u1, u2, u3, henc, j1, j2, j3, hp⟩ := htot fuel (by omega) s1 s2 s3 i1 i2 i3
  obtain ⟨F, g, v2, hF, hreb, hv, hdec⟩ := C25_lossless P integerModel gapModel
    integer_reset c hg data hne hlen hk h hh root hr fuel fuel' hf' s1 u1 s2 u2 s3 u3 items
    henc hp
  refine ⟨items, u1, u2, u3, F, henc, hF, j1, j2, j3, ?_⟩
  intro tail
  obtain ⟨d, d', hd, he, hi⟩ := hdec tail
  exact ⟨d, d', g, v2, hd, he, hv, hmsg fuel' (by omega) g hreb, hi⟩

/-- "abacaabbb" with the codes the encoder chooses for it and the models of the option `u`: nineteen bits
reach the range coder, and decoding them with the same models gives the message back. -/
example : ((makeTree (fun _ _ _ => false) [97, 98, 97, 99, 97, 97, 98, 98, 98]).bind fun r =>
    (encodeTree modelU integerModel gapModel 20 r.2 modelU.init integerModel.init gapModel.init).map fun e =>
      e.1.length) = some 19 := by decide +kernel

example : ((makeTree (fun _ _ _ => false) [97, 98, 97, 99, 97, 97, 98, 98, 98]).bind fun r =>
    (encodeTree modelU integerModel gapModel 20 r.2 modelU.init integerModel.init gapModel.init).bind fun e =>
      (encodeSeq Range.init e.1).bind fun F => (decStart (bytesBits F)).bind fun d =>
        ((decodeTree modelU integerModel gapModel 21 r.1 6 modelU.init integerModel.init gapModel.init).exec d).bind
          fun x => message 30 r.1 x.1.1) = some [97, 98, 97, 99, 97, 97, 98, 98, 98] := by decide +kernel

end Bwtc.Props
