import Verif.DivsufRanks
import Verif.DivsufMove
import Verif.DivsufPassA
import Verif.SaisBwt

/-!
# `divbwtf` is the transform

if `sssort` and `trsort` do what they are called for.
-/

set_option autoImplicit false

namespace Bwtc.Divsuf
open Sais (put inv loopDown nums writeOut sorted_row nodup_index writeOut_spec Noted XYok finS)
open Sais (put_spec bind_some')
open Induce Suffix

variable {T : List Nat}

/-! ## `sort_typeBstar` -/

theorem exists_star {p : Nat} (h : isS T p) : ∃ q, isBs T q := by
  obtain ⟨d, hd⟩ : ∃ d, T.length = p + 1 + d := ⟨T.length - p - 1, by have := isS_next h; omega⟩
  induction d generalizing p with
  | zero => have := isS_next h; omega
  | succ d ih =>
    rcases S_cases h with a | a
    · exact ⟨p, a⟩
    · exact ih a.2 (by omega)

theorem no_stars (h : numS T = 0) (p : Nat) : ¬ isS T p := by
  intro hp
  obtain ⟨q, hq⟩ := exists_star hp
  have : 0 < numS T := cnt_pos (P := isBs T) hq.1.1 hq
  omega

/-- What the cells hold after sorting. -/
def cellOf (sa : List Int) (r : Nat) : Int := (sa[r]?).getD 0

theorem cellOf_eq {sa : List Int} {r : Nat} {v : Int} (h : sa[r]? = some v) : cellOf sa r = v := by unfold cellOf; rw [h]; rfl

theorem Stage.order {sa : List Int} (h : Stage T 0 sa) (hm : 0 < numS T) : Order (cellOf sa) (numS T) := by
  have hdec : ∀ r, r < numS T → ∃ p, isBs T p ∧ sa[r]? = some (cellOf sa r) ∧ dec (cellOf sa r) = idx T p := by
    intro r hr
    obtain ⟨p, v, a, b, c, d⟩ := h.high r (by omega) hr
    exact ⟨p, a, by rw [cellOf_eq c]; exact c, by rw [cellOf_eq c]; exact d⟩
  -- where a number is
  have hex : ∀ i, i < numS T → ∃ r, r < numS T ∧ dec (cellOf sa r) = i := by
    intro i hi
    obtain ⟨r, v, a, b, c, d⟩ := h.cover _ (PA_spec hi).1 (by omega)
    exact ⟨r, b, by rw [cellOf_eq c, d, (PA_spec hi).2]⟩
  obtain ⟨f, hf⟩ : ∃ f : Nat → Nat, ∀ i, i < numS T → f i < numS T ∧ dec (cellOf sa (f i)) = i :=
    ⟨fun i => if hi : i < numS T then (hex i hi).choose else 0, fun i hi => by
      simp only [hi, dite_true]
      exact (hex i hi).choose_spec⟩
  refine ⟨?_, ?_, ?_⟩
  · obtain ⟨p, a, b, c⟩ := hdec 0 hm
    exact h.sorted.first _ hm b
  · intro r hr
    obtain ⟨p, a, b, c⟩ := hdec r hr
    rw [c]; exact idx_lt a
  · intro r r' hr hr' e
    have surj := fun {r} (hr : r < numS T) => inj_surj (m := numS T) f (fun i hi => (hf i hi).1)
      (fun i j hi hj e => by rw [← (hf i hi).2, ← (hf j hj).2, e]) hr
    obtain ⟨i, hi, ei⟩ := surj hr
    obtain ⟨j, hj, ej⟩ := surj hr'
    rw [← ei, ← ej] at e ⊢
    rw [(hf i hi).2, (hf j hj).2] at e
    rw [e]

/-- The ranks of the B* suffixes. -/
theorem afterRanks {sa : List Int} (h : Stage T 0 sa) (hm : 0 < numS T) {tr : TrSort} {N : Nat} (htr : TrOk N tr) (hN : T.length ≤ 2 * N + 1) :
    ∃ sa1 sa2, ranks (numS T) (numS T) .start sa = some sa1 ∧ tr sa1 (numS T) (numS T) 1 = some sa2 ∧ sa2.length = T.length ∧
      ∀ p, isBs T p → sa2[numS T + idx T p]? = some (rkS T p : Int) := by
  have h2 := two_numS (T := T)
  have ho := h.order hm
  have hget : ∀ r, r < numS T → sa[r]? = some (cellOf sa r) := by
    intro r hr
    obtain ⟨p, v, a, b, c, d⟩ := h.high r (by omega) hr
    rw [cellOf_eq c]; exact c
  obtain ⟨sa1, e1, inv1⟩ := ranks_spec (v := cellOf sa) (m := numS T) (L := T.length) h2 ho.dec ho.inj ho.first (numS T) (Nat.le_refl _)
    .start (Or.inl rfl) (sa := sa) ⟨h.size, hget, fun r e a b => by have := b.le; have := b.lt; omega, fun r a b => by omega,
      fun a d b c => by have := b.pos; have := b.le; omega⟩
  have hlen := ranksOf_length (m := numS T) (sa := sa1)
  have hch : ∀ r d, r + 1 + d < numS T →
      ((∀ x, r < x → x ≤ r + 1 + d → cellOf sa x < 0) → same T (PA T) (numS T) (dec (cellOf sa r)) (dec (cellOf sa (r + 1 + d)))) ∧
      (¬ (∀ x, r < x → x ≤ r + 1 + d → cellOf sa x < 0) → before T (PA T) (numS T) (dec (cellOf sa r)) (dec (cellOf sa (r + 1 + d)))) :=
    fun r d hd => chain (b := numS T) (fun r hr => h.sorted.step r _ _ (by omega) hr (hget r (by omega)) (hget _ hr)) d hd
  -- equal ranks
  have hsame : ∀ {r r' e}, r < r' → IsEnd (cellOf sa) (numS T) r e → IsEnd (cellOf sa) (numS T) r' e →
      same T (PA T) (numS T) (dec (cellOf sa r)) (dec (cellOf sa r')) := by
    intro r r' e hr h1 h2
    have l2 := h2.le
    have l3 := h2.lt
    have := (hch r (r' - r - 1) (by omega)).1 (fun x a b => h1.mark x a (by omega))
    rwa [show r + 1 + (r' - r - 1) = r' by omega] at this
  have heq : ∀ i j, i < numS T → j < numS T → i ≠ j → ch (ranksOf (numS T) sa1) i = ch (ranksOf (numS T) sa1) j → same T (PA T) (numS T) i j := by
    intro i j hi hj hne e
    obtain ⟨r, x, hr, er, hx, ex⟩ := rank_of ho inv1 hi
    obtain ⟨r', x', hr', er', hx', ex'⟩ := rank_of ho inv1 hj
    have : x = x' := by omega
    subst this
    rcases Nat.lt_trichotomy r r' with a | a | a
    · rw [← er, ← er']; exact hsame a hx hx'
    · exact absurd (by rw [← er, ← er', a]) hne
    · rw [← er, ← er']; exact same_symm (hsame a hx' hx)
  have hlt : ∀ i j, i < numS T → j < numS T → ch (ranksOf (numS T) sa1) i < ch (ranksOf (numS T) sa1) j → before T (PA T) (numS T) i j := by
    intro i j hi hj e
    obtain ⟨r, x, hr, er, hx, ex⟩ := rank_of ho inv1 hi
    obtain ⟨r', x', hr', er', hx', ex'⟩ := rank_of ho inv1 hj
    have hrr : r < r' := by
      apply Classical.byContradiction
      intro hc
      have := hx'.mono hx (by omega)
      omega
    have := (hch r (r' - r - 1) (by omega)).2 (fun hall => by
      rw [show r + 1 + (r' - r - 1) = r' by omega] at hall
      have : IsEnd (cellOf sa) (numS T) r x' := ⟨by have := hx'.le; omega, hx'.lt, fun y a b => by
        by_cases c : y ≤ r'
        · exact hall y a c
        · exact hx'.mark y (by omega) b, hx'.stop⟩
      have := hx.unique this
      omega)
    rwa [show r + 1 + (r' - r - 1) = r' by omega, er, er'] at this
  have call := trCall ho inv1 (fun i hi e => by
    have := heq i (numS T - 1) (by omega) (by omega) (by omega) e
    have := this.2.2
    omega)
  obtain ⟨sa2, e2, l2, -, c2⟩ := htr (ranksOf (numS T) sa1) sa1 (numS T) (by omega) (by omega) call
  rw [hlen] at e2 c2
  refine ⟨sa1, sa2, e1, e2, by rw [l2]; exact inv1.size, ?_⟩
  intro p hp
  rw [c2 _ (idx_lt hp), row_ranks hlen hlt heq (idx_lt hp), PA_idx hp]

theorem sortTypeBstar_spec {ss : SsSort} {tr : TrSort} {N : Nat} (hss : SsOk ss) (htr : TrOk N tr) (hN : T.length ≤ 2 * N + 1) (hT : T.length < 2 ^ 31) {k : Nat} (hk : ∀ p, p < T.length → ch T p < k)
    (hn : 0 < T.length) {sa : List Int} (hsz : sa.length = T.length) :
    ∃ sa' bk, sortTypeBstar ss tr T k sa = some (sa', bk, numS T) ∧ sa'.length = T.length ∧ (∀ c, c < k → bk.A c = startA T c) ∧
      (0 < numS T → Ready T k sa' bk) := by
  have hk0 : 0 < k := by have := hk 0 hn; omega
  obtain ⟨s, e1, em, esz, eA, eB, epa⟩ := countAll_spec hn hsz
  obtain ⟨fA, fS, fB⟩ := starts_spec hk eA eB
  unfold sortTypeBstar
  rw [bind_some' e1]
  simp only
  rw [em]
  by_cases hm : 0 < numS T
  · rw [if_pos hm]
    obtain ⟨sa1, bk1, g1, g2, g3, g4, g5, g6, g7⟩ := placeStars_spec hk hm esz epa fS
    obtain ⟨sa2, i1, i2⟩ := sortAll_spec hss hT hk hk0 g6 g2 g3 g7
    obtain ⟨sa3, sa4, j1, j2, j3, j4⟩ := afterRanks i2 hm htr hN
    have hL : isL T (T.length - 1) := isL_last (by omega)
    have hno : ∀ q, T.length - 1 ≤ q → q < T.length → ¬ isBs T q := by
      intro q h1 h2 hq
      have := isS_next hq.1
      omega
    have hidx : idx T (T.length - 1) = numS T := by
      have := idx_succ (T := T) (p := T.length - 1) (by omega)
      rw [if_neg (hno _ (Nat.le_refl _) (by omega)), show T.length - 1 + 1 = T.length by omega, idx_all] at this
      omega
    obtain ⟨s5, k1, k2⟩ := (setOrder_spec (rk := rkS T) (fun p hp => rkS_lt hp) (fun p q hp hq => rkS_inj hp hq) (T.length - 1) (by omega)).1
      (sa4, numS T) hL ⟨j3, hidx.symm, j4, fun p hp hb => absurd hp (hno p hb hp.1.1)⟩
    obtain ⟨sa6, bk6, l1, l2⟩ := moveStars_spec hk hk0 (fun c hc => by rw [g4]; exact fA c hc) (fun x y h => by rw [g5 x y h]; exact fB x y h) g6
      k2.size (fun p hp => k2.cell p hp (by omega))
    refine ⟨sa6, bk6, ?_, l2.size, l2.A, fun _ => l2⟩
    rw [bind_some' g1]
    simp only
    rw [bind_some' i1]
    rw [bind_some' j1, bind_some' j2, bind_some' (get_ch (show T.length - 1 < T.length by omega)), bind_some' k1, bind_some' l1]
    rfl
  · rw [if_neg hm]
    exact ⟨_, _, rfl, esz, fA, fun h => absurd h hm⟩

/-! ## `divbwtf` -/

/-- `divbwtf` gives the same as sorting the suffixes and reading off the transform, the starting points and the character counts. -/
theorem divbwtf_eq {ss : SsSort} {tr : TrSort} {N : Nat} (hss : SsOk ss) (htr : TrOk N tr) (T : List UInt8) (cells : List Int) (lf freqs : List Nat)
    (hT : 2 ≤ T.length) (hN : T.length ≤ 2 * N + 1) (hmax : T.length < 2 ^ 31) (hlast : ∀ a b, T[T.length - 2]? = some a → T[T.length - 1]? = some b → b ≤ a) (hc : T.length ≤ cells.length)
    (hl1 : 1 ≤ lf.length) (hl2 : lf.length ≤ T.length) (hf : 256 ≤ freqs.length) :
    divbwtf ss tr T cells lf freqs = FwdBWT.sorter T lf freqs := by
  obtain ⟨sa, hsa⟩ : ∃ sa, sa = FwdBWT.sortSuffixes T := ⟨_, rfl⟩
  have hsort : FwdBWT.SortedSuffixes T sa := by rw [hsa]; exact FwdBWT.sortSuffixes_sorted _
  have hl : sa.length = T.length := by rw [hsort.1.length_eq, List.length_range]
  have hnl : (nums T).length = T.length := List.length_map ..
  have hget : ∀ {p b}, T[p]? = some b → ch (nums T) p = b.toNat := by
    intro p b h
    apply ch_eq
    rw [List.getElem?_map, h]
    rfl
  have hk : ∀ p, p < (nums T).length → ch (nums T) p < 256 := by
    intro p hp
    rw [hnl] at hp
    rw [hget (List.getElem?_eq_getElem hp)]
    exact UInt8.toNat_lt _
  have hmem : ∀ s ∈ sa, s < T.length := fun s hs => List.mem_range.mp (hsort.1.mem_iff.mp hs)
  have hnd : sa.Nodup := hsort.1.nodup_iff.mpr List.nodup_range
  have hrow : ∀ {p}, p < T.length → sa[row (nums T) p]? = some p := fun hp => sorted_row hsort hp
  have hfind : sa.findIdx? (· == 0) = some (row (nums T) 0) := by
    rw [List.findIdx?_eq_some_iff_getElem]
    have h0 := hrow (p := 0) (by omega)
    obtain ⟨h1, h2⟩ := List.getElem?_eq_some_iff.mp h0
    refine ⟨h1, by simp [h2], ?_⟩
    intro j hj hc
    have hjl : j < sa.length := by omega
    have hj0 : sa[j] = sa[row (nums T) 0] := by rw [h2]; simpa using hc
    have := nodup_index hnd hj0
    omega
  obtain ⟨u, hu, hul, hu1, hu2⟩ := FwdBWT.column_spec T T sa hl.symm (fun s hs => Nat.le_of_lt (hmem s hs))
  -- the rows written out
  have hout : ∀ A : List Int, A.length = T.length → (∀ p, p < T.length → A[row (nums T) p]? = some (finS (nums T) p)) →
      writeOut (row (nums T) 0) 0 T A freqs = some (u, u.zipIdx.foldl
        (fun f cp => if cp.2 ≠ row (nums T) 0 then f.modify cp.1.toNat (· + 1) else f) freqs) := by
    intro A hA hcell
    apply writeOut_spec _ 0 T A freqs u hf hA hul
    · intro j hj
      rw [Nat.zero_add] at hj
      rw [hj]
      exact hu2 _ (hrow (by omega))
    · intro j c hj hc
      rw [Nat.zero_add] at hj
      have hjl : j < sa.length := by have := (List.getElem?_eq_some_iff.mp hc).1; omega
      have hp := hmem _ (List.getElem_mem hjl)
      have hjr : row (nums T) sa[j] = j := by
        have h0 := hrow hp
        obtain ⟨h1, h2⟩ := List.getElem?_eq_some_iff.mp h0
        exact nodup_index hnd h2
      have hne : sa[j] ≠ 0 := by
        intro e
        rw [e] at hjr
        exact hj hjr.symm
      have h3 := hu1 j (sa[j] - 1) (by rw [List.getElem?_eq_getElem hjl]; congr 1; omega)
      rw [hc] at h3
      have h4 := hcell _ hp
      rw [hjr] at h4
      rw [h4]
      unfold finS
      rw [if_neg hne, hget h3.symm]
  have hlast' : ch (nums T) ((nums T).length - 1) ≤ ch (nums T) ((nums T).length - 2) := by
    rw [hnl]
    have h1 := List.getElem?_eq_getElem (show T.length - 1 < T.length by omega)
    have h2 := List.getElem?_eq_getElem (show T.length - 2 < T.length by omega)
    rw [hget h1, hget h2]
    exact UInt8.le_iff_toNat_le.mp (hlast _ _ h2 h1)
  obtain ⟨A, bk, s1, s2, s3, s4⟩ := sortTypeBstar_spec (T := nums T) hss htr (by omega) (by omega) hk (by omega) (sa := cells.take T.length)
    (by rw [List.length_take, hnl]; omega)
  have hmul := Nat.div_mul_le_self T.length lf.length
  have hx : 1 ≤ T.length / lf.length := Nat.div_pos hl2 (by omega)
  unfold divbwtf FwdBWT.sorter
  rw [if_neg (c := T.length ≤ 1) (by omega), if_neg (c := T.length ≤ 1) (by omega)]
  simp only [← hsa]
  rw [bind_some' hfind, bind_some' s1]
  simp only
  by_cases h1 : lf.length ≤ 1
  · rw [if_pos h1, if_neg (c := 1 < lf.length) (by omega), bind_some' rfl, if_neg (by omega), bind_some' hu]
    obtain ⟨B, lf', g1, g2, g3, g4, g5⟩ := constructBWT_spec (T := nums T) hk (by omega) hlast' (xy := none) (lf := lf) trivial
      (fun h => no_stars h) s2 s3 s4
    rw [bind_some' g1]
    simp only
    rw [if_neg (by omega), bind_some' (hout B (by omega) (fun p hp => g3 p (by omega)))]
    have : lf'.set 0 (row (nums T) 0) = lf.set 0 (row (nums T) 0) := by
      match lf, lf', g4, hl1, h1 with
      | [a], [b], _, _, _ => rfl
    rw [this]
  · rw [if_neg h1, if_pos (c := 1 < lf.length) (by omega), if_neg (by omega)]
    obtain ⟨lf1, r1, r2, r3⟩ := FwdBWT.recordAll_spec T.length (T.length / lf.length) lf.length (by omega) hmul sa 0 lf rfl hmem hnd
    rw [bind_some' r1, if_neg (by omega), bind_some' hu]
    obtain ⟨B, lf', g1, g2, g3, g4, g5⟩ := constructBWT_spec (T := nums T) hk (by omega) hlast'
      (xy := some (T.length / lf.length, T.length - T.length / lf.length * lf.length)) (lf := lf)
      (by rw [hnl]; unfold XYok; exact ⟨hx, by omega⟩) (fun h => no_stars h) s2 s3 s4
    rw [bind_some' g1]
    simp only
    rw [if_neg (by omega), bind_some' (hout B (by omega) (fun p hp => g3 p (by omega)))]
    have hlf : lf'.set 0 (row (nums T) 0) = lf1.set 0 (row (nums T) 0) := by
      apply List.ext_getElem?
      intro id
      by_cases hid : id < lf.length
      · by_cases e : id = 0
        · rw [e, List.getElem?_set_self (by omega), List.getElem?_set_self (by omega)]
        · rw [List.getElem?_set_ne (by omega), List.getElem?_set_ne (by omega)]
          have hidx : 1 ≤ id * (T.length / lf.length) := Nat.mul_pos (by omega) (by omega)
          have hub : (id + 1) * (T.length / lf.length) ≤ lf.length * (T.length / lf.length) := Nat.mul_le_mul_right _ hid
          rw [Nat.add_mul, Nat.one_mul, Nat.mul_comm lf.length] at hub
          have hp : T.length - id * (T.length / lf.length) < T.length := by omega
          have hp0 : 0 < T.length - id * (T.length / lf.length) := by omega
          have h3 := (r3 id (by omega) hid).1 _ (hrow hp)
          rw [Nat.zero_add] at h3
          have h4 := g5 _ (show T.length - id * (T.length / lf.length) < (nums T).length by omega) hp0
          unfold Noted at h4
          simp only at h4
          rw [hnl, show T.length - (T.length - id * (T.length / lf.length)) = id * (T.length / lf.length) by omega,
            Nat.mul_mod_left, Nat.mul_div_cancel _ (by omega)] at h4
          rw [h3, h4 rfl (by omega)]
      · rw [List.getElem?_eq_none (by rw [List.length_set]; omega), List.getElem?_eq_none (by rw [List.length_set]; omega)]
    rw [hlf]

theorem transform_eq {ss : SsSort} {tr : TrSort} {N : Nat} (hss : SsOk ss) (htr : TrOk N tr) (cells : List Int) (mem : List UInt8) (pos len starts : Nat)
    (freqs : List Nat) (hl : 1 ≤ len) (hN : len ≤ 2 * N) (hmax : len + 1 < 2 ^ 31) (hc : len + 1 ≤ cells.length) (hf : 256 ≤ freqs.length) :
    transform ss tr cells mem pos len starts freqs = FwdBWT.transform mem pos len starts freqs := by
  unfold transform FwdBWT.transform
  simp only
  cases e : (FwdBWT.blit mem pos ((mem.drop pos).take len).reverse)[pos + len]? with
  | none => rfl
  | some next =>
    have hlt := (List.getElem?_eq_some_iff.mp e).1
    simp only [Option.bind_eq_bind, Option.bind_some]
    have hlen : ((((FwdBWT.blit mem pos ((mem.drop pos).take len).reverse).set (pos + len) 0).drop pos).take (len + 1)).length = len + 1 := by
      rw [List.length_take, List.length_drop, List.length_set]; omega
    have hp1 : 1 ≤ (FwdBWT.prepare len starts).length ∧ (FwdBWT.prepare len starts).length ≤ len + 1 := by
      unfold FwdBWT.prepare
      split
      · rw [List.length_replicate]; omega
      · split <;> rw [List.length_replicate] <;> omega
    rw [divbwtf_eq hss htr _ cells _ _ (by omega) (by omega) (by omega) ?_ (by omega) hp1.1 (by omega) hf]
    intro a b _ hb
    rw [hlen, List.getElem?_take, if_pos (by omega), List.getElem?_drop, show pos + (len + 1 - 1) = pos + len by omega,
      List.getElem?_set_self hlt] at hb
    rw [← Option.some.inj hb]
    exact UInt8.le_iff_toNat_le.mpr (Nat.zero_le _)

end Bwtc.Divsuf
