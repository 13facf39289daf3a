import Verif.PairDecide

/-!
# Writing the replaced version over the text

The in-place writer of `PairReplacer` sends its output through a circular buffer.  It is shown to
write the same bytes as the writer to a second array, if at most a third of the bytes is escaped, the
last byte is not escaped, and the output fits into the array.
-/

set_option autoImplicit false

namespace Bwtc.PairReplace
open Grammar FreqTable CircBuf

/-- The output `P` so far: a part of it is in the array, the rest in the buffer. -/
structure WI (cap : Nat) (orig P : List UInt8) (w : W) : Prop where
  rel : Rel cap w.buf (P.drop w.filled)
  le : w.filled ≤ P.length
  mem : w.mem = P.take w.filled ++ orig.drop w.filled
  le' : w.filled ≤ orig.length

theorem WI.length {cap : Nat} {orig P : List UInt8} {w : W} (h : WI cap orig P w) :
    w.mem.length = orig.length := by
  have h1 := h.le
  have h2 := h.le'
  rw [h.mem, List.length_append, List.length_take, List.length_drop]
  omega

theorem WI.get {cap : Nat} {orig P : List UInt8} {w : W} (h : WI cap orig P w) {i : Nat}
    (hi : w.filled ≤ i) : w.mem[i]? = orig[i]? := by
  have h1 := h.le
  rw [h.mem, List.getElem?_append_right (by rw [List.length_take]; omega), List.getElem?_drop,
    List.length_take]
  congr 1
  omega

theorem WI.push {cap : Nat} {orig P : List UInt8} {w : W} (h : WI cap orig P w)
    (hq : P.length < cap + w.filled) (c : UInt8) :
    ∃ w', w.push c = some w' ∧ WI cap orig (P ++ [c]) w' ∧ w'.filled = w.filled := by
  have h1 := h.le
  obtain ⟨b', e1, e2⟩ := push_rel h.rel (by rw [List.length_drop]; omega) c
  refine ⟨{ w with buf := b' }, by simp [W.push, e1], ⟨?_, ?_, ?_, h.le'⟩, rfl⟩
  · simp only
    rw [List.drop_append_of_le_length h1]
    exact e2
  · simp only [List.length_append, List.length_singleton]
    omega
  · simp only
    rw [List.take_append_of_le_length h1]
    exact h.mem

theorem WI.consume {cap : Nat} {orig P : List UInt8} {w : W} (h : WI cap orig P w) (k : Nat)
    (hk : w.filled + min k (P.length - w.filled) ≤ orig.length) :
    ∃ w', w.consume k = some w' ∧ WI cap orig P w' ∧
      w'.filled = w.filled + min k (P.length - w.filled) := by
  have h1 := h.le
  have hlen := h.length
  obtain ⟨b', e1, e2⟩ := consume_rel h.rel k
  have hl : ((P.drop w.filled).take k).length = min k (P.length - w.filled) := by
    rw [List.length_take, List.length_drop]
  have hmin : (P.drop w.filled).take k = (P.drop w.filled).take (min k (P.length - w.filled)) := by
    rw [List.take_eq_take_iff, List.length_drop]
    omega
  have hmt : w.mem.take w.filled = P.take w.filled := by
    rw [h.mem, List.take_append_of_le_length (by rw [List.length_take]; omega), List.take_take]
    congr 1
    omega
  have hmd : w.mem.drop (w.filled + min k (P.length - w.filled)) =
      orig.drop (w.filled + min k (P.length - w.filled)) := by
    have hp : (P.take w.filled).length = w.filled := by rw [List.length_take]; omega
    rw [h.mem, List.drop_append, hp, List.drop_eq_nil_of_le (by rw [hp]; omega), List.nil_append,
      List.drop_drop]
    congr 1
    omega
  refine ⟨⟨P.take (w.filled + min k (P.length - w.filled)) ++
      orig.drop (w.filled + min k (P.length - w.filled)),
      w.filled + min k (P.length - w.filled), b'⟩, ?_, ⟨?_, ?_, rfl, hk⟩, rfl⟩
  · simp only [W.consume, e1, Option.bind_eq_bind, Option.bind_some, store, hl]
    rw [if_pos (by omega)]
    simp only [Option.bind_some, Option.pure_def, Option.some.injEq, W.mk.injEq, and_true]
    rw [hmt, hmd, hmin, List.take_add]
  · simp only
    rw [List.drop_drop] at e2
    by_cases hle : k ≤ P.length - w.filled
    · rw [Nat.min_eq_left hle]
      exact e2
    · rw [Nat.min_eq_right (by omega), List.drop_eq_nil_of_le (by omega)]
      rw [List.drop_eq_nil_of_le (by omega)] at e2
      exact e2
  · simp only
    omega

theorem WI.flush {cap : Nat} {orig P : List UInt8} {w : W} (h : WI cap orig P w) {i : Nat}
    (hi : w.filled + 1 ≤ i) (hio : i ≤ orig.length) (hP : P.length + 1 < cap + i) (hcap : 0 < cap) :
    ∃ w', w.flush i = some w' ∧ WI cap orig P w' ∧ w'.filled + 1 ≤ i ∧
      P.length < cap + w'.filled := by
  have h1 := h.le
  unfold W.flush
  rw [full_rel h.rel, List.length_drop]
  by_cases hf : cap ≤ P.length - w.filled
  · simp only [decide_eq_true hf, if_true]
    rw [if_neg (by omega)]
    obtain ⟨w', e1, e2, e3⟩ := h.consume (i - w.filled - 1) (by omega)
    exact ⟨w', e1, e2, by omega, by omega⟩
  · simp only [decide_eq_false hf]
    exact ⟨w, rfl, h, hi, by omega⟩

theorem WI.finish {cap : Nat} {orig P : List UInt8} {w : W} (h : WI cap orig P w) {i : Nat}
    (hi : cap ≤ i) (hP : P.length ≤ orig.length) :
    w.finish i = some (P ++ orig.drop P.length, P.length) := by
  have h1 := h.le
  have hb := h.rel.bound
  rw [List.length_drop] at hb
  obtain ⟨w', e1, e2, e3⟩ := h.consume i (by omega)
  have hfill : w'.filled = P.length := by omega
  simp only [W.finish, e1, Option.bind_eq_bind, Option.bind_some, Option.pure_def, Option.some.injEq,
    Prod.mk.injEq]
  refine ⟨?_, hfill⟩
  rw [e2.mem, hfill, List.take_length]

/-- The byte is written as two bytes. -/
def escaped (R : Repl) (common : UInt8) (c : UInt8) : Bool := decide ((R c 0).2 ≠ common)

theorem writeLoop_spec {R : Repl} {common : UInt8} (hu : Uniform R common) {orig : List UInt8} {n cap : Nat}
    (hn : n ≤ orig.length) (hcap : cap + 1 ≤ n)
    (hesc : (orig.take n).countP (escaped R common) + 2 ≤ cap)
    (hlast : ∀ c, orig[n - 1]? = some c → escaped R common c = false) :
    ∀ (m i : Nat) (w : W) (cur : UInt8) (P : List UInt8), n - i ≤ m → 1 ≤ i → i < n →
      orig[i - 1]? = some cur → WI cap orig P w → w.filled + 1 ≤ i → P.length < cap + w.filled →
      P.length ≤ i - 1 + (orig.take (i - 1)).countP (escaped R common) →
      (P ++ writeGo R common cur ((orig.take n).drop i)).length ≤ orig.length →
      writeLoop R common n w cur i =
        some (P ++ writeGo R common cur ((orig.take n).drop i) ++
            orig.drop (P ++ writeGo R common cur ((orig.take n).drop i)).length,
          (P ++ writeGo R common cur ((orig.take n).drop i)).length) := by
  have hpre : ∀ k, k ≤ n → (orig.take k).countP (escaped R common) ≤
      (orig.take n).countP (escaped R common) := by
    intro k hk
    apply List.Sublist.countP_le
    exact (List.take_prefix_take_left hk).sublist
  have hsucc : ∀ k c, orig[k]? = some c → (orig.take (k + 1)).countP (escaped R common) =
      (orig.take k).countP (escaped R common) + if escaped R common c then 1 else 0 := by
    intro k c hk
    rw [List.take_add_one, hk, List.countP_append]
    simp [List.countP_cons]
  -- the last byte
  have hlastW : ∀ (w : W) (cur : UInt8) (P : List UInt8), orig[n - 1]? = some cur → WI cap orig P w →
      w.filled + 1 ≤ n - 1 + 1 → P.length < cap + w.filled → P.length + 1 ≤ orig.length →
      writeLast R common w (n - 1) = some (P ++ [cur] ++ orig.drop (P ++ [cur]).length,
        (P ++ [cur]).length) ∧ writeGo R common cur [] = [cur] := by
    intro w cur P hcur hw hfi hq hP
    have hne := hlast cur hcur
    have hne' : ¬ (R cur 0).2 ≠ common := by
      simpa [escaped] using hne
    constructor
    · unfold writeLast
      rw [hw.get (by omega), hcur]
      simp only [Option.bind_eq_bind, Option.bind_some]
      rw [if_neg hne']
      obtain ⟨w1, e1, e2, e3⟩ := hw.push hq cur
      rw [e1]
      simp only [Option.bind_some]
      exact e2.finish (by omega) (by simp; omega)
    · rw [writeGo.eq_def]
      simp only
      rw [if_neg hne']
  intro m
  induction m with
  | zero => intro i w cur P hm h1 h2; omega
  | succ m ih =>
    intro i w cur P hm h1 h2 hcur hw hfi hq hP hout
    obtain ⟨d, hd⟩ := getElem?_lt (l := orig) (i := i) (by omega)
    have hdrop : (orig.take n).drop i = d :: (orig.take n).drop (i + 1) := by
      have hi' : i < (orig.take n).length := by rw [List.length_take]; omega
      rw [List.drop_eq_getElem_cons hi']
      congr 1
      rw [List.getElem_take]
      have := List.getElem?_eq_getElem (l := orig) (i := i) (by omega)
      rw [hd] at this
      simp only [Option.some.injEq] at this
      exact this.symm
    have hE := hsucc (i - 1) cur hcur
    rw [show i - 1 + 1 = i by omega] at hE
    have hE1 := hpre (i - 1) (by omega)
    have hE2 := hpre i (by omega)
    have hE3 := hpre (i + 1) (by omega)
    have hempty : i = n - 1 → (orig.take n).drop (i + 1) = [] := by
      intro hin
      rw [List.drop_eq_nil_iff, List.length_take]
      omega
    rw [writeLoop, dif_pos h2, hw.get (by omega), hw.get (show w.filled ≤ i - 1 by omega), hd, hcur]
    simp only
    rw [hdrop] at hout ⊢
    by_cases hnoop : R cur d = (common, common)
    · rw [writeGo_noop hnoop] at hout ⊢
      rw [if_pos hnoop]
      obtain ⟨w1, e1, e2, e3⟩ := hw.push hq cur
      obtain ⟨w2, f1, f2, f3, f4⟩ := e2.flush (i := i) (by omega) (by omega)
        (by simp; omega) (by omega)
      rw [e1]
      simp only [Option.bind_eq_bind, Option.bind_some, f1]
      have hassoc : P ++ cur :: writeGo R common d ((orig.take n).drop (i + 1)) =
          (P ++ [cur]) ++ writeGo R common d ((orig.take n).drop (i + 1)) := by simp
      rw [hassoc] at hout ⊢
      by_cases hin : i = n - 1
      · rw [if_pos hin, hin]
        rw [hempty hin] at hout
        have hempty' := hempty hin
        rw [hin] at hempty'
        rw [hempty']
        have hwl : 1 ≤ (writeGo R common d []).length := by
          rw [writeGo.eq_def]
          simp only
          split <;> simp
        obtain ⟨l1, l2⟩ := hlastW w2 d (P ++ [cur]) (by rw [← hin]; exact hd) f2 (by omega) f4
          (by rw [List.length_append] at hout; omega)
        rw [l1, l2]
      · rw [if_neg hin]
        refine ih (i + 1) w2 d (P ++ [cur]) (by omega) (by omega) (by omega) hd f2 (by omega) f4 ?_ hout
        simp only [Nat.add_sub_cancel, List.length_append, List.length_singleton]
        split at hE <;> omega
    · rw [if_neg hnoop]
      by_cases hpair : (R cur d).2 = common
      · rw [if_pos hpair]
        have hv : (R cur d).1 ≠ common := by
          intro hc
          exact hnoop (Prod.ext hc hpair)
        have hR : R cur d = ((R cur d).1, common) := Prod.ext rfl hpair
        rw [writeGo_pair hv hR] at hout ⊢
        obtain ⟨w1, e1, e2, e3⟩ := hw.push hq (R cur d).1
        rw [e1]
        simp only [Option.bind_eq_bind, Option.bind_some]
        by_cases hin : i = n - 1
        · rw [if_pos hin]
          rw [hempty hin] at hout ⊢
          simp only at hout ⊢
          exact e2.finish (by omega) hout
        · rw [if_neg hin]
          obtain ⟨e, he⟩ := getElem?_lt (l := orig) (i := i + 1) (by omega)
          have hdrop2 : (orig.take n).drop (i + 1) = e :: (orig.take n).drop (i + 2) := by
            have hi' : i + 1 < (orig.take n).length := by rw [List.length_take]; omega
            rw [List.drop_eq_getElem_cons hi']
            congr 1
            rw [List.getElem_take]
            have := List.getElem?_eq_getElem (l := orig) (i := i + 1) (by omega)
            rw [he] at this
            simp only [Option.some.injEq] at this
            exact this.symm
          rw [hdrop2] at hout ⊢
          simp only at hout ⊢
          rw [e2.get (by omega), he]
          simp only [Option.bind_some]
          obtain ⟨w2, f1, f2, f3, f4⟩ := e2.flush (i := i + 1) (by omega) (by omega)
            (by simp; omega) (by omega)
          rw [f1]
          simp only [Option.bind_some]
          have hassoc : P ++ (R cur d).1 :: writeGo R common e ((orig.take n).drop (i + 2)) =
              (P ++ [(R cur d).1]) ++ writeGo R common e ((orig.take n).drop (i + 2)) := by simp
          rw [hassoc] at hout ⊢
          by_cases hin2 : i + 1 = n - 1
          · rw [if_pos hin2, hin2]
            have hempty2 : (orig.take n).drop (i + 2) = [] := by
              rw [List.drop_eq_nil_iff, List.length_take]
              omega
            rw [hempty2] at hout ⊢
            have hwl : 1 ≤ (writeGo R common e []).length := by
              rw [writeGo.eq_def]
              simp only
              split <;> simp
            obtain ⟨l1, l2⟩ := hlastW w2 e (P ++ [(R cur d).1]) (by rw [← hin2]; exact he) f2 (by omega) f4
              (by rw [List.length_append] at hout; omega)
            rw [l1, l2]
          · rw [if_neg hin2]
            refine ih (i + 2) w2 e (P ++ [(R cur d).1]) (by omega) (by omega) (by omega)
              (by rw [show i + 2 - 1 = i + 1 by omega]; exact he) f2 (by omega) f4 ?_ hout
            have hE4 := hsucc i d hd
            simp only [show i + 2 - 1 = i + 1 by omega, List.length_append, List.length_singleton]
            split at hE <;> split at hE4 <;> omega
      · rw [if_neg hpair]
        have hce : escaped R common cur = true := by
          simpa [escaped] using (hu cur d).mp hpair
        rw [hce, if_pos rfl] at hE
        rw [writeGo_esc hpair] at hout ⊢
        obtain ⟨w1, e1, e2, e3⟩ := hw.push hq (R cur d).1
        obtain ⟨w2, f1, f2, f3, f4⟩ := e2.flush (i := i) (by omega) (by omega)
          (by simp; omega) (by omega)
        obtain ⟨w3, g1, g2, g3⟩ := f2.push f4 (R cur d).2
        obtain ⟨w4, k1, k2, k3, k4⟩ := g2.flush (i := i) (by omega) (by omega)
          (by simp; omega) (by omega)
        rw [e1]
        simp only [Option.bind_eq_bind, Option.bind_some, f1, g1, k1]
        have hassoc : P ++ (R cur d).1 :: (R cur d).2 :: writeGo R common d ((orig.take n).drop (i + 1)) =
            (P ++ [(R cur d).1] ++ [(R cur d).2]) ++ writeGo R common d ((orig.take n).drop (i + 1)) := by
          simp
        rw [hassoc] at hout ⊢
        by_cases hin : i = n - 1
        · rw [if_pos hin, hin]
          rw [hempty hin] at hout
          have hempty' := hempty hin
          rw [hin] at hempty'
          rw [hempty']
          have hwl : 1 ≤ (writeGo R common d []).length := by
            rw [writeGo.eq_def]
            simp only
            split <;> simp
          obtain ⟨l1, l2⟩ := hlastW w4 d _ (by rw [← hin]; exact hd) k2 (by omega) k4
            (by rw [List.length_append] at hout; omega)
          rw [l1, l2]
        · rw [if_neg hin]
          refine ih (i + 1) w4 d _ (by omega) (by omega) (by omega) hd k2 (by omega) k4 ?_ hout
          simp only [Nat.add_sub_cancel, List.length_append, List.length_singleton]
          omega

/-- Writing in place gives the same bytes as writing to another array. -/
theorem writeInPlace_spec {R : Repl} {common : UInt8} (hu : Uniform R common) {mem : List UInt8} {n : Nat}
    (hn5 : 5 ≤ n) (hn : n ≤ mem.length) {c : UInt8} {rest : List UInt8} (hc : mem.take n = c :: rest)
    (hesc : 3 * (mem.take n).countP (escaped R common) ≤ n)
    (hlast : ∀ c, mem[n - 1]? = some c → escaped R common c = false)
    (hout : (writeGo R common c rest).length ≤ mem.length) :
    writeInPlace R common mem n = some (writeGo R common c rest ++
      mem.drop (writeGo R common c rest).length, (writeGo R common c rest).length) := by
  have h0 : mem[0]? = some c := by
    have := congrArg (·[0]?) hc
    simpa [List.getElem?_take, show 0 < n by omega] using this
  have hrest : (mem.take n).drop 1 = rest := by rw [hc]; rfl
  unfold writeInPlace
  rw [h0]
  simp only [Option.bind_eq_bind, Option.bind_some]
  have hnew : WI (capacity n) mem [] ⟨mem, 0, CB.new (capacity n)⟩ :=
    ⟨by simpa using new_rel (capacity n), by simp, by simp, by simp⟩
  have := writeLoop_spec hu hn (cap := capacity n) (by unfold capacity; omega)
    (by unfold capacity; omega) hlast n 1 ⟨mem, 0, CB.new (capacity n)⟩ c [] (by omega) (by omega) (by omega)
    (by simpa using h0) hnew (by simp) (by unfold capacity; simp) (by simp)
    (by rw [hrest]; simpa using hout)
  rw [this, hrest]
  simp

end Bwtc.PairReplace
