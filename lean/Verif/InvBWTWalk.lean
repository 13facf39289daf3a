import Verif.InvBWTProof

/-!
# Restoring the text

The second half of the inverse transform: walking the tables from all starting
rows restores the text (lemmas for `Verif.Props.BWT`).
-/

set_option autoImplicit false

namespace Bwtc.InvBWT

open Bwtc.BWT

variable {w : List UInt8}

/-- The row from which a block whose next destination is `d` continues. -/
def rowOf (w : List UInt8) (d : Nat) : Nat := if d = 0 then rk w 0 else rk w (w.length + 1 - d)

/-- The restored text. -/
def orig (w : List UInt8) (k : Nat) : Option UInt8 := w.reverse[k]?

theorem orig_eq {k : Nat} (hk : k < w.length) :
    orig w k = some (w[w.length - 1 - k]'(by omega)) := by
  unfold orig
  rw [List.getElem?_reverse hk, List.getElem?_eq_getElem]

/-- All positions in `C` hold the restored text. -/
def Good (w : List UInt8) (C : Nat → Prop) (buf : List UInt8) : Prop :=
  buf.length = w.length + 1 ∧ ∀ k, k < w.length → C k → buf[k]? = orig w k

theorem Good.put {C : Nat → Prop} {buf : List UInt8} (g : Good w C buf) {k : Nat} {v : UInt8}
    (hk : k < w.length) (hv : orig w k = some v) :
    ∃ buf', put buf k v = some buf' ∧ Good w (fun j => C j ∨ j = k) buf' := by
  refine ⟨buf.set k v, ?_, ?_, ?_⟩
  · unfold InvBWT.put
    rw [if_pos (by rw [g.1]; omega)]
  · rw [List.length_set]; exact g.1
  · intro j hj hC
    rw [List.getElem?_set]
    by_cases hjk : k = j
    · subst hjk
      rw [if_pos rfl, if_pos (by rw [g.1]; omega), hv]
    · rw [if_neg hjk]
      exact g.2 j hj (hC.resolve_right (fun h => hjk h.symm))

theorem Good.mono {C C' : Nat → Prop} {buf : List UInt8} (g : Good w C buf)
    (h : ∀ k, k < w.length → C' k → C k) : Good w C' buf :=
  ⟨g.1, fun k hk hc => g.2 k hk (h k hk hc)⟩

/-- State of the walk: `D id` is the next destination of block `id`. -/
structure WalkInv (w : List UInt8) (sp : Nat) (D : Nat → Nat) (C : Nat → Prop) (st : Walk) :
    Prop where
  pos : ∀ id, id < sp → st.pos[id]? = some (rowOf w (D id))
  dest : ∀ id, id < sp → st.dest[id]? = some (D id)
  good : Good w C st.buf

/-- Function update. -/
def upd (D : Nat → Nat) (id v : Nat) : Nat → Nat := fun j => if j = id then v else D j

theorem getElem?_set_of {l : List Nat} {sp : Nat} {F : Nat → Nat} (h : ∀ id, id < sp → l[id]? = some (F id))
    {id : Nat} (hid : id < sp) (v : Nat) {G : Nat → Nat} (hG : G id = v)
    (hG' : ∀ j, j ≠ id → G j = F j) : ∀ j, j < sp → (l.set id v)[j]? = some (G j) := by
  intro j hj
  rw [List.getElem?_set]
  by_cases hji : id = j
  · subst hji
    have := (List.getElem?_eq_some_iff.mp (h id hid)).1
    rw [if_pos rfl, if_pos this, hG]
  · rw [if_neg hji, h j hj, hG' j (fun h => hji h.symm)]

theorem emit_spec {t : List Nat × List (UInt8 × UInt8)} (ht : TablesOK w t) {sp : Nat}
    {D : Nat → Nat} {C : Nat → Prop} {st : Walk} (inv : WalkInv w sp D C st) {id : Nat}
    (hid : id < sp) (h1 : 1 ≤ D id) (h2 : D id + 1 ≤ w.length) :
    ∃ st', emit t st id = some st' ∧
      WalkInv w sp (upd D id (D id + 2)) (fun k => (C k ∨ k = D id - 1) ∨ k = D id) st' := by
  obtain ⟨d, hd⟩ : ∃ d, d = D id := ⟨_, rfl⟩
  rw [← hd] at h1 h2
  obtain ⟨u, hu⟩ : ∃ u, w.length + 1 - d = u + 2 := ⟨w.length - 1 - d, by omega⟩
  have hrow : rowOf w d = rk w (u + 2) := by
    rw [rowOf, if_neg (by omega), hu]
  obtain ⟨pr, hf, hok⟩ := ht.row (u + 2) (by omega)
  have hu1 : u + 1 < w.length := by omega
  have hpp : prevPair w (u + 2) = some (w[u], w[u + 1]) := by
    simp [prevPair, List.getElem?_eq_getElem hu1,
      List.getElem?_eq_getElem (show u < w.length by omega)]
  have hpc : prevChar w (u + 2) = some w[u + 1] := by
    simp [prevChar, List.getElem?_eq_getElem hu1]
  have q1 : pr.1 = w[u + 1] := hok.1 _ hpc
  have q2 : pr.2 = w[u] := hok.2.1 _ _ hpp
  have o1 : orig w (d - 1) = some pr.1 := by
    rw [orig_eq (by omega), q1]
    congr 2; omega
  have o2 : orig w d = some pr.2 := by
    rw [orig_eq (by omega), q2]
    congr 2; omega
  obtain ⟨b1, hb1, g1⟩ := inv.good.put (show d - 1 < w.length by omega) o1
  obtain ⟨b2, hb2, g2⟩ := g1.put (show d < w.length by omega) o2
  refine ⟨⟨st.pos.set id (next2 w (u + 2)), st.dest.set id (d + 2), b2⟩, ?_, ?_, ?_, ?_⟩
  · unfold emit
    simp only [Option.bind_eq_bind, inv.pos id hid, Option.bind_some, ← hd, hrow, hf,
      inv.dest id hid]
    rw [if_neg (by omega), hb1]
    simp only [Option.bind_some]
    rw [hb2]
    rfl
  · apply getElem?_set_of inv.pos hid
    · rw [upd, if_pos rfl, ← hd, rowOf, if_neg (by omega), next2, if_neg (by omega),
        if_neg (by omega)]
      congr 1; omega
    · intro j hj; rw [upd, if_neg hj]
  · apply getElem?_set_of inv.dest hid
    · rw [upd, if_pos rfl, hd]
    · intro j hj; rw [upd, if_neg hj]
  · rw [← hd]; exact g2

/-- The positions restored so far: block `id` starts one position before `id * bs`. -/
def covered (sp bs : Nat) (D : Nat → Nat) (k : Nat) : Prop :=
  ∃ id, id < sp ∧ id * bs ≤ k + 1 ∧ k + 1 < D id

theorem covered_upd {sp bs : Nat} {D : Nat → Nat} {id : Nat} (k : Nat) (v : Nat)
    (hv : v = D id + 2) (h : covered sp bs (upd D id v) k) :
    (covered sp bs D k ∨ k = D id - 1) ∨ k = D id := by
  obtain ⟨j, hj, h1, h2⟩ := h
  unfold upd at h2
  split at h2
  · rename_i hjid
    subst hjid
    by_cases hlt : k + 1 < D j
    · exact Or.inl (Or.inl ⟨j, hj, h1, hlt⟩)
    · have : k = D j - 1 ∨ k = D j := by omega
      rcases this with h | h
      · exact Or.inl (Or.inr h)
      · exact Or.inr h
  · exact Or.inl (Or.inl ⟨j, hj, h1, h2⟩)

theorem emit_covered {t : List Nat × List (UInt8 × UInt8)} (ht : TablesOK w t) {sp bs : Nat}
    {D : Nat → Nat} {st : Walk} (inv : WalkInv w sp D (covered sp bs D) st) {id : Nat}
    (hid : id < sp) (h1 : 1 ≤ D id) (h2 : D id + 1 ≤ w.length) :
    ∃ st', emit t st id = some st' ∧
      WalkInv w sp (upd D id (D id + 2)) (covered sp bs (upd D id (D id + 2))) st' := by
  obtain ⟨st', h, inv'⟩ := emit_spec ht inv hid h1 h2
  exact ⟨st', h, inv'.pos, inv'.dest, inv'.good.mono (fun k _ hk => covered_upd k _ rfl hk)⟩

theorem WalkInv.congr {sp bs : Nat} {D D' : Nat → Nat} {st : Walk}
    (inv : WalkInv w sp D (covered sp bs D) st) (h : ∀ id, id < sp → D' id = D id) :
    WalkInv w sp D' (covered sp bs D') st := by
  refine ⟨?_, ?_, inv.good.mono ?_⟩
  · intro id hid; rw [h id hid]; exact inv.pos id hid
  · intro id hid; rw [h id hid]; exact inv.dest id hid
  · rintro k _ ⟨id, hid, h1, h2⟩
    exact ⟨id, hid, h1, by rw [← h id hid]; exact h2⟩

/-- One round over all blocks. -/
theorem round_spec {t : List Nat × List (UInt8 × UInt8)} (ht : TablesOK w t) {sp bs : Nat}
    {D : Nat → Nat} {st : Walk} (inv : WalkInv w sp D (covered sp bs D) st)
    (h1 : ∀ id, id < sp → 1 ≤ D id ∧ D id + 1 ≤ w.length) :
    ∃ st', (List.range sp).foldlM (emit t) st = some st' ∧
      WalkInv w sp (fun id => D id + 2) (covered sp bs (fun id => D id + 2)) st' := by
  obtain ⟨st', h, inv'⟩ := foldlM_range_inv (emit t)
    (fun p st => WalkInv w sp (fun id => if id < p then D id + 2 else D id)
      (covered sp bs (fun id => if id < p then D id + 2 else D id)) st) sp
    (by
      intro p st hp inv
      obtain ⟨st', h, inv'⟩ := emit_covered ht inv hp (by simpa using (h1 p hp).1)
        (by simpa using (h1 p hp).2)
      refine ⟨st', h, inv'.congr ?_⟩
      intro id hid
      simp only [upd]
      by_cases hidp : id = p
      · subst hidp; simp
      · by_cases hlt : id < p
        · simp [hidp, hlt, show id < p + 1 by omega]
        · simp [hidp, hlt, show ¬ id < p + 1 by omega])
    st (inv.congr (by intro id _; simp))
  exact ⟨st', h, inv'.congr (by intro id hid; simp [hid])⟩

theorem rounds_spec {t : List Nat × List (UInt8 × UInt8)} (ht : TablesOK w t) {sp bs : Nat}
    (n : Nat) {D : Nat → Nat} {st : Walk} (inv : WalkInv w sp D (covered sp bs D) st)
    (h1 : ∀ id, id < sp → 1 ≤ D id ∧ (n = 0 ∨ D id + 2 * n ≤ w.length + 1)) :
    ∃ st', rounds t sp n st = some st' ∧
      WalkInv w sp (fun id => D id + 2 * n) (covered sp bs (fun id => D id + 2 * n)) st' := by
  induction n generalizing D st with
  | zero => exact ⟨st, rfl, inv.congr (by intro id _; simp)⟩
  | succ n ih =>
    obtain ⟨st1, hs1, inv1⟩ := round_spec ht inv (fun id hid => by
      have := h1 id hid; omega)
    obtain ⟨st2, hs2, inv2⟩ := ih inv1 (fun id hid => by
      have := h1 id hid
      omega)
    refine ⟨st2, ?_, inv2.congr ?_⟩
    · rw [rounds, hs1]; exact hs2
    · intro id _; omega

/-- The first pair of every block. -/
theorem first_spec {t : List Nat × List (UInt8 × UInt8)} (ht : TablesOK w t) {sp bs : Nat}
    (hm : 1 ≤ w.length) (hbs : 2 ≤ bs) (hsp : sp * bs ≤ w.length + 1) (h0 : 1 ≤ sp)
    {st : Walk} (hpos : ∀ id, id < sp → st.pos[id]? = some (rowOf w (id * bs)))
    (hdest : ∀ id, id < sp → st.dest[id]? = some (id * bs))
    (hlen : st.buf.length = w.length + 1) :
    ∃ st', (List.range sp).foldlM (emitFirst t) st = some st' ∧
      WalkInv w sp (fun id => id * bs + 2) (covered sp bs (fun id => id * bs + 2)) st' := by
  have inv0 : WalkInv w sp (fun id => id * bs) (covered sp bs (fun id => id * bs)) st := by
    refine ⟨hpos, hdest, hlen, ?_⟩
    rintro k _ ⟨id, _, h1, h2⟩
    simp only at h2
    omega
  obtain ⟨st', h, inv'⟩ := foldlM_range_inv (emitFirst t)
    (fun p st => WalkInv w sp (fun id => if id < p then id * bs + 2 else id * bs)
      (covered sp bs (fun id => if id < p then id * bs + 2 else id * bs)) st) sp
    (by
      intro p st hp inv
      by_cases hp0 : p = 0
      · subst hp0
        obtain ⟨pr, hf, hok⟩ := ht.row 0 (by omega)
        have ho : orig w 0 = some pr.2 := by
          rw [orig_eq (by omega), ← hok.2.2 rfl, List.getElem?_eq_getElem (by omega)]
          rfl
        obtain ⟨b1, hb1, g1⟩ := inv.good.put (show 0 < w.length by omega) ho
        have hp := inv.pos 0 h0
        have hd := inv.dest 0 h0
        simp only [Nat.lt_irrefl, if_false, Nat.zero_mul] at hp hd
        refine ⟨⟨st.pos.set 0 (next2 w 0), st.dest.set 0 (0 + 2), b1⟩, ?_, ?_, ?_, ?_⟩
        · unfold emitFirst
          rw [if_pos rfl]
          simp only [Option.bind_eq_bind, hp, hd, Option.bind_some, rowOf, if_true, hf]
          rw [hb1]; rfl
        · apply getElem?_set_of inv.pos h0
          · simp only [Nat.zero_add, Nat.lt_succ_self, if_true, Nat.zero_mul, rowOf, next2]
            rw [if_neg (by omega)]
            congr 1
          · intro j hj
            have h1 : ¬ j < 0 + 1 := by omega
            have h2 : ¬ j < 0 := by omega
            simp [h1]
        · apply getElem?_set_of inv.dest h0
          · simp
          · intro j hj
            have h1 : ¬ j < 0 + 1 := by omega
            simp [h1]
        · apply g1.mono
          rintro k _ ⟨id, hid, h1, h2⟩
          by_cases hid0 : id = 0
          · subst hid0
            simp at h2
            right; omega
          · have : ¬ id < 0 + 1 := by omega
            simp only [this, if_false] at h2
            omega
      · have hpb : p * bs + bs ≤ w.length + 1 := by
          have : (p + 1) * bs ≤ sp * bs := Nat.mul_le_mul_right _ hp
          rw [Nat.add_mul, Nat.one_mul] at this
          omega
        have hpp : 1 ≤ p * bs := Nat.mul_pos (by omega) (by omega)
        obtain ⟨st', h, inv'⟩ := emit_covered ht inv hp (by simpa using hpp)
          (by simp only [Nat.lt_irrefl, if_false]; omega)
        refine ⟨st', ?_, inv'.congr ?_⟩
        · unfold emitFirst; rw [if_neg hp0]; exact h
        · intro id hid
          simp only [upd]
          by_cases hidp : id = p
          · subst hidp; simp
          · by_cases hlt : id < p
            · simp [hidp, hlt, show id < p + 1 by omega]
            · simp [hidp, hlt, show ¬ id < p + 1 by omega])
    st (inv0.congr (by intro id _; simp))
  exact ⟨st', h, inv'.congr (by intro id hid; simp [hid])⟩

/-- The single character left in odd blocks. -/
theorem odd_spec {t : List Nat × List (UInt8 × UInt8)} (ht : TablesOK w t) {sp bs : Nat}
    (hbs : 2 ≤ bs) (hodd : bs % 2 = 1) (hsp : sp * bs ≤ w.length + 1)
    {C : Nat → Prop} {st : Walk}
    (inv : WalkInv w sp (fun id => id * bs + 2 * (bs / 2)) C st) :
    ∃ st', (List.range (sp - 1)).foldlM (emitOdd t bs) st = some st' ∧
      WalkInv w sp (fun id => id * bs + 2 * (bs / 2))
        (fun k => C k ∨ ∃ id, id < sp - 1 ∧ k + 2 = (id + 1) * bs) st' := by
  obtain ⟨st', h, inv'⟩ := foldlM_range_inv (emitOdd t bs)
    (fun p st => WalkInv w sp (fun id => id * bs + 2 * (bs / 2))
        (fun k => C k ∨ ∃ id, id < p ∧ k + 2 = (id + 1) * bs) st) (sp - 1)
    (by
      intro p st hp inv
      have hpb : (p + 1) * bs ≤ w.length + 1 :=
        Nat.le_trans (Nat.mul_le_mul_right _ (by omega)) hsp
      have hmul : (p + 1) * bs = p * bs + bs := by rw [Nat.add_mul, Nat.one_mul]
      obtain ⟨s, hs⟩ : ∃ s, w.length + 1 - (p * bs + 2 * (bs / 2)) = s + 1 :=
        ⟨w.length - (p * bs + 2 * (bs / 2)), by omega⟩
      obtain ⟨pr, hf, hok⟩ := ht.row (s + 1) (by omega)
      have hsw : s < w.length := by omega
      have q1 : pr.1 = w[s] := hok.1 _ (by simp [prevChar, List.getElem?_eq_getElem hsw])
      have ho : orig w ((p + 1) * bs - 2) = some pr.1 := by
        rw [orig_eq (by omega), q1]
        congr 2; omega
      obtain ⟨b1, hb1, g1⟩ := inv.good.put (show (p + 1) * bs - 2 < w.length by omega) ho
      have hpp := inv.pos p (by omega)
      simp only [rowOf, hs] at hpp
      rw [if_neg (by omega)] at hpp
      refine ⟨{ st with buf := b1 }, ?_, inv.pos, inv.dest, ?_⟩
      · unfold emitOdd
        simp only [Option.bind_eq_bind, hpp, Option.bind_some, hf]
        rw [if_neg (by omega), hb1]; rfl
      · apply g1.mono
        rintro k _ (hk | ⟨id, hid, hk⟩)
        · exact Or.inl (Or.inl hk)
        · by_cases hidp : id = p
          · subst hidp; right; omega
          · exact Or.inl (Or.inr ⟨id, by omega, hk⟩))
    st ⟨inv.pos, inv.dest, inv.good.mono (by
      rintro k _ (hk | ⟨id, hid, _⟩)
      · exact hk
      · omega)⟩
  exact ⟨st', h, inv'⟩

/-- The rest of the last block. -/
theorem tail_spec {t : List Nat × List (UInt8 × UInt8)} (ht : TablesOK w t) {sp : Nat}
    {D : Nat → Nat} {C : Nat → Prop} {st : Walk} (inv : WalkInv w sp D C st) {id : Nat}
    (hid : id < sp) (h1 : 1 ≤ D id) (h2 : D id ≤ w.length + 1) :
    ∃ st', tail t id w.length (D id - 1) st = some st' ∧
      Good w (fun k => C k ∨ D id ≤ k + 1) st'.buf := by
  obtain ⟨n, hn⟩ : ∃ n, n = w.length + 1 - D id := ⟨_, rfl⟩
  induction n using Nat.strongRecOn generalizing D C st with
  | ind n ih =>
    rw [tail]
    by_cases hc : D id - 1 + 1 < w.length
    · rw [if_pos hc]
      obtain ⟨st1, hs1, inv1⟩ := emit_spec ht inv hid h1 (by omega)
      obtain ⟨st2, hs2, g2⟩ := ih (n - 2) (by omega) inv1 (by simp [upd]) (by
        simp only [upd, if_true]; omega) (by simp only [upd, if_true]; omega)
      simp only [upd, if_true] at hs2 g2
      refine ⟨st2, ?_, g2.mono ?_⟩
      · rw [hs1]
        simp only [Option.bind_eq_bind, Option.bind_some]
        rw [show D id - 1 + 2 = D id + 2 - 1 by omega]
        exact hs2
      · rintro k _ (hk | hk)
        · exact Or.inl (Or.inl (Or.inl hk))
        · by_cases e1 : k = D id - 1
          · exact Or.inl (Or.inl (Or.inr e1))
          · by_cases e2 : k = D id
            · exact Or.inl (Or.inr e2)
            · right; omega
    · rw [if_neg hc]
      by_cases he : D id - 1 ≠ w.length
      · rw [if_pos he]
        have hd : D id = w.length := by omega
        obtain ⟨pr, hf, hok⟩ := ht.row 1 (by omega)
        have q1 : pr.1 = w[0] := hok.1 _ (by
          simp [prevChar, List.getElem?_eq_getElem (show 0 < w.length by omega)])
        have ho : orig w (w.length - 1) = some pr.1 := by
          rw [orig_eq (by omega), q1]
          congr 2; omega
        obtain ⟨b1, hb1, g1⟩ := inv.good.put (show w.length - 1 < w.length by omega) ho
        have hpp := inv.pos id hid
        rw [rowOf, if_neg (by omega), hd, show w.length + 1 - w.length = 1 by omega] at hpp
        refine ⟨{ st with buf := b1 }, ?_, ?_⟩
        · simp only [Option.bind_eq_bind, hpp, Option.bind_some, hf]
          rw [hb1]; rfl
        · apply g1.mono
          rintro k hk (hk' | hk')
          · exact Or.inl hk'
          · right; omega
      · rw [if_neg he]
        refine ⟨st, rfl, inv.good.mono ?_⟩
        rintro k hk (hk' | hk')
        · exact hk'
        · omega

/-- The starting rows of the blocks (what the forward transform records). -/
def StartsOK (w : List UInt8) (lf : List Nat) : Prop :=
  1 ≤ lf.length ∧ lf[0]? = some (rk w 0) ∧
    (2 ≤ (w.length + 1) / lf.length → ∀ id, 1 ≤ id → id < lf.length →
      lf[id]? = some (rk w (w.length + 1 - id * ((w.length + 1) / lf.length))))

theorem inverse_spec {sa : List Nat} {b : List UInt8} {e : Nat} (h : IsSA w sa)
    (hb : IsBWT w sa b e) (hm : 1 ≤ w.length) {lf : List Nat} (hlf : StartsOK w lf) :
    ∃ z, inverse b lf = some (w.reverse ++ [z]) := by
  obtain ⟨t, hct, ht⟩ := computeData_spec h hb hm
  obtain ⟨hl1, hl0, hls⟩ := hlf
  have he : rk w 0 = e := (eob_eq h hb).symm
  -- the shape of the blocks
  obtain ⟨sp, bs, hsb, hbs, h0, hsp, hspl, hrest⟩ : ∃ sp bs,
      (if b.length / lf.length ≤ 1 then (1, b.length) else (lf.length, b.length / lf.length))
        = (sp, bs) ∧ 2 ≤ bs ∧ 1 ≤ sp ∧ sp * bs ≤ w.length + 1 ∧ sp ≤ lf.length ∧
      (∀ id, id < sp → lf[id]? = some (rowOf w (id * bs))) := by
    rw [hb.1]
    by_cases hc : (w.length + 1) / lf.length ≤ 1
    · refine ⟨1, w.length + 1, if_pos hc, by omega, Nat.le_refl _, by omega, hl1, ?_⟩
      intro id hid
      have : id = 0 := by omega
      subst this
      simp [rowOf, hl0]
    · refine ⟨lf.length, (w.length + 1) / lf.length, if_neg hc, by omega, hl1,
        Nat.mul_div_le _ _, Nat.le_refl _, ?_⟩
      intro id hid
      by_cases hid0 : id = 0
      · subst hid0; simp [rowOf, hl0]
      · have hpos : id * ((w.length + 1) / lf.length) ≠ 0 := by
          have : 1 ≤ id * ((w.length + 1) / lf.length) := Nat.mul_pos (by omega) (by omega)
          omega
        rw [rowOf, if_neg hpos]
        exact hls (by omega) id (by omega) hid
  have hlen : b.length = w.length + 1 := hb.1
  obtain ⟨st1, hs1, inv1⟩ := first_spec ht hm hbs hsp h0
    (st := ⟨lf, (List.range sp).map (fun i => i * bs), b⟩) hrest
    (by intro id hid; simp [hid]) hlen
  have hbound : ∀ id, id < sp → id * bs + bs ≤ w.length + 1 := by
    intro id hid
    have : (id + 1) * bs ≤ sp * bs := Nat.mul_le_mul_right _ hid
    rw [Nat.add_mul, Nat.one_mul] at this
    omega
  obtain ⟨st2, hs2, inv2⟩ := rounds_spec ht (bs / 2 - 1) inv1 (by
    intro id hid
    have := hbound id hid
    omega)
  have inv2 : WalkInv w sp (fun id => id * bs + 2 * (bs / 2))
      (covered sp bs (fun id => id * bs + 2 * (bs / 2))) st2 :=
    inv2.congr (by intro id _; omega)
  -- the odd characters
  obtain ⟨st3, hs3, inv3⟩ : ∃ st3, (if bs % 2 = 1 then
        (List.range (sp - 1)).foldlM (emitOdd t bs) st2 else some st2) = some st3 ∧
      WalkInv w sp (fun id => id * bs + 2 * (bs / 2))
        (fun k => covered sp bs (fun id => id * bs + 2 * (bs / 2)) k ∨
          (bs % 2 = 1 ∧ ∃ id, id < sp - 1 ∧ k + 2 = (id + 1) * bs)) st3 := by
    by_cases hodd : bs % 2 = 1
    · obtain ⟨st3, hs3, inv3⟩ := odd_spec ht hbs hodd hsp inv2
      refine ⟨st3, by rw [if_pos hodd]; exact hs3, inv3.pos, inv3.dest, inv3.good.mono ?_⟩
      rintro k _ (hk | hk)
      · exact Or.inl hk
      · exact Or.inr hk.2
    · refine ⟨st2, by rw [if_neg hodd], inv2.pos, inv2.dest, inv2.good.mono ?_⟩
      rintro k _ (hk | hk)
      · exact hk
      · exact absurd hk.1 hodd
  have hlast := hbound (sp - 1) (by omega)
  obtain ⟨st4, hs4, g4⟩ := tail_spec ht inv3 (id := sp - 1) (by omega)
    (by omega) (by omega)
  have hgood : Good w (fun _ => True) st4.buf := by
    apply g4.mono
    intro k hk _
    by_cases hlastk : (sp - 1) * bs + 2 * (bs / 2) ≤ k + 1
    · exact Or.inr hlastk
    · left
      obtain ⟨q, r, hq, hr, hqr⟩ : ∃ q r, k + 1 = q * bs + r ∧ r < bs ∧ q = (k + 1) / bs :=
        ⟨(k + 1) / bs, (k + 1) % bs, by
          rw [Nat.mul_comm]; exact (Nat.div_add_mod _ _).symm, Nat.mod_lt _ (by omega), rfl⟩
      have hqsp : q ≤ sp - 1 := by
        apply Decidable.byContradiction
        intro hc
        have : (sp - 1 + 1) * bs ≤ q * bs := Nat.mul_le_mul_right _ (by omega)
        rw [Nat.add_mul, Nat.one_mul] at this
        omega
      by_cases hr2 : r < 2 * (bs / 2)
      · left
        refine ⟨q, by omega, by omega, ?_⟩
        simp only
        omega
      · right
        have hodd : bs % 2 = 1 := by omega
        have hne : q ≠ sp - 1 := by
          intro hc
          rw [hc] at hq
          omega
        refine ⟨hodd, q, by omega, ?_⟩
        rw [Nat.add_mul, Nat.one_mul]
        omega
  have hz : st4.buf.length = w.length + 1 := hgood.1
  refine ⟨st4.buf[w.length], ?_⟩
  have hres : st4.buf = w.reverse ++ [st4.buf[w.length]] := by
    apply List.ext_getElem?
    intro k
    by_cases hk : k < w.length
    · rw [hgood.2 k hk trivial, List.getElem?_append_left (by simpa using hk)]; rfl
    · rw [List.getElem?_append_right (by simp; omega), List.length_reverse]
      by_cases hk2 : k = w.length
      · subst hk2; simp
      · rw [List.getElem?_eq_none (by omega), List.getElem?_eq_none (by simp; omega)]
  unfold inverse
  rw [if_neg (by omega), hl0, he]
  simp only [Option.bind_eq_bind, Option.bind_some, hct]
  rw [hsb]
  simp only
  rw [hs1]
  simp only [Option.bind_some]
  rw [hs2]
  simp only [Option.bind_some]
  rw [show b.length - 1 = w.length by omega]
  by_cases hodd : bs % 2 = 1
  · rw [if_pos hodd] at hs3 ⊢
    rw [hs3]
    simp only [Option.bind_some]
    rw [hs4]
    simp only [Option.bind_some]
    rw [← hres]; rfl
  · rw [if_neg hodd] at hs3 ⊢
    cases hs3
    rw [hs4]
    simp only [Option.bind_some]
    rw [← hres]; rfl

end Bwtc.InvBWT
