import Verif.Basic

/-!
# The circular buffer

Model of `utils::CircularBuffer<T>` (Utils.hpp:47-90).
-/

set_option autoImplicit false

namespace Bwtc.CircBuf

/-- The fields of the class.  `data` has `m_length` cells; `none` is an uninitialised cell
(the memory comes from `malloc`). -/
structure CB (α : Type) where
  data : List (Option α)
  head : Nat
  start : Nat
  count : Nat

variable {α : Type}

/-- Constructor (Utils.hpp:50-52). -/
def CB.new (len : Nat) : CB α := ⟨List.replicate len none, 0, 0, 0⟩

/-- `push` (Utils.hpp:74-78).  `none`: write outside the array. -/
def push (v : α) (b : CB α) : Option (CB α) :=
  let head := if b.head ≥ b.data.length then 0 else b.head
  if head < b.data.length then
    some { b with data := b.data.set head (some v), head := head + 1, count := b.count + 1 }
  else none

/-- `full` (Utils.hpp:80-82). -/
def full (b : CB α) : Bool := b.count ≥ b.data.length

/-- `std::copy(m_data + i, m_data + j, ..)`: `none` if the range is not inside the array. -/
def copyRange (d : List (Option α)) (i j : Nat) : Option (List (Option α)) :=
  if i ≤ j ∧ j ≤ d.length then some ((d.drop i).take (j - i)) else none

/-- Collect initialised cells; `none` if an uninitialised cell was copied. -/
def initialised : List (Option α) → Option (List α)
  | [] => some []
  | none :: _ => none
  | some a :: l => (initialised l).map (a :: ·)

/-- `consume` (Utils.hpp:57-72): the elements copied to `to` (their number is the returned
value).  Writes to `to` are not part of this model (see `PairReplace`). -/
def consume (n : Nat) (b : CB α) : Option (List α × CB α) :=
  let len := min n b.count
  if b.start + len ≥ b.data.length then do
    let x ← copyRange b.data b.start b.data.length
    if len < b.data.length - b.start then none  -- unsigned underflow of `newStart`
    else
      let newStart := len - (b.data.length - b.start)
      let y ← copyRange b.data 0 newStart
      let l ← initialised (x ++ y)
      return (l, { b with start := newStart, count := b.count - len })
  else do
    let newStart := b.start + len
    let x ← copyRange b.data b.start newStart
    let l ← initialised x
    return (l, { b with start := newStart, count := b.count - len })

/-- Operations and their results. -/
inductive Op (α : Type) where
  | push (v : α)
  | consume (n : Nat)

def step (b : CB α) : Op α → Option (List α × CB α)
  | .push v => do
    let b ← push v b
    return ([], b)
  | .consume n => consume n b

def run : CB α → List (Op α) → Option (List (List α) × CB α)
  | b, [] => some ([], b)
  | b, op :: ops => do
    let (r, b) ← step b op
    let (rs, b) ← run b ops
    return (r :: rs, b)

/-- Specification: a queue of capacity `cap`; pushing on a full queue is not specified. -/
def specStep (cap : Nat) (q : List α) : Op α → Option (List α × List α)
  | .push v => if q.length < cap then some ([], q ++ [v]) else none
  | .consume n => some (q.take n, q.drop n)

def specRun (cap : Nat) : List α → List (Op α) → Option (List (List α) × List α)
  | q, [] => some ([], q)
  | q, op :: ops => do
    let (r, q) ← specStep cap q op
    let (rs, q) ← specRun cap q ops
    return (r :: rs, q)

/-! ## Lemmas -/

/-- Array index of the `i`-th element of the queue. -/
def idx (cap start i : Nat) : Nat := if start + i < cap then start + i else start + i - cap

/-- The buffer holds the queue `q`: the cells from `start` on, wrapping around. -/
structure Rel (cap : Nat) (b : CB α) (q : List α) : Prop where
  len : b.data.length = cap
  count : b.count = q.length
  bound : q.length ≤ cap
  start : b.start < cap ∨ (cap = 0 ∧ b.start = 0)
  head : (b.start + q.length ≤ cap ∧ b.head = b.start + q.length) ∨
    (cap ≤ b.start + q.length ∧ b.head + cap = b.start + q.length) ∨
    (b.start + q.length = 0 ∧ b.head = cap)
  cells : ∀ i, i < q.length → b.data[idx cap b.start i]? = some q[i]?

theorem initialised_map (l : List α) : initialised (l.map some) = some l := by
  induction l with
  | nil => rfl
  | cons a l ih => simp [initialised, ih]

theorem push_rel {cap : Nat} {b : CB α} {q : List α} (h : Rel cap b q) (hq : q.length < cap) (v : α) :
    ∃ b', push v b = some b' ∧ Rel cap b' (q ++ [v]) := by
  obtain ⟨h1, h2, h3, h4, h5, h6⟩ := h
  have hs : b.start < cap := by omega
  have hhead : (if b.head ≥ cap then 0 else b.head) = idx cap b.start q.length := by
    unfold idx
    split <;> split <;> omega
  have hlt : idx cap b.start q.length < cap := by unfold idx; split <;> omega
  unfold push
  simp only [h1, hhead]
  rw [if_pos hlt]
  refine ⟨_, rfl, by simpa using h1, by simp [h2], by simp; omega, Or.inl hs, ?_, ?_⟩
  · simp only [List.length_append, List.length_cons, List.length_nil]
    unfold idx
    split <;> omega
  · intro i hi
    simp only [List.length_append, List.length_cons, List.length_nil] at hi
    simp only
    by_cases he : i = q.length
    · subst he
      rw [List.getElem?_set_self (by omega)]
      simp
    · have hne : idx cap b.start q.length ≠ idx cap b.start i := by
        unfold idx; split <;> split <;> omega
      rw [List.getElem?_set_ne hne, h6 i (by omega), List.getElem?_append_left (by omega)]

theorem copy_eq {d : List (Option α)} {i n : Nat} {l : List α} (hl : l.length = n)
    (hd : i + n ≤ d.length) (h : ∀ k, k < n → d[i + k]? = some l[k]?) :
    copyRange d i (i + n) = some (l.map some) := by
  unfold copyRange
  rw [if_pos (by omega)]
  congr 1
  apply List.ext_getElem?
  intro k
  rw [List.getElem?_take, List.getElem?_drop]
  split
  · rename_i hk
    rw [h k (by omega), List.getElem?_map]
    rw [List.getElem?_eq_getElem (by omega)]
    rfl
  · rw [List.getElem?_eq_none (by simp; omega)]

theorem consume_rel {cap : Nat} {b : CB α} {q : List α} (h : Rel cap b q) (n : Nat) :
    ∃ b', consume n b = some (q.take n, b') ∧ Rel cap b' (q.drop n) := by
  obtain ⟨h1, h2, h3, h4, h5, h6⟩ := h
  have htake : q.take n = q.take (min n q.length) := by
    rw [List.take_eq_take_iff]; omega
  have hdrop : q.drop n = q.drop (min n q.length) := by
    by_cases hn : n ≤ q.length
    · rw [Nat.min_eq_left hn]
    · rw [Nat.min_eq_right (by omega), List.drop_eq_nil_of_le (by omega),
        List.drop_eq_nil_of_le (by omega)]
  unfold consume
  simp only [h1, h2]
  rw [htake, hdrop]
  obtain ⟨m, hm⟩ : ∃ m, min n q.length = m := ⟨_, rfl⟩
  have hmq : m ≤ q.length := by omega
  rw [hm]
  split
  · rename_i hge
    have hx : copyRange b.data b.start cap = some ((q.take (cap - b.start)).map some) := by
      have := copy_eq (d := b.data) (i := b.start) (n := cap - b.start) (l := q.take (cap - b.start))
        (by simp; omega) (by omega) (by
          intro k hk
          have := h6 k (by omega)
          unfold idx at this
          rw [if_pos (by omega)] at this
          rw [this, List.getElem?_take, if_pos hk])
      rw [show b.start + (cap - b.start) = cap by omega] at this
      exact this
    have hy : copyRange b.data 0 (m - (cap - b.start))
        = some (((q.take m).drop (cap - b.start)).map some) := by
      have := copy_eq (d := b.data) (i := 0) (n := m - (cap - b.start))
        (l := (q.take m).drop (cap - b.start)) (by simp; omega) (by omega) (by
          intro k hk
          have := h6 (cap - b.start + k) (by omega)
          unfold idx at this
          rw [if_neg (by omega)] at this
          rw [show 0 + k = b.start + (cap - b.start + k) - cap by omega, this, List.getElem?_drop,
            List.getElem?_take, if_pos (by omega)])
      rw [Nat.zero_add] at this
      exact this
    have hsplit : q.take (cap - b.start) ++ (q.take m).drop (cap - b.start) = q.take m := by
      have : q.take (cap - b.start) = (q.take m).take (cap - b.start) := by
        rw [List.take_take, Nat.min_eq_left (by omega)]
      rw [this, List.take_append_drop]
    simp only [hx, Option.bind_eq_bind, Option.bind_some]
    rw [if_neg (by omega)]
    simp only [hy, Option.bind_some, ← List.map_append, hsplit, initialised_map, Option.pure_def]
    refine ⟨_, rfl, h1, ?_, ?_, ?_, ?_, ?_⟩
    · simp
    · simp; omega
    · simp only; omega
    · simp only [List.length_drop]; omega
    · intro i hi
      simp only [List.length_drop] at hi
      rw [List.getElem?_drop, ← h6 (m + i) (by omega)]
      simp only
      congr 1
      unfold idx
      split <;> split <;> omega
  · rename_i hlt
    have hx : copyRange b.data b.start (b.start + m) = some ((q.take m).map some) := by
      refine copy_eq (d := b.data) (i := b.start) (n := m) (l := q.take m)
        (by simp; omega) (by omega) ?_
      intro k hk
      have := h6 k (by omega)
      unfold idx at this
      rw [if_pos (by omega)] at this
      rw [this, List.getElem?_take, if_pos hk]
    simp only [hx, Option.bind_eq_bind, Option.bind_some, initialised_map, Option.pure_def]
    refine ⟨_, rfl, h1, ?_, ?_, ?_, ?_, ?_⟩
    · simp
    · simp; omega
    · simp only; omega
    · simp only [List.length_drop]; omega
    · intro i hi
      simp only [List.length_drop] at hi
      rw [List.getElem?_drop, ← h6 (m + i) (by omega)]
      simp only
      congr 1
      unfold idx
      split <;> split <;> omega

theorem new_rel (cap : Nat) : Rel cap (CB.new cap : CB α) [] := by
  refine ⟨by simp [CB.new], rfl, by simp, ?_, ?_, by simp⟩ <;> simp [CB.new] <;> omega

theorem run_rel {cap : Nat} (ops : List (Op α)) {b : CB α} {q q' : List α} {rs : List (List α)}
    (h : Rel cap b q) (hs : specRun cap q ops = some (rs, q')) :
    ∃ b', run b ops = some (rs, b') ∧ Rel cap b' q' := by
  induction ops generalizing b q rs with
  | nil =>
    simp only [specRun, Option.some.injEq, Prod.mk.injEq] at hs
    obtain ⟨rfl, rfl⟩ := hs
    exact ⟨b, rfl, h⟩
  | cons op ops ih =>
    simp only [specRun, Option.bind_eq_bind] at hs
    have hop : ∃ r q1, specStep cap q op = some (r, q1) := by
      cases hh : specStep cap q op with
      | none => simp [hh] at hs
      | some x => exact ⟨x.1, x.2, rfl⟩
    obtain ⟨r, q1, hop⟩ := hop
    rw [hop] at hs
    simp only [Option.bind_some] at hs
    cases hr : specRun cap q1 ops with
    | none => simp [hr] at hs
    | some y =>
      obtain ⟨rs1, q2⟩ := y
      simp only [hr, Option.bind_some, Option.pure_def, Option.some.injEq, Prod.mk.injEq] at hs
      obtain ⟨rfl, rfl⟩ := hs
      have : ∃ b1, step b op = some (r, b1) ∧ Rel cap b1 q1 := by
        cases op with
        | push v =>
          simp only [specStep] at hop
          split at hop
          · rename_i hlt
            simp only [Option.some.injEq, Prod.mk.injEq] at hop
            obtain ⟨rfl, rfl⟩ := hop
            obtain ⟨b1, e1, e2⟩ := push_rel h hlt v
            exact ⟨b1, by simp [step, e1], e2⟩
          · simp at hop
        | consume n =>
          simp only [specStep, Option.some.injEq, Prod.mk.injEq] at hop
          obtain ⟨rfl, rfl⟩ := hop
          exact consume_rel h n
      obtain ⟨b1, e1, e2⟩ := this
      obtain ⟨b2, e3, e4⟩ := ih e2 hr
      exact ⟨b2, by simp [run, e1, e3], e4⟩

theorem full_rel {cap : Nat} {b : CB α} {q : List α} (h : Rel cap b q) :
    full b = decide (cap ≤ q.length) := by
  simp [full, h.len, h.count]

end Bwtc.CircBuf
