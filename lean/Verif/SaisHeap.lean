import Verif.SaisSort

/-!
# The heap arrays of SA-IS

`suffixsort` (sais.hxx:505-622) allocates its bucket arrays with `new` if they do not fit behind the suffix array, and `stage1sort` the array `D`.
Every request may fail; this file follows the pointers `Cp`, `Bp` and `D` through all levels of the recursion.
-/

set_option autoImplicit false

namespace Bwtc.Sais

/-! ## The heap -/

/-- The heap: how many arrays were asked for, the arrays that are held (number of the request and cells), and the largest number of cells held together so far. -/
structure Heap where
  reqs : Nat
  live : List (Nat × Nat)
  peak : Nat
deriving DecidableEq, Repr

/-- The cells held. -/
def cells : List (Nat × Nat) → Nat
  | [] => 0
  | a :: l => a.2 + cells l

/-- Nothing is held. -/
def Heap.empty : Heap := ⟨0, [], 0⟩

/-- `try { p = new index_type[k]; } catch(...) { p = 0; }` (sais.hxx:413, 523, 529, 539, 547, 600, 605): the request with number `i` succeeds if `ok i`. -/
def new (ok : Nat → Bool) (k : Nat) (h : Heap) : Option Nat × Heap :=
  if ok h.reqs then (some h.reqs, ⟨h.reqs + 1, (h.reqs, k) :: h.live, max h.peak (k + cells h.live)⟩)
  else (none, ⟨h.reqs + 1, h.live, h.peak⟩)

/-- `delete[] p`: nothing for the null pointer, undefined behaviour (`none`) for an array that is not held. -/
def delete : Option Nat → Heap → Option Heap
  | none, h => some h
  | some p, h => if h.live.any (·.1 == p) then some { h with live := h.live.eraseP (·.1 == p) } else none

/-- Working on the array behind a pointer; the null pointer stands for an array behind the suffix array.  `none` if the array is not held. -/
def access (p : Option Nat) (h : Heap) : Option Unit :=
  match p with
  | none => some ()
  | some p => if h.live.any (·.1 == p) then some () else none

/-! ## `suffixsort` -/

/-- What the allocations depend on, with the values of `reduce`: the number of LMS positions, and the recursive call (text, memory, number of names) if there is one. -/
def subproblem (T : List Nat) (mem : List Int) (k : Nat) : Option (Nat × Option (List Nat × List Int × Nat)) := do
  let n := T.length
  if mem.length < n ∨ k = 0 then none
  else
    let fs := mem.length - n
    let f := chooseFlags n fs k
    let (sa, C, m, name) ← stage1 T k f.same f.same (f.f16 || f.f32)
    let mem := sa ++ mem.drop n
    let mem := if f.inside && !f.f8 then store mem (n + fs - k) (C.map Int.ofNat) else mem
    if name < m then
      if n + fs < m * 2 then none
      else
        let base := m + (plan f k name (n + fs - m * 2)).1
        let mem ← moveNames m base (n / 2) m mem
        let R ← toNats ((mem.drop base).take m)
        return (m, some (R, mem.take base, name))
    else return (m, none)

/-- Lines 520-551: `Cp` and `Bp`, and `false` if the function returns -2. -/
def acquire (ok : Nat → Bool) (f : Flags) (k : Nat) (h : Heap) : Bool × Option Nat × Option Nat × Heap :=
  if f.f1 then
    match new ok k h with
    | (none, h) => (false, none, none, h)
    | (some c, h) =>
      if f.f2 then
        match new ok k h with
        | (none, h) => (false, some c, none, h)
        | (some b, h) => (true, some c, some b, h)
      else (true, some c, none, h)
  else if f.f4 then
    match new ok k h with
    | (none, h) => (false, none, none, h)
    | (some c, h) => (true, some c, some c, h)
  else if f.f2 then
    match new ok k h with
    | (none, h) => (false, none, none, h)
    | (some b, h) => (true, none, some b, h)
  else (true, none, none, h)

/-- `stage1sort` (sais.hxx:387-443): it works on both arrays; `D` is allocated in line 413 and deleted in line 421. -/
def stage1Heap (ok : Nat → Bool) (f : Flags) (k m : Nat) (c b : Option Nat) (h : Heap) : Option (Bool × Heap) := do
  access c h
  access b h
  if 1 < m ∧ f.f16 = true then
    match new ok (k * 2) h with
    | (none, h) => return (false, h)
    | (some d, h) =>
      access c h
      access b h
      access (some d) h
      let h ← delete (some d) h
      return (true, h)
  else return (true, h)

/-- `if(flags & (1 | 4)) { delete[] Cp; } if(flags & 2) { delete[] Bp; }` (sais.hxx:568-569, 618-619). -/
def release (f : Flags) (c b : Option Nat) (h : Heap) : Option Heap := do
  let h ← (if f.f1 || f.f4 then delete c h else some h)
  if f.f2 then delete b h else some h

/-- `if(flags & 4) { delete[] Cp; } if(flags & 2) { delete[] Bp; }` before the recursive call (sais.hxx:576-577). -/
def beforeCall (f : Flags) (c b : Option Nat) (h : Heap) : Option Heap := do
  let h ← (if f.f4 then delete c h else some h)
  if f.f2 then delete b h else some h

/-- Lines 599-607, after the recursive call. -/
def afterCall (ok : Nat → Bool) (f : Flags) (k : Nat) (c b : Option Nat) (h : Heap) : Option (Bool × Option Nat × Option Nat × Heap) :=
  if f.f4 then
    match new ok k h with
    | (none, h) => some (false, none, b, h)
    | (some c, h) => some (true, some c, some c, h)
  else if f.f2 then
    match new ok k h with
    | (none, h) => do
      let h ← (if f.f1 then delete c h else some h)
      return (false, c, none, h)
    | (some b, h) => some (true, c, some b, h)
  else some (true, c, b, h)

/-- Stage 3 works on both arrays, which are deleted then (sais.hxx:611-619). -/
def finish (f : Flags) (c b : Option Nat) (h : Heap) : Option (Bool × Heap) := do
  access c h
  access b h
  let h ← release f c b h
  return (true, h)

/-- `suffixsort` (sais.hxx:505-622; 625-742 is the same with starting points) as far as the heap is concerned; `false` is the return value -2.  `none`: an array
is used or deleted that is not held. -/
def sortHeap (ok : Nat → Bool) : Nat → List Nat → List Int → Nat → Heap → Option (Bool × Heap)
  | 0, _, _, _, _ => none
  | fuel + 1, T, mem, k, h => do
    let f := chooseFlags T.length (mem.length - T.length) k
    match acquire ok f k h with
    | (false, _, _, h) => return (false, h)
    | (true, c, b, h) =>
      let (m, sub) ← subproblem T mem k
      let (r, h) ← stage1Heap ok f k m c b h
      if r = false then
        let h ← release f c b h
        return (false, h)
      else
        match sub with
        | none => finish f c b h
        | some (R, mem, name) =>
          let h ← beforeCall f c b h
          let (r, h) ← sortHeap ok fuel R mem name h
          if r = false then
            let h ← (if f.f1 then delete c h else some h)
            return (false, h)
          else
            match ← afterCall ok f k c b h with
            | (false, _, _, h) => return (false, h)
            | (true, c, b, h) => finish f c b h

/-! ## After a failure -/

/-- `saisxx_bwt` (sais.hxx:805-830) if `suffixsort` returns -2: the text stays, and -2 becomes the only starting point; several starting points stay as they are. -/
def saisBwtFailed (T : List UInt8) (lf : List Nat) : List UInt8 × List Nat :=
  (T, if lf.length = 1 then lf.set 0 (2 ^ 32 - 2) else lf)

/-- `BWTransform::doTransform` (BWTransform.cpp:52-64) as in `transform`, if the sorter fails. -/
def transformFailed (mem : List UInt8) (pos len starts : Nat) : Option (List UInt8 × List Nat) := do
  let block := (mem.drop pos).take len
  let mem := FwdBWT.blit mem pos block.reverse
  let next ← mem[pos + len]?
  let mem := mem.set (pos + len) 0
  let (u, lf) := saisBwtFailed ((mem.drop pos).take (len + 1)) (FwdBWT.prepare len starts)
  let mem := FwdBWT.blit mem pos u
  let p0 ← lf[0]?
  let last ← mem[pos + len]?
  let _ ← mem[pos + p0]?
  let mem := mem.set (pos + p0) last
  return (mem.set (pos + len) next, lf)

end Bwtc.Sais
