import Verif.Sais

/-!
# Model of `sais.hxx`: sorting the LMS substrings, the recursion and the entry point

Continues `Verif/Sais.lean`.  Allocations succeed (the `-2` returns are not modelled).
-/

set_option autoImplicit false

namespace Bwtc.Sais

/-! ## Finding the LMS positions -/

/-- The loops that find the LMS positions from right to left (sais.hxx:132-139, 397-404, 590-597; three textual
copies).  `i + 1` is the last position looked at and `c1` its character; `up = false`: in a loop with `>=`, `up = true`: in the
loop with `<=`.  `act` is what is done at `i` when `i + 1` has turned out to be an LMS position. -/
def lmsLoop {σ : Type} (T : List Nat) (act : σ → Nat → Nat → Option σ) : Bool → Nat → Nat → σ → Option σ
  | _, 0, _, s => some s
  | up, i + 1, c1, s =>
    match T[i]? with
    | none => none
    | some c0 =>
      if up then
        if c0 ≤ c1 then lmsLoop T act true i c0 s
        else
          match act s i c1 with
          | none => none
          | some s => lmsLoop T act false i c0 s
      else if c1 ≤ c0 then lmsLoop T act false i c0 s
      else lmsLoop T act true i c0 s

/-- The same from the end of the text (sais.hxx:131-139, 396-404, 589-597). -/
def lmsScan {σ : Type} (T : List Nat) (act : σ → Nat → Nat → Option σ) (s : σ) : Option σ := do
  let c0 ← T[T.length - 1]?
  lmsLoop T act false (T.length - 1) c0 s

/-! ## First part of `stage1sort` -/

/-- The variables of the first loop of `stage1sort`. -/
structure Place where
  sa : List Int
  B : List Nat
  b : Nat
  j : Nat
  m : Nat

/-- `*b = j; b = SA + --B[c1]; j = i; ++m;` (sais.hxx:401). -/
def placeAct (s : Place) (i c1 : Nat) : Option Place := do
  let sa ← put s.sa s.b s.j
  let x ← s.B[c1]?
  if x = 0 then none
  else return ⟨sa, s.B.set c1 (x - 1), x - 1, i, s.m + 1⟩

/-- Lines 394-405 of `stage1sort`: all LMS positions but the leftmost one are put to the ends of their buckets (as
the position before). -/
def place (T : List Nat) (C : List Nat) : Option Place := do
  let n := T.length
  let s ← lmsScan T placeAct ⟨List.replicate n 0, getBuckets C true, n - 1, n, 0⟩
  let sa ← put s.sa (n - 1) 0
  return { s with sa := sa }

/-! ## `LMSsort1` and `LMSpostproc1` -/

/-- Body of the first loop of `LMSsort1` (sais.hxx:83-92). -/
def lms1StepL (T : List Nat) (s : Pass) (i : Nat) : Option Pass := do
  let j ← s.sa[i]?
  if 0 < j then
    let j := j.toNat
    let c0 ← T[j]?
    let (B, b) ← switch s.B s.c1 s.b c0
    let c ← T[j - 1]?
    let sa ← put s.sa b (if c < c0 then inv (j - 1 : Nat) else (j - 1 : Nat))
    return ⟨sa.set i 0, B, c0, b + 1⟩
  else if j < 0 then return { s with sa := s.sa.set i (inv j) }
  else return s

/-- Body of the second loop of `LMSsort1` (sais.hxx:98-105). -/
def lms1StepS (T : List Nat) (s : Pass) (i : Nat) : Option Pass := do
  let j ← s.sa[i]?
  if 0 < j then
    let j := j.toNat
    let c0 ← T[j]?
    let (B, b) ← switch s.B s.c1 s.b c0
    let c ← T[j - 1]?
    if b = 0 then none
    else
      let sa ← put s.sa (b - 1) (if c0 < c then inv j else (j - 1 : Nat))
      return ⟨sa.set i 0, B, c0, b - 1⟩
  else return s

/-- `LMSsort1` (sais.hxx:67-107); returns the array and the contents of `C`. -/
def lmsSort1 (T : List Nat) (k : Nat) (same recount : Bool) (C : List Nat) (sa : List Int) :
    Option (List Int × List Nat) := do
  let n := T.length
  let C ← recounted recount T k C
  let B := getBuckets C false
  if n ≤ 1 then none
  else
    let c1 ← T[n - 1]?
    let b ← B[c1]?
    let c ← T[n - 2]?
    let sa ← put sa b (if c < c1 then inv (n - 2 : Nat) else (n - 2 : Nat))
    let s ← loopUp (lms1StepL T) n 0 ⟨sa, B, c1, b + 1⟩
    let C ← recounted recount T k (if same then s.B else C)
    let B := getBuckets C true
    let b ← B[0]?
    let s ← loopDown (lms1StepS T) n ⟨s.sa, B, 0, b⟩
    return (s.sa, if same then s.B else C)

/-- `for(i = 0; (p = SA[i]) < 0; ++i) { SA[i] = ~p; }` (sais.hxx:119, 223-228). -/
def negRun : Nat → Nat → List Int → Option (Nat × List Int)
  | 0, _, _ => none
  | f + 1, i, sa => do
    let p ← sa[i]?
    if p < 0 then negRun f (i + 1) (sa.set i (inv p)) else some (i, sa)

/-- The loop of lines 121-127 (and 230-238). -/
def gather (m : Nat) : Nat → Nat → Nat → List Int → Option (List Int)
  | 0, _, _, _ => none
  | f + 1, j, i, sa => do
    let p ← sa[i]?
    if p < 0 then
      let sa ← put sa j (inv p)
      if j + 1 = m then return sa.set i 0
      else gather m f (j + 1) (i + 1) (sa.set i 0)
    else gather m f j (i + 1) sa

/-- Lines 119-128 (and 223-239): the complemented entries are moved to the front. -/
def compact (m : Nat) (sa : List Int) : Option (List Int) := do
  let (i, sa) ← negRun (sa.length + 1) 0 sa
  if i < m then gather m (sa.length + 1) i (i + 1) sa else some sa

/-- `SA[m + ((i + 1) >> 1)] = j - i; j = i + 1;` (sais.hxx:136). -/
def lengthAct (m : Nat) (s : List Int × Nat) (i _c1 : Nat) : Option (List Int × Nat) := do
  let sa ← put s.1 (m + (i + 1) / 2) ((s.2 : Int) - i)
  return (sa, i + 1)

/-- `for(j = 0; (j < plen) && (T[p + j] == T[q + j]); ++j) { }`, whether `plen` is reached (sais.hxx:145-146). -/
def sameRun (T : List Nat) : Nat → Nat → Nat → Option Bool
  | 0, _, _ => some true
  | l + 1, p, q => do
    let a ← T[p]?
    let b ← T[q]?
    if a = b then sameRun T l (p + 1) (q + 1) else some false

/-- The variables of the naming loop. -/
structure Naming where
  sa : List Int
  name : Nat
  q : Nat
  qlen : Nat

/-- The comparison of two LMS substrings (sais.hxx:144-147). -/
def nameEq (T : List Nat) (plen qlen p q : Nat) : Option Bool :=
  if plen = qlen ∧ q + plen < T.length then sameRun T plen p q else some false

/-- Body of the naming loop (sais.hxx:143-149). -/
def nameStep (T : List Nat) (m : Nat) (s : Naming) (i : Nat) : Option Naming := do
  let p ← s.sa[i]?
  if p < 0 then none
  else
    let p := p.toNat
    let plen ← s.sa[m + p / 2]?
    if plen < 0 then none
    else
      let plen := plen.toNat
      let eq ← nameEq T plen s.qlen p s.q
      if eq then
        let sa ← put s.sa (m + p / 2) s.name
        return { s with sa := sa }
      else
        let sa ← put s.sa (m + p / 2) (s.name + 1 : Nat)
        return ⟨sa, s.name + 1, p, plen⟩

/-- `LMSpostproc1` (sais.hxx:110-153); returns the array and the number of names. -/
def lmsPost1 (T : List Nat) (m : Nat) (sa : List Int) : Option (List Int × Nat) := do
  let sa ← compact m sa
  let (sa, _) ← lmsScan T (lengthAct m) (sa, T.length - 1)
  let s ← loopUp (nameStep T m) m 0 ⟨sa, 0, T.length, 0⟩
  return (s.sa, s.name)

/-! ## `LMSsort2` and `LMSpostproc2` -/

/-- The variables of the passes of `LMSsort2`: also the number `d` of the class and the last classes `D`. -/
structure Pass2 extends Pass where
  d : Nat
  D : List Nat

/-- `if(n <= j) { d += 1; j -= n; }` (sais.hxx:176, 204). -/
def unflag (n d j : Nat) : Nat × Nat := if n ≤ j then (d + 1, j - n) else (d, j)

/-- `if(D[t] != d) { j += n; D[t] = d; }` (sais.hxx:182, 210) with `t = 2 * c0 + w`. -/
def flag (n : Nat) (D : List Nat) (d c0 : Nat) (w : Bool) (j : Nat) : Option (List Nat × Nat) := do
  let t := 2 * c0 + if w then 1 else 0
  let x ← D[t]?
  return if x ≠ d then (D.set t d, j + n) else (D, j)

/-- Body of the first loop of `LMSsort2` (sais.hxx:175-187). -/
def lms2StepL (T : List Nat) (s : Pass2) (i : Nat) : Option Pass2 := do
  let n := T.length
  let j ← s.sa[i]?
  if 0 < j then
    let (d, j) := unflag n s.d j.toNat
    let c0 ← T[j]?
    let (B, b) ← switch s.B s.c1 s.b c0
    if j = 0 then none
    else
      let c ← T[j - 1]?
      let (D, v) ← flag n s.D d c0 (c < c0) (j - 1)
      let sa ← put s.sa b (if c < c0 then inv v else v)
      return ⟨⟨sa.set i 0, B, c0, b + 1⟩, d, D⟩
  else if j < 0 then return { s with sa := s.sa.set i (inv j) }
  else return s

/-- The loop of lines 189-198, going down from `i`.  `seek`: in the inner loop. -/
def flagLoop (n : Nat) : Bool → Nat → List Int → Option (List Int)
  | false, 0, sa => some sa
  | true, 0, _ => none
  | seek, i + 1, sa =>
    match sa[i]? with
    | none => none
    | some v =>
      if seek then
        if v < n then flagLoop n true i sa else flagLoop n false i (sa.set i (v - n))
      else if 0 < v ∧ v < n then flagLoop n true i (sa.set i (v + n))
      else flagLoop n false i sa

/-- Body of the last loop of `LMSsort2` (sais.hxx:203-213). -/
def lms2StepS (T : List Nat) (s : Pass2) (i : Nat) : Option Pass2 := do
  let n := T.length
  let j ← s.sa[i]?
  if 0 < j then
    let (d, j) := unflag n s.d j.toNat
    let c0 ← T[j]?
    let (B, b) ← switch s.B s.c1 s.b c0
    if j = 0 then none
    else
      let c ← T[j - 1]?
      let (D, v) ← flag n s.D d c0 (c0 < c) (j - 1)
      if b = 0 then none
      else
        let sa ← put s.sa (b - 1) (if c0 < c then inv (v + 1 : Nat) else v)
        return ⟨⟨sa.set i 0, B, c0, b - 1⟩, d, D⟩
  else return s

/-- `LMSsort2` (sais.hxx:158-215); `D` is all zero at the beginning.  `none` also if `n - 2 + n`, the largest of the sums of
a position and `n` that are formed here and in lines 415-428, leaves the range of `int`. -/
def lmsSort2 (T : List Nat) (k : Nat) (C : List Nat) (sa : List Int) : Option (List Int) := do
  let n := T.length
  let B := getBuckets C false
  if n ≤ 1 ∨ 2 ^ 31 ≤ n - 2 + n then none
  else
    let c1 ← T[n - 1]?
    let b ← B[c1]?
    let c ← T[n - 2]?
    let sa ← put sa b (if c < c1 then inv (n - 2 + n : Nat) else (n - 2 + n : Nat))
    let s ← loopUp (lms2StepL T) n 0 ⟨⟨sa, B, c1, b + 1⟩, 0, List.replicate (2 * k) 0⟩
    let sa ← flagLoop n false n s.sa
    let B := getBuckets C true
    let b ← B[0]?
    let s ← loopDown (lms2StepS T) n ⟨⟨sa, B, 0, b⟩, s.d + 1, s.D⟩
    return s.sa

/-- Body of the loop that stores the names (sais.hxx:243-244); the state is the array and `d`. -/
def name2Step (n m : Nat) (s : List Int × Nat) (i : Nat) : Option (List Int × Nat) := do
  let j ← s.1[i]?
  if j < 0 then none
  else
    let j := j.toNat
    if n ≤ j then
      if s.2 = 0 then none
      else
        let sa ← put s.1 (m + (j - n) / 2) (s.2 - 1 : Nat)
        return (sa, s.2 - 1)
    else
      let sa ← put s.1 (m + j / 2) s.2
      return (sa, s.2)

/-- Body of the loop that removes the flags (sais.hxx:249). -/
def unflagStep (n : Nat) (sa : List Int) (i : Nat) : Option (List Int) := do
  let j ← sa[i]?
  if n ≤ j then return sa.set i (j - n) else return sa

/-- `LMSpostproc2` (sais.hxx:218-254).  The names are counted while compacting; here afterwards, in the first `m` cells, which hold exactly
the moved entries. -/
def lmsPost2 (n m : Nat) (sa : List Int) : Option (List Int × Nat) := do
  let sa ← compact m sa
  let name := (sa.take m).countP (fun j => decide ((n : Int) ≤ j))
  if name < m then
    let (sa, _) ← loopDown (name2Step n m) m (sa, name + 1)
    return (sa, name)
  else
    let sa ← loopUp (unflagStep n) m 0 sa
    return (sa, name)

/-! ## `stage1sort` -/

/-- The loop of lines 415-419 (and 424-428) from bucket `i` on: the first LMS entry of each bucket gets a flag. -/
def flagFirst (n : Nat) : List Nat → List Nat → Nat → List Int → Option (List Int)
  | c :: C, b :: B, j, sa =>
    if b ≠ j + c then do
      let v ← sa[b]?
      flagFirst n C B (j + c) (sa.set b (v + n))
    else flagFirst n C B (j + c) sa
  | [], [], _, sa => some sa
  | _, _, _, _ => none

/-- `stage1sort` (sais.hxx:387-443): the array, the contents of `C`, the number `m` of LMS positions and the number of
names.  `two`: `(flags & (16 | 32)) != 0`; `recount`: `(flags & (4 | 64)) != 0`. -/
def stage1 (T : List Nat) (k : Nat) (same recount two : Bool) : Option (List Int × List Nat × Nat × Nat) := do
  let n := T.length
  let C ← getCounts T k
  let s ← place T C
  if 1 < s.m then
    if two then
      let c ← T[s.j + 1]?
      let x ← s.B[c]?
      let sa ← flagFirst n C (s.B.set c (x + 1)) 0 s.sa
      let sa ← lmsSort2 T k C sa
      let (sa, name) ← lmsPost2 n s.m sa
      return (sa, C, s.m, name)
    else
      let (sa, C) ← lmsSort1 T k same recount (if same then s.B else C) s.sa
      let (sa, name) ← lmsPost1 T s.m sa
      return (sa, C, s.m, name)
  else if s.m = 1 then
    let sa ← put s.sa s.b (s.j + 1 : Nat)
    return (sa, if same then s.B else C, 1, 1)
  else return (s.sa, if same then s.B else C, s.m, 0)

/-! ## `suffixsort` -/

/-- The bits of `flags`. -/
structure Flags where
  f1 : Bool := false
  f2 : Bool := false
  f4 : Bool := false
  f8 : Bool := false
  f16 : Bool := false
  f32 : Bool := false
  f64 : Bool := false

/-- Where the bucket arrays go (sais.hxx:522-551, 642-671). -/
def placement (fs k : Nat) : Flags :=
  if k ≤ 256 then
    if k ≤ fs then { f1 := true } else { f1 := true, f2 := true }
  else if k ≤ fs then
    if k ≤ fs - k then {}
    else if k ≤ 1024 then { f2 := true }
    else { f64 := true, f8 := true }
  else { f4 := true, f8 := true }

/-- Which of the two sorting procedures is used (sais.hxx:552-555, 672-675); the differences are taken in `int`. -/
def chooseFlags (n fs k : Nat) : Flags :=
  let f := placement fs k
  if n ≤ (2 ^ 31 - 1) / 2 ∧ 2 ≤ n / k then
    if f.f1 then
      if (k * 2 : Int) ≤ (fs : Int) - k then { f with f32 := true } else { f with f16 := true }
    else if f.f2 = false ∧ f.f4 = false ∧ f.f8 = false ∧ f.f64 = false ∧ (k * 2 : Int) ≤ (fs : Int) - k * 2 then
      { f with f32 := true }
    else f
  else f

/-- `B` and `C` are the same array: in lines 543 and 549. -/
def Flags.same (f : Flags) : Bool := f.f4 || f.f64

/-- `C` lies in the free space behind the suffix array: line 534. -/
def Flags.inside (f : Flags) : Bool := !(f.f1 || f.f4)

/-- The cell where `C` begins if it lies behind the suffix array (sais.hxx:534, 654).  The differences may be negative, that is
outside of the memory. -/
def offC (n fs k : Nat) : Option Int :=
  if (chooseFlags n fs k).inside then some (n + fs - k) else none

/-- The cell where `B` begins if it lies behind the suffix array (sais.hxx:526, 536, 543 and 646, 656, 663). -/
def offB (n fs k : Nat) : Option Int :=
  let f := chooseFlags n fs k
  if f.f2 || f.f4 then none
  else if f.f1 || f.f64 then some (n + fs - k)
  else some (n + fs - k - k)

/-- The cell where `D` begins if it lies behind the suffix array: `D = B - k * 2` (sais.hxx:423).  (`B - k * 2` for a `B` on
the heap is outside of the memory as well.) -/
def offD (n fs k : Nat) : Option (Option Int) :=
  if (chooseFlags n fs k).f32 then some ((offB n fs k).map (· - k * 2)) else none

/-- Overwrite the cells from `off` on. -/
def store (mem : List Int) (off : Nat) (A : List Int) : List Int :=
  mem.take off ++ A ++ mem.drop (off + A.length)

/-- `for(i = m + (n >> 1) - 1, j = m - 1; m <= i; --i) { if(SA[i] != 0) { RA[j--] = SA[i] - 1; } }` (sais.hxx:585-587)
with `t` cells left and `j + 1 = c`; `RA = SA + base`. -/
def moveNames (m base : Nat) : Nat → Nat → List Int → Option (List Int)
  | 0, _, mem => some mem
  | t + 1, c, mem => do
    let v ← mem[m + t]?
    if v ≠ 0 then
      if c = 0 then none
      else
        let mem ← put mem (base + (c - 1)) (v - 1)
        moveNames m base t (c - 1) mem
    else moveNames m base t c mem

/-- The cells as numbers; `none` if one is negative. -/
def toNats : List Int → Option (List Nat)
  | [] => some []
  | v :: A => if v < 0 then none else (toNats A).map (v.toNat :: ·)

/-- `RA[j--] = i + 1;` (sais.hxx:594) with `j + 1` as state. -/
def posAct (base : Nat) (s : List Int × Nat) (i _c1 : Nat) : Option (List Int × Nat) := do
  if s.2 = 0 then none
  else
    let mem ← put s.1 (base + (s.2 - 1)) (i + 1 : Nat)
    return (mem, s.2 - 1)

/-- `SA[i] = RA[SA[i]];` (sais.hxx:598). -/
def mapStep (base : Nat) (mem : List Int) (i : Nat) : Option (List Int) := do
  let v ← mem[i]?
  if v < 0 then none
  else
    let w ← mem[base + v.toNat]?
    return mem.set i w

/-- The free space of the recursive call, and flag 8 if it may overwrite `C` (sais.hxx:577-584). -/
def plan (f : Flags) (k name newfs : Nat) : Nat × Flags :=
  if !(f.f1 || f.f4 || f.f64) then
    if k + name ≤ newfs then (newfs - k, f) else (newfs, { f with f8 := true })
  else (newfs, f)

/-- Stages 1 and 2 of `suffixsort` (sais.hxx:518-608, 638-728) on the memory `mem` of `n + fs` cells, with `rec` for
the recursive call: the flags, the contents of `C`, the number of LMS positions and the memory.
Simplification: what `B` and `D` leave in the free space is not represented, and `C` is kept in the free space and read
back only if it is not counted anew (flag 8). -/
def reduce (rec : List Nat → List Int → Nat → Option (List Int)) (T : List Nat) (mem : List Int) (k : Nat) :
    Option (Flags × List Nat × Nat × List Int) := do
  let n := T.length
  if mem.length < n ∨ k = 0 then none
  else
    let fs := mem.length - n
    let f := chooseFlags n fs k
    let (sa, C, m, name) ← stage1 T k f.same f.same (f.f16 || f.f32)
    let mem := sa ++ mem.drop n
    let mem := if f.inside && !f.f8 then store mem (n + fs - k) (C.map Int.ofNat) else mem
    if name < m then
      if n + fs < m * 2 then none
      else
        let pl := plan f k name (n + fs - m * 2)
        let f := pl.2
        let base := m + pl.1
        let mem ← moveNames m base (n / 2) m mem
        let R ← toNats ((mem.drop base).take m)
        let sub ← rec R (mem.take base) name
        let mem := sub ++ mem.drop base
        let (mem, _) ← lmsScan T (posAct base) (mem, m)
        let mem ← loopUp (mapStep base) m 0 mem
        let C ← if f.inside && !f.f8 then toNats ((mem.drop (n + fs - k)).take k) else some C
        return (f, C, m, mem)
    else return (f, C, m, mem)

/-- `suffixsort` with `isbwt == false`; `fuel` bounds the depth of the recursion. -/
def suffixsort : Nat → List Nat → List Int → Nat → Option (List Int)
  | 0, _, _, _ => none
  | fuel + 1, T, mem, k => do
    let (f, C, m, mem) ← reduce (suffixsort fuel) T mem k
    let sa ← stage3SA T m k f.same f.f8 f.same C (mem.take T.length)
    return sa ++ mem.drop T.length

/-- `suffixsort` with `isbwt == true` and `fs = 0`, with and without starting points. -/
def suffixsortBWT (T : List Nat) (k : Nat) (withLF : Bool) (lf : List Nat) :
    Option (List Int × List Nat × Option Nat) := do
  let (f, C, m, mem) ← reduce (suffixsort T.length) T (List.replicate T.length 0) k
  stage3BWT T m k f.same f.f8 f.same C (mem.take T.length) withLF lf

/-! ## `saisxx_bwt` -/

/-- `if(i != pidx) { U[i] = (char_type)A[i]; ++freqs[U[i]]; }` for all `i` (sais.hxx:822-829) from row `i` on. -/
def writeOut (pidx : Nat) : Nat → List UInt8 → List Int → List Nat → Option (List UInt8 × List Nat)
  | _, [], [], freqs => some ([], freqs)
  | i, t :: T, a :: A, freqs =>
    if i ≠ pidx then
      let c := UInt8.ofNat (a % 256).toNat
      if c.toNat < freqs.length then do
        let (u, freqs) ← writeOut pidx (i + 1) T A (freqs.modify c.toNat (· + 1))
        return (c :: u, freqs)
      else none
    else do
      let (u, freqs) ← writeOut pidx (i + 1) T A freqs
      return (t :: u, freqs)
  | _, _, _, _ => none

/-- `saisxx_bwt(T, T, A, n, LFpowers, 256, freqs)` (sais.hxx:805-830). -/
def saisBwt (T : List UInt8) (lf : List Nat) (freqs : List Nat) : Option (List UInt8 × List Nat × List Nat) := do
  let X := T.map UInt8.toNat
  let lf ← if T.length ≤ 1 then if lf.length = 0 then none else some (lf.set 0 0) else some lf
  if lf.length = 1 then
    let (A, _, pidx) ← suffixsortBWT X 256 false lf
    let pidx ← pidx
    let (u, freqs) ← writeOut pidx 0 T A freqs
    return (u, lf.set 0 pidx, freqs)
  else
    let (A, lf, pidx) ← suffixsortBWT X 256 true lf
    let pidx ← pidx
    let (u, freqs) ← writeOut pidx 0 T A freqs
    return (u, lf, freqs)

/-- `SAISBWTransform::doTransform` called from `BWTransform::doTransform` (SA-IS-bwt.cpp:48-54, BWTransform.cpp:52-64) on
the memory `mem` holding the block at `[pos, pos + len)`, as in `FwdBWT.transform`. -/
def transform (mem : List UInt8) (pos len starts : Nat) (freqs : List Nat) :
    Option (List UInt8 × List Nat × List Nat) := do
  let block := (mem.drop pos).take len
  let mem := FwdBWT.blit mem pos block.reverse
  let next ← mem[pos + len]?
  let mem := mem.set (pos + len) 0
  let (u, lf, freqs) ← saisBwt ((mem.drop pos).take (len + 1)) (FwdBWT.prepare len starts) freqs
  let mem := FwdBWT.blit mem pos u
  let p0 ← lf[0]?
  let last ← mem[pos + len]?
  let _ ← mem[pos + p0]?
  let mem := mem.set (pos + p0) last
  return (mem.set (pos + len) next, lf, freqs)

end Bwtc.Sais
