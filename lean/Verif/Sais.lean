import Verif.FwdBWT

/-!
# Model of `sais.hxx`: buckets and the last stage

Arrays of `index_type` are lists of integers, the text is a list of natural numbers (bytes in
the outermost call, names in the recursive ones).  An access outside of an array gives `none`.  `index_type` is
`int`: all values are positions, flags below `2n` or their complements; the caller guarantees `n < 2^31`.
`same`: the arrays `B` and `C` are the same memory, so that computing the buckets destroys the counts.
-/

set_option autoImplicit false

namespace Bwtc.Sais

/-- `~z`. -/
def inv (z : Int) : Int := -z - 1

/-- `A[i] = v`. -/
def put (A : List Int) (i : Nat) (v : Int) : Option (List Int) :=
  if i < A.length then some (A.set i v) else none

/-- `getCounts` (sais.hxx:51-55). -/
def getCounts (T : List Nat) (k : Nat) : Option (List Nat) :=
  T.foldlM (fun C c => if c < C.length then some (C.modify c (· + 1)) else none) (List.replicate k 0)

/-- The loops of `getBuckets` (sais.hxx:58-62) from the sum reached so far; `stop` is the argument `end`. -/
def bucketsFrom (stop : Bool) : Nat → List Nat → List Nat
  | _, [] => []
  | sum, c :: C => (if stop then sum + c else sum + c - c) :: bucketsFrom stop (sum + c) C

/-- `getBuckets` (sais.hxx:58-62). -/
def getBuckets (C : List Nat) (stop : Bool) : List Nat := bucketsFrom stop 0 C

/-- `if(recount != false) { getCounts(T, C, n, k); }` (sais.hxx:76, 95, 267, 279, 303, 318, 353, 367). -/
def recounted (recount : Bool) (T : List Nat) (k : Nat) (C : List Nat) : Option (List Nat) :=
  if recount then getCounts T k else some C

/-- `if(c0 != c1) { B[c1] = b - SA; b = SA + B[c1 = c0]; }` (sais.hxx:85, 100, 274, 283, 311, 326, 360, 372): the pointer of the bucket in
use is kept in `b` and written back when another bucket is needed. -/
def switch (B : List Nat) (c1 b c0 : Nat) : Option (List Nat × Nat) :=
  if c0 = c1 then some (B, b)
  else if c1 < B.length then
    match (B.set c1 b)[c0]? with
    | some b' => some (B.set c1 b, b')
    | none => none
  else none

/-- The part of the state that all passes share: the array, the bucket pointers, the bucket in use and its
pointer. -/
structure Pass where
  sa : List Int
  B : List Nat
  c1 : Nat
  b : Nat

/-- `for(i = i0; i < i0 + m; ++i)`. -/
def loopUp {σ : Type} (f : σ → Nat → Option σ) : Nat → Nat → σ → Option σ
  | 0, _, s => some s
  | m + 1, i, s => do
    let s ← f s i
    loopUp f m (i + 1) s

/-- `for(i = m - 1; 0 <= i; --i)`. -/
def loopDown {σ : Type} (f : σ → Nat → Option σ) : Nat → σ → Option σ
  | 0, s => some s
  | i + 1, s => do
    let s ← f s i
    loopDown f i s

/-- `((0 < j) && (T[j - 1] < c1)) ? ~j : j` (sais.hxx:270, 275, 306, 312, 356, 361). -/
def markL (T : List Nat) (j c1 : Nat) : Option Int :=
  if 0 < j then do
    let c ← T[j - 1]?
    return if c < c1 then inv j else j
  else some j

/-- `((j == 0) || (T[j - 1] > c1)) ? ~j : j` (sais.hxx:284). -/
def markS (T : List Nat) (j c1 : Nat) : Option Int :=
  if j = 0 then some (inv j)
  else do
    let c ← T[j - 1]?
    return if c1 < c then inv j else j

/-! ## `computeBWT` -/

/-- State of `computeBWT`: also the starting points and `pidx` (`none` for -1). -/
structure Bwt extends Pass where
  lf : List Nat
  pidx : Option Nat

/-- `if((n - j) % x == 0 && j >= y+1) LFpowers[(n-j)/x] = row` (sais.hxx:309, 324, 329) in the
overload with starting points, nothing in the other one. -/
def note (n : Nat) (xy : Option (Nat × Nat)) (lf : List Nat) (row j : Nat) : Option (List Nat) :=
  match xy with
  | some (x, y) => FwdBWT.record n x y lf row j
  | none => some lf

/-- Body of the first loop of `computeBWT` (sais.hxx:308-315, 358-364). -/
def bwtStepL (T : List Nat) (xy : Option (Nat × Nat)) (s : Bwt) (i : Nat) : Option Bwt := do
  let j ← s.sa[i]?
  if 0 < j then
    let j := j.toNat
    let lf ← note T.length xy s.lf i j
    let c0 ← T[j - 1]?
    let (B, b) ← switch s.B s.c1 s.b c0
    let v ← markL T (j - 1) c0
    let sa ← put (s.sa.set i (inv c0)) b v
    return ⟨⟨sa, B, c0, b + 1⟩, lf, s.pidx⟩
  else if j ≠ 0 then return { s with sa := s.sa.set i (inv j) }
  else return s

/-- Body of the second loop of `computeBWT` (sais.hxx:323-338, 370-378). -/
def bwtStepS (T : List Nat) (xy : Option (Nat × Nat)) (s : Bwt) (i : Nat) : Option Bwt := do
  let j ← s.sa[i]?
  if 0 < j then
    let j := j.toNat
    let lf ← note T.length xy s.lf i j
    let c0 ← T[j - 1]?
    let (B, b) ← switch s.B s.c1 s.b c0
    if b = 0 then none
    else
      let b := b - 1
      let j := j - 1
      let sa := s.sa.set i (c0 : Int)
      if 0 < j then
        let c ← T[j - 1]?
        if c0 < c then
          let lf ← note T.length xy lf b j
          let sa ← put sa b (inv c)
          return ⟨⟨sa, B, c0, b⟩, lf, s.pidx⟩
        else
          let sa ← put sa b j
          return ⟨⟨sa, B, c0, b⟩, lf, s.pidx⟩
      else
        let sa ← put sa b j
        return ⟨⟨sa, B, c0, b⟩, lf, s.pidx⟩
  else if j ≠ 0 then return { s with sa := s.sa.set i (inv j) }
  else
    match xy with
    | some _ => if 0 < s.lf.length then return { s with lf := s.lf.set 0 i, pidx := some i } else none
    | none => return { s with pidx := some i }

/-- The distance `x` of the starting points and the rest `y` (sais.hxx:298-299); `none` for a division by
zero here or in `% x`. -/
def spacing (n : Nat) (withLF : Bool) (len : Nat) : Option (Option (Nat × Nat)) :=
  if withLF then
    if n / len = 0 then none else some (some (n / len, n - n / len * len))
  else some none

/-- `computeBWT` (sais.hxx:293-341 with starting points, 346-381 without), on `n` cells `sa`.  `none` also if the number of
starting points is zero or larger than `n` (division by zero). -/
def computeBWT (T : List Nat) (k : Nat) (same recount : Bool) (C : List Nat) (sa : List Int)
    (withLF : Bool) (lf : List Nat) : Option (List Int × List Nat × Option Nat) := do
  let n := T.length
  let xy ← spacing n withLF lf.length
  let C ← recounted recount T k C
  let B := getBuckets C false
  if n = 0 then none
  else
    let c1 ← T[n - 1]?
    let b ← B[c1]?
    let v ← markL T (n - 1) c1
    let sa ← put sa b v
    let s ← loopUp (bwtStepL T xy) n 0 ⟨⟨sa, B, c1, b + 1⟩, lf, none⟩
    let C ← recounted recount T k (if same then s.B else C)
    let B := getBuckets C true
    let b ← B[0]?
    let s ← loopDown (bwtStepS T xy) n ⟨⟨s.sa, B, 0, b⟩, s.lf, s.pidx⟩
    return (s.sa, s.lf, s.pidx)

/-! ## `induceSA` -/

/-- Body of the first loop of `induceSA` (sais.hxx:272-276). -/
def saStepL (T : List Nat) (s : Pass) (i : Nat) : Option Pass := do
  let j ← s.sa[i]?
  let sa := s.sa.set i (inv j)
  if 0 < j then
    let j := j.toNat - 1
    let c0 ← T[j]?
    let (B, b) ← switch s.B s.c1 s.b c0
    let v ← markL T j c0
    let sa ← put sa b v
    return ⟨sa, B, c0, b + 1⟩
  else return { s with sa := sa }

/-- Body of the second loop of `induceSA` (sais.hxx:282-287). -/
def saStepS (T : List Nat) (s : Pass) (i : Nat) : Option Pass := do
  let j ← s.sa[i]?
  if 0 < j then
    let j := j.toNat - 1
    let c0 ← T[j]?
    let (B, b) ← switch s.B s.c1 s.b c0
    if b = 0 then none
    else
      let b := b - 1
      let v ← markS T j c0
      let sa ← put s.sa b v
      return ⟨sa, B, c0, b⟩
  else return { s with sa := s.sa.set i (inv j) }

/-- `induceSA` (sais.hxx:260-289). -/
def induceSA (T : List Nat) (k : Nat) (same recount : Bool) (C : List Nat) (sa : List Int) :
    Option (List Int) := do
  let n := T.length
  let C ← recounted recount T k C
  let B := getBuckets C false
  if n = 0 then none
  else
    let c1 ← T[n - 1]?
    let b ← B[c1]?
    let v ← markL T (n - 1) c1
    let sa ← put sa b v
    let s ← loopUp (saStepL T) n 0 ⟨sa, B, c1, b + 1⟩
    let C ← recounted recount T k (if same then s.B else C)
    let B := getBuckets C true
    let b ← B[0]?
    let s ← loopDown (saStepS T) n ⟨s.sa, B, 0, b⟩
    return s.sa

/-! ## `stage3sort` -/

/-- `while(q < j) { SA[--j] = 0; }` (sais.hxx:460, 467). -/
def clearTo (q : Nat) : Nat → List Int → Option (List Int)
  | 0, sa => some sa
  | j + 1, sa =>
    if q < j + 1 then do
      let sa ← put sa j 0
      clearTo q j sa
    else some sa

/-- The loops of `stage3sort` (sais.hxx:458-466) with `i` entries left besides `p`; the bucket `c0` of `p` has been entered. -/
def spread (T B : List Nat) : Nat → List Int → Nat → Int → Nat → Option (List Int × Nat)
  | i, sa, j, p, c0 => do
    if j = 0 then none
    else
      let sa ← put sa (j - 1) p
      let j := j - 1
      match i with
      | 0 => return (sa, j)
      | i + 1 => do
        let p ← sa[i]?
        if p < 0 then none
        else
          let c1 ← T[p.toNat]?
          if c1 = c0 then spread T B i sa j p c0
          else
            let q ← B[c1]?
            let sa ← clearTo q j sa
            spread T B i sa (min q j) p c1

/-- The first part of `stage3sort` (sais.hxx:455-468): the sorted LMS positions in `SA[0..m)` are moved to the ends of their
buckets, everything else is cleared. -/
def spreadAll (T : List Nat) (C : List Nat) (m : Nat) (sa : List Int) : Option (List Int) := do
  if 1 < m then
    let B := getBuckets C true
    let p ← sa[m - 1]?
    if p < 0 then none
    else
      let c1 ← T[p.toNat]?
      let q ← B[c1]?
      let sa ← clearTo q T.length sa
      let (sa, j) ← spread T B (m - 1) sa (min q T.length) p c1
      clearTo 0 j sa
  else some sa

/-- `stage3sort` with `isbwt == false` (sais.hxx:477-502); `flag8`: `(flags & 8) != 0`. -/
def stage3SA (T : List Nat) (m k : Nat) (same flag8 recount : Bool) (C : List Nat) (sa : List Int) :
    Option (List Int) := do
  let C ← recounted flag8 T k C
  let sa ← spreadAll T C m sa
  induceSA T k same recount (if same ∧ 1 < m then getBuckets C true else C) sa

/-- `stage3sort` with `isbwt == true` (sais.hxx:447-472, 477-502). -/
def stage3BWT (T : List Nat) (m k : Nat) (same flag8 recount : Bool) (C : List Nat) (sa : List Int) (withLF : Bool)
    (lf : List Nat) : Option (List Int × List Nat × Option Nat) := do
  let C ← recounted flag8 T k C
  let sa ← spreadAll T C m sa
  computeBWT T k same recount (if same ∧ 1 < m then getBuckets C true else C) sa withLF lf

end Bwtc.Sais
