import Verif.Divsuf
import Verif.SaisHeap

/-!
# divsufsort when memory runs out

`divbwtf` (divsufsort.c:481-521) with the three arrays it allocates; each `malloc` may fail.
-/

set_option autoImplicit false

namespace Bwtc.DivsufHeap
open Sais (Heap new delete access)
open Divsuf (SsSort TrSort)

/-- `divbwtf(T, T, 0, n, LFpowers, nLFpowers, freqs)` (divsufsort.c:481-521) with its arrays: `B` (line 491), `bucket_A`, `bucket_B` (lines 492-493), released in
lines 516-518 (`free` does nothing for the null pointer).  If one of them is missing only the return value says so (line 513), which
`Divsufsorter::doTransform` (Divsufsorter.hpp:60-65) does not look at. -/
def divbwtf (ss : SsSort) (tr : TrSort) (ok : Nat → Bool) (T : List UInt8) (cells : List Int) (lf freqs : List Nat) (h : Heap) :
    Option ((List UInt8 × List Nat × List Nat) × Heap) :=
  if T.length ≤ 1 then some ((T, lf, freqs), h)
  else
    let (b, h) := new ok (T.length + 1) h
    let (bA, h) := new ok 256 h
    let (bB, h) := new ok 65536 h
    do
      let r ← (if b.isSome && bA.isSome && bB.isSome then do
          access b h
          access bA h
          access bB h
          Divsuf.divbwtf ss tr T cells lf freqs
        else some (T, lf, freqs))
      let h ← delete bB h
      let h ← delete bA h
      let h ← delete b h
      return (r, h)

/-- `BWTransform::doTransform` (BWTransform.cpp:52-64) as in `Divsuf.transform`, with the heap. -/
def transform (ss : SsSort) (tr : TrSort) (ok : Nat → Bool) (cells : List Int) (mem : List UInt8) (pos len starts : Nat) (freqs : List Nat) (h : Heap) :
    Option ((List UInt8 × List Nat × List Nat) × Heap) := do
  let block := (mem.drop pos).take len
  let mem := FwdBWT.blit mem pos block.reverse
  let next ← mem[pos + len]?
  let mem := mem.set (pos + len) 0
  let ((u, lf, freqs), h) ← divbwtf ss tr ok ((mem.drop pos).take (len + 1)) cells (FwdBWT.prepare len starts) freqs h
  let mem := FwdBWT.blit mem pos u
  let p0 ← lf[0]?
  let last ← mem[pos + len]?
  let _ ← mem[pos + p0]?
  let mem := mem.set (pos + p0) last
  return ((mem.set (pos + len) next, lf, freqs), h)

end Bwtc.DivsufHeap
