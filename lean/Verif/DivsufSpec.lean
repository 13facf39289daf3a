import Verif.Divsuf
import Verif.Suffix

/-!
# What `sssort` and `trsort` are called for

`sort_typeBstar` calls two sorting procedures.  This file says what they have to do, in terms of the text and of the numbers in the
array only.
-/

set_option autoImplicit false

namespace Bwtc.Divsuf
open Induce Suffix

/-- The substring number `i` of those that start at the positions `P 0 < P 1 < ... < P (m - 1)`: up to the two characters at the start of
the next one, the last one up to the end of the text. -/
def sub (T : List Nat) (P : Nat → Nat) (m i : Nat) : List Nat :=
  if i + 1 < m then (T.drop (P i)).take (P (i + 1) + 2 - P i) else T.drop (P i)

/-- Substring `i` is in front of substring `j`; the last one is in front of those that are equal to it. -/
def before (T : List Nat) (P : Nat → Nat) (m i j : Nat) : Prop :=
  sub T P m i < sub T P m j ∨ (sub T P m i = sub T P m j ∧ i + 1 = m ∧ j + 1 ≠ m)

/-- The substrings are equal and none of them is the last one. -/
def same (T : List Nat) (P : Nat → Nat) (m i j : Nat) : Prop := sub T P m i = sub T P m j ∧ i + 1 ≠ m ∧ j + 1 ≠ m

/-- The number in a cell, with its mark removed. -/
def dec (v : Int) : Nat := if v < 0 then (-1 - v).toNat else v.toNat

/-- The cells from `a` to `b` hold distinct numbers of substrings in sorted order; marked are those that are equal to the one in front. -/
structure Sorted (T : List Nat) (P : Nat → Nat) (m a b : Nat) (sa : List Int) : Prop where
  first : ∀ v, a < b → sa[a]? = some v → 0 ≤ v
  step : ∀ r v w, a ≤ r → r + 1 < b → sa[r]? = some v → sa[r + 1]? = some w →
    (0 ≤ w ∧ before T P m (dec v) (dec w)) ∨ (w < 0 ∧ same T P m (dec v) (dec w))

/-- What `sssort(T, PAb, SA + first, SA + last, buf, bufsize, 2, n, lastsuffix)` is called for. -/
structure SsCall (T : List Nat) (P : Nat → Nat) (m : Nat) (sa : List Int) (pa first last buf bufsize : Nat) (lastsuffix : Bool) : Prop where
  starts : ∀ i, i < m → sa[pa + i]? = some (P i : Int)
  up : ∀ i, i + 1 < m → P i < P (i + 1)
  room : ∀ i, i < m → P i + 2 ≤ T.length
  star : ∀ i, i < m → ch T (P i) < ch T (P i + 1)
  apart : last ≤ buf ∧ buf + bufsize ≤ pa
  size : last - first < 2 ^ 31
  more : first + 1 < last
  cells : ∀ r, first ≤ r → r < last → ∃ i, i < m ∧ sa[r]? = some (i : Int)
  distinct : ∀ r r', first ≤ r → r < last → first ≤ r' → r' < last → sa[r]? = sa[r']? → r = r'
  depth : ∀ (r r' i j : Nat), first ≤ r → r < last → first ≤ r' → r' < last → sa[r]? = some (i : Int) → sa[r']? = some (j : Int) →
    (T.drop (P i)).take 2 = (T.drop (P j)).take 2
  flag : lastsuffix = true ↔ sa[first]? = some ((m - 1 : Nat) : Int)
  rest : ∀ r, first < r → r < last → sa[r]? ≠ some ((m - 1 : Nat) : Int)

/-- A correct `sssort`. -/
def SsOk (ss : SsSort) : Prop := ∀ T P m sa pa first last buf bufsize lastsuffix,
  SsCall T P m sa pa first last buf bufsize lastsuffix →
  ∃ sa', ss T sa pa first last buf bufsize 2 lastsuffix = some sa' ∧ sa'.length = sa.length ∧
    (∀ r, (r < first ∨ last ≤ r) → (r < buf ∨ buf + bufsize ≤ r) → sa'[r]? = sa[r]?) ∧
    (∀ i : Nat, (∃ r, first ≤ r ∧ r < last ∧ sa[r]? = some (i : Int)) ↔ ∃ r v, first ≤ r ∧ r < last ∧ sa'[r]? = some v ∧ dec v = i) ∧
    Sorted T P m first last sa'

/-- The numbers are ranks: groups of equal ranks, the rank of a group is the number of the last cell of the group.  The last
position is alone in its group. -/
structure Ranks (rs : List Nat) : Prop where
  rank : ∀ i, i < rs.length → ch rs i + 1 = cnt rs.length (fun j => ch rs j ≤ ch rs i)
  last : ∀ i, i + 1 < rs.length → ch rs i ≠ ch rs (rs.length - 1)

/-- Cell `r` belongs to a group of a single position. -/
def Single (rs : List Nat) (r : Nat) : Prop := ∃ i, i < rs.length ∧ ch rs i = r ∧ ∀ j, j < rs.length → ch rs j = r → j = i

/-- What `trsort(ISAb, SA, m, 1)` is called for: ranks in `ISAb`; the members of every group of more than one position are in the cells of the group;
the first cell of a maximal run of other cells holds the negated length of the run. -/
structure TrCall (rs : List Nat) (sa : List Int) (base : Nat) : Prop where
  ranks : Ranks rs
  isa : ∀ i, i < rs.length → sa[base + i]? = some (ch rs i : Int)
  apart : rs.length ≤ base
  group : ∀ r, r < rs.length → ¬ Single rs r → ∃ i, i < rs.length ∧ sa[r]? = some (i : Int) ∧
    cnt rs.length (fun j => ch rs j < ch rs i) ≤ r ∧ r ≤ ch rs i
  distinct : ∀ r r', r < rs.length → r' < rs.length → ¬ Single rs r → ¬ Single rs r' → sa[r]? = sa[r']? → r = r'
  run : ∀ a d, 0 < d → a + d ≤ rs.length → (∀ r, a ≤ r → r < a + d → Single rs r) → (a = 0 ∨ ¬ Single rs (a - 1)) →
    (a + d = rs.length ∨ ¬ Single rs (a + d)) → sa[a]? = some (-(d : Int))

/-- A correct `trsort` for up to `N` suffixes: the ranks of the suffixes of the sequence of ranks. -/
def TrOk (N : Nat) (tr : TrSort) : Prop := ∀ rs sa isa, 0 < rs.length → rs.length ≤ N → TrCall rs sa isa →
  ∃ sa', tr sa isa rs.length 1 = some sa' ∧ sa'.length = sa.length ∧
    (∀ r, (rs.length ≤ r ∧ r < isa) ∨ isa + rs.length ≤ r → sa'[r]? = sa[r]?) ∧
    ∀ i, i < rs.length → sa'[isa + i]? = some (row rs i : Int)

end Bwtc.Divsuf
