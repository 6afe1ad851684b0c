import Mathlib.Data.List.Sort
import Verif.QHull.Model

set_option linter.unusedSectionVars false
set_option linter.unusedVariables false

/-!
Model of `computeVertex` of the sequential quickhull: the vertices of the hull, sorted, with adjacent copies removed.
-/

namespace Verif.QHull

open Verif Verif.Hull3d

variable {K : Type} [Field K] [LinearOrder K]

/-- `include/pargeo/point.h:75-83` (`operator<`): points are compared by the sum of their coordinates. -/
def csum (p : P3 K) : K := p 0 + p 1 + p 2

/-- Contract of `parlay::sort_inplace` (external): a permutation in which no element is smaller than an earlier one, with respect
to `operator<`. Serves
`include/convexHull3d/hullTopology.h` lines 414-427. -/
structure SortOK (sort : List (P3 K) → List (P3 K)) : Prop where
  perm : ∀ l, (sort l).Perm l
  sorted : ∀ l, (sort l).Pairwise fun p q => ¬ csum q < csum p

/-- Tail of `parlay::unique` (external): an element is kept if it differs (`operator==`, `include/pargeo/point.h:89-92`) from its
predecessor in the input. -/
def uniqFrom (prev : P3 K) : List (P3 K) → List (P3 K)
  | [] => []
  | q :: l => if q = prev then uniqFrom q l else q :: uniqFrom q l

/-- `parlay::unique` (external). Serves
`include/convexHull3d/hullTopology.h` lines 414-427. -/
def uniq : List (P3 K) → List (P3 K)
  | [] => []
  | p :: l => p :: uniqFrom p l

/-- `include/convexHull3d/hullTopology.h:414-427` (`getVertex`). -/
def getVertex (fuel : ℕ) (sort : List (P3 K) → List (P3 K)) (st : Hull K) (o : P3 K) : Except Err (List (P3 K)) :=
  (dfsFacet st (fun (out : List (P3 K)) _ f => out ++
      [fun i => f.a i + o i, fun i => f.b i + o i, fun i => f.c i + o i])
    (fun _ => false) fuel [some st.H] [] []).map fun out => uniq (sort out)

/-- `src/convexHull3d/serialQuickHull/hull.cpp:14-27` (`computeVertex`); there is no small case. -/
def computeVertex (eps : K) (fuel : ℕ) (sort : List (P3 K) → List (P3 K)) (P : List (P3 K)) : Except Err (List (P3 K)) :=
  (initSerial eps P).bind fun (st, o) => (quickHull eps fuel fuel st).bind fun st => getVertex fuel sort st o

end Verif.QHull
