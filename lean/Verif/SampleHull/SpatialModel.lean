import Mathlib.Algebra.Order.Floor.Ring
import Mathlib.Data.Rat.Floor
import Verif.SampleHull.Model
import Verif.QHull.ParModel

set_option linter.unusedSectionVars false
set_option linter.unusedVariables false

/-!
Model of the sampling hulls in space: `src/convexHull3d/sampling/hull.cpp` and `gridSample` of
`include/convexHull3d/sampling/sampling.h`. `randomSample` and `randomProjection` of that file (lines 13-48) have the same text as
their planar versions, which are modelled for every dimension in `SampleHull/Model.lean`.
-/

namespace Verif.SampleHull

open Verif Verif.QHull Verif.Hull3d

variable {K : Type} [Field K] [LinearOrder K]

section grid

/-- `include/convexHull3d/sampling/sampling.h:66-76`: `pMin`, by the contract of `write_min` (C13). -/
def lowOf (P : List (P3 K)) (k : Fin 3) : K := (P.map fun p => p k).foldl min (P.headD 0 k)

/-- `include/convexHull3d/sampling/sampling.h:66-76`: `pMax`, by the contract of `write_max` (C13). -/
def highOf (P : List (P3 K)) (k : Fin 3) : K := (P.map fun p => p k).foldl max (P.headD 0 k)

/-- `include/convexHull3d/sampling/sampling.h:78-79`: `maxSpan`. -/
def span (P : List (P3 K)) : K :=
  max (max (max 0 (highOf P 0 - lowOf P 0)) (highOf P 1 - lowOf P 1)) (highOf P 2 - lowOf P 2)

variable [FloorRing K]

/-- `include/convexHull3d/sampling/sampling.h:83-85`: the cell of a point in one direction. The quotient is not negative. -/
def cellOf (lo : Fin 3 → K) (r : K) (p : P3 K) (k : Fin 3) : ℕ := ⌊(p k - lo k) / r⌋.toNat

/-- `include/convexHull3d/sampling/sampling.h:82-87`: `id`. The sum is below `2 ^ 64` (`c77_no_overflow`). -/
def cellId (di : ℕ) (lo : Fin 3 → K) (r : K) (p : P3 K) : ℕ :=
  cellOf lo r p 0 * di * di + cellOf lo r p 1 * di + cellOf lo r p 2

/-- `include/convexHull3d/sampling/sampling.h:89-93`: the indices whose insertion returns true, for insertions that take effect in the
given order into a table of keys. The table (parlay, external) is used by contract: an insertion returns whether the key is new. -/
def firsts (key : ℕ → ℕ) : List ℕ → List ℕ → List ℕ
  | [], _ => []
  | i :: l, T => if key i ∈ T then firsts key l T else i :: firsts key l (key i :: T)

/-- `include/convexHull3d/sampling/sampling.h:50-96` (`gridSample`). `di` is `ceil(pow(m, 0.33333))`, which is positive for positive
`m`; `ord` is the order in which the insertions take effect; `top` is the largest floating point number, which marks an empty point.
If `r` is 0 the quotient in `id` is NaN, whose conversion to an integer is undefined. -/
def gridSample (top : K) (ord : List ℕ) (di : ℕ) (P : List (P3 K)) : Except Err (List (P3 K)) :=
  if 2000000 < di then .error .throws
  else if P = [] then .ok []
  else if span P / di = 0 then .error .ub
  else
    let W := firsts (fun i => cellId di (lowOf P) (span P / di) (P.getD i 0)) ord []
    .ok (((List.range P.length).filter fun i => decide (i ∈ W) && decide (P.getD i 0 0 ≠ top)).map fun i => P.getD i 0)

end grid

/-- `include/convexHull3d/sampling/filter.h:178-180`: the facets of the hull of the sample, as the filter stores them. -/
def filterFacets (H : List (IFacet K)) : List (Facet K 3) := H.map fun f => facet3 f.a f.b f.c

/-- `src/convexHull3d/sampling/hull.cpp:39-80` (`compute`), `92-100` (`random`), `109-118` (`grid`), `127-136` (`projection`), which
differ in the sampling routine only. `limit` is 1000 in the code, `size` is `size_t(P.size() * fraction)`, `serial` and `par` are the
two quickhulls. -/
def compute3 (limit w bs : ℕ) (serial par : List (P3 K) → Except Err (List (IFacet K)))
    (sample : List (P3 K) → ℕ → Except Err (List (P3 K))) (size : ℕ) (sched : List ℕ) (P : List (P3 K)) :
    Except Err (List (IFacet K)) :=
  if P.length < limit then serial P
  else
    (sample P (max size 5)).bind fun S =>
      (serial S).bind fun H => (filter2 w bs corners3 sched P (filterFacets H)).bind par

/-- `src/convexHull3d/sampling/hull.cpp:92-100` (`random`), with the quickhulls of C64 and C66. -/
def random3 (w bs : ℕ) (eps : K) (fuel : ℕ) (pick : Pick K) (numProc : ℕ) (o : ℕ → Oracle K) (h : ℕ → ℕ) (size : ℕ)
    (sched : List ℕ) (P : List (P3 K)) : Except Err (List (IFacet K)) :=
  compute3 1000 w bs (QHull.compute eps fuel) (parCompute eps fuel pick numProc o) (randomSample h) size sched P

/-- `src/convexHull3d/sampling/hull.cpp:39-80` (`compute`) and `127-136` (`projection`), which are the same. -/
def projection3 (w bs : ℕ) (eps : K) (fuel : ℕ) (pick : Pick K) (numProc : ℕ) (o : ℕ → Oracle K) (mm : List K → ℕ × ℕ)
    (h : ℕ → ℕ) (size : ℕ) (sched : List ℕ) (P : List (P3 K)) : Except Err (List (IFacet K)) :=
  compute3 1000 w bs (QHull.compute eps fuel) (parCompute eps fuel pick numProc o) (randomProjection mm h) size sched P

/-- `src/convexHull3d/sampling/hull.cpp:109-118` (`grid`). `dim m` is `ceil(pow(m, 0.33333))`. -/
def grid3 [FloorRing K] (w bs : ℕ) (eps : K) (fuel : ℕ) (pick : Pick K) (numProc : ℕ) (o : ℕ → Oracle K) (top : K)
    (ord : List ℕ) (dim : ℕ → ℕ) (size : ℕ) (sched : List ℕ) (P : List (P3 K)) : Except Err (List (IFacet K)) :=
  compute3 1000 w bs (QHull.compute eps fuel) (parCompute eps fuel pick numProc o)
    (fun P m => gridSample top ord (dim m) P) size sched P

end Verif.SampleHull
