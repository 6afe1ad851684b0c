import Verif.SampleHull.SpatialModel

set_option linter.unusedSectionVars false
set_option linter.unusedVariables false

/-!
Model of the planar `gridSample` of `include/convexHull2d/sampling/sampling.h`. The insertions into the table are those of the
spatial version (`firsts`).
-/

namespace Verif.SampleHull.Planar

open Verif Verif.SampleHull

variable {K : Type} [Field K] [LinearOrder K]

/-- `include/convexHull2d/sampling/sampling.h:61-70`: `pMin`, by the contract of `write_min` (C13). -/
def lowOf (P : List (Point K 2)) (k : Fin 2) : K := (P.map fun p => p k).foldl min (P.headD 0 k)

/-- `include/convexHull2d/sampling/sampling.h:61-70`: `pMax`, by the contract of `write_max` (C13). -/
def highOf (P : List (Point K 2)) (k : Fin 2) : K := (P.map fun p => p k).foldl max (P.headD 0 k)

/-- `include/convexHull2d/sampling/sampling.h:72-73`: `maxSpan`. -/
def span (P : List (Point K 2)) : K := max (max 0 (highOf P 0 - lowOf P 0)) (highOf P 1 - lowOf P 1)

variable [FloorRing K]

/-- `include/convexHull2d/sampling/sampling.h:77-78`: the cell of a point in one direction. The quotient is not negative. -/
def cellOf (lo : Fin 2 → K) (r : K) (p : Point K 2) (k : Fin 2) : ℕ := ⌊(p k - lo k) / r⌋.toNat

/-- `include/convexHull2d/sampling/sampling.h:76-80`: `id`. The sum is below `2 ^ 64` (`c106_no_overflow`). -/
def cellId (di : ℕ) (lo : Fin 2 → K) (r : K) (p : Point K 2) : ℕ := cellOf lo r p 0 * di + cellOf lo r p 1

/-- `include/convexHull2d/sampling/sampling.h:50-89` (`gridSample`). `di` is `ceil(pow(m, 0.5))`, which is positive for positive
`m`; `ord` is the order in which the insertions take effect; `top` is the largest floating point number, which marks an empty point.
If `r` is 0 the quotient in `id` is NaN, whose conversion to an integer is undefined. -/
def gridSample (top : K) (ord : List ℕ) (di : ℕ) (P : List (Point K 2)) : Except Err (List (Point K 2)) :=
  if 2000000 < di then .error .throws
  else if P = [] then .ok []
  else if span P / di = 0 then .error .ub
  else
    let W := firsts (fun i => cellId di (lowOf P) (span P / di) (P.getD i 0)) ord []
    .ok (((List.range P.length).filter fun i => decide (i ∈ W) && decide (P.getD i 0 0 ≠ top)).map fun i => P.getD i 0)

end Verif.SampleHull.Planar
