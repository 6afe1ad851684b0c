import Verif.SpatialGraph.SpannerModel
import Verif.KdTree.WspdFloatModel

/-!
The spanner of `src/spatialGraph/spanner/spanner.cpp` in rounded arithmetic.
-/

namespace Verif.SpatialGraph

open Verif.KdTree

/-- `src/spatialGraph/spanner/spanner.cpp:21`: the separation constant in rounded arithmetic. A zero
divisor (`t - 1` rounded to zero) is not modelled; the theorems exclude it. -/
noncomputable def sepFl (fl : ℝ → ℝ) (t : ℝ) : ℝ := fl (fl (4 * fl (t + 1)) / fl (t - 1))

/-- `src/spatialGraph/spanner/spanner.cpp:9-47` (`spanner`) in rounded arithmetic. -/
noncomputable def spannerFl {d : ℕ} (fl : ℝ → ℝ) (w bs : ℕ) (S : List (Point ℝ d)) (t : ℝ) :
    Except Err (List (ℕ × ℕ)) :=
  if S.length < 2 then .error .throws else
    (buildFl fl w bs (ptAt S) 1 true (List.range S.length)).bind fun tree =>
      (wspdParallelFl fl (geomWellSeparatedFl fl (sepFl fl t)) tree).bind fun wspd =>
        wspd.mapM pairEdge

end Verif.SpatialGraph
