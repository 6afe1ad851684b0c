import Verif.KdTree.WspdModel

/-!
Model of `src/spatialGraph/spanner/spanner.cpp`.
-/

namespace Verif.SpatialGraph

open Verif.KdTree

/-- `include/spatialGraph/edge.h:11-13`: the constructor of an undirected edge orders its ends. -/
def mkEdge (u v : ℕ) : ℕ × ℕ := if u > v then (v, u) else (u, v)

/-- The point with index `i` of the input `S`; items of the tree are indices (the code subtracts
`base` from item pointers, `src/spatialGraph/spanner/spanner.cpp:35-38`). -/
def ptAt {d : ℕ} (S : List (Point ℝ d)) (i : ℕ) : Point ℝ d := (S[i]?).getD 0

/-- `src/spatialGraph/spanner/spanner.cpp:37-39`: the edge between the first items of a pair. -/
def pairEdge {d : ℕ} (p : Tree ℕ ℝ d × Tree ℕ ℝ d) : Except Err (ℕ × ℕ) :=
  match p.1.items, p.2.items with
  | a :: _, b :: _ => .ok (mkEdge a b)
  | _, _ => .error .ub

/-- `src/spatialGraph/spanner/spanner.cpp:9-47` (`spanner`). `abort()` for fewer than two points is an
exception of the model. `w` workers, block size `bs`. -/
noncomputable def spanner {d : ℕ} (w bs : ℕ) (S : List (Point ℝ d)) (t : ℝ) :
    Except Err (List (ℕ × ℕ)) :=
  if S.length < 2 then .error .throws else
    (build w bs (ptAt S) 1 true (List.range S.length)).bind fun tree =>
      (wspdParallel (geomWellSeparated (4 * (t + 1) / (t - 1))) tree).bind fun wspd =>
        wspd.mapM pairEdge

end Verif.SpatialGraph
