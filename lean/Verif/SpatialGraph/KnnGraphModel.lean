import Verif.KdTree.KnnModel
import Verif.KdTree.Model
import Verif.Par.SplitModel

/-!
Model of `src/spatialGraph/knnGraph/knnGraph.cpp`.
-/

namespace Verif.SpatialGraph

open Verif.KdTree Verif.KnnBuf

variable {K : Type} {d : ℕ} [Field K] [LinearOrder K]

/-- `src/spatialGraph/knnGraph/knnGraph.cpp:25-31`: the writes to `edges` made for query `i` with
neighbour row `row`; `jj` counts the entries different from `i`. -/
def edgeWrites (k i : ℕ) (row : List ℕ) : List (ℕ × (ℕ × ℕ)) :=
  (row.filter (· ≠ i)).zipIdx.map fun e => (i * k + e.2, (i, e.1))

/-- `src/spatialGraph/knnGraph/knnGraph.cpp:24-32`: the writes of the whole parallel loop. -/
def allWrites (k : ℕ) (rows : List (List ℕ)) : List (ℕ × (ℕ × ℕ)) :=
  rows.zipIdx.flatMap fun r => edgeWrites k r.2 r.1

/-- `src/spatialGraph/knnGraph/knnGraph.cpp:23-34`: run the writes, in the order `ord`, on an array of
`k * n` edges. Entries never written stay empty edges (`none`); writing outside the array is
undefined. -/
def runEdges (ord : List (ℕ × (ℕ × ℕ)) → List (ℕ × (ℕ × ℕ))) (k n : ℕ) (rows : List (List ℕ)) :
    Except Err (List (Option (ℕ × ℕ))) :=
  match Par.runWrites (k * n) (ord (allWrites k rows)) with
  | none => .error .ub
  | some out => .ok out

/-- `src/spatialGraph/knnGraph/knnGraph.cpp:13-35` (`knnGraph`). `P.size()-1` wraps around for the empty
input. `batchKnn` builds its own tree with leaf size 16 (`include/kdTree/knnImpl.h:214-219`,
`include/kdTree/kdTree.h:44`). -/
def knnGraph {n : ℕ} (w bs : ℕ) (nth : Nth (Fin n) K)
    (srt : List (Slot (Fin n) K) → List (Slot (Fin n) K)) (sorted : Bool)
    (dist : Point K d → Point K d → K) (ord : List (ℕ × (ℕ × ℕ)) → List (ℕ × (ℕ × ℕ)))
    (P : Fin n → Point K d) (k : ℕ) : Except Err (List (Option (ℕ × ℕ))) :=
  if k < 1 ∨ (1 ≤ n ∧ k > n - 1) then .error .throws else
    (build w bs P 16 true (List.finRange n)).bind fun t =>
      (batchKnn nth srt dist P (k + 1) t sorted).bind fun rows =>
        runEdges ord k n (rows.map fun r => r.map fun x => x.val)

end Verif.SpatialGraph
