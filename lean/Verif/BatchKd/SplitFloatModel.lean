import Verif.BatchKd.TreeModel
import Mathlib.Data.Real.Basic

set_option linter.unusedSectionVars false
set_option linter.unusedVariables false

/-!
The builds of the batch kd-tree in rounded arithmetic. The only arithmetic of a build is the middle of two
coordinates, `(a + b) / 2`; sorting, selecting and partitioning compare coordinates. The rest of the build is
as in `Verif.BatchKd.TreeModel`.
-/

namespace Verif.BatchKd

variable {α : Type} {d : ℕ}

/-- `include/batchKdtree/shared/utils.h:61-63` and 200, 221: the middle of two coordinates. -/
noncomputable def midFl (fl : ℝ → ℝ) (a b : ℝ) : ℝ := fl (fl (a + b) / 2)

/-- `include/batchKdtree/shared/utils.h:96-105` (`parallelMedianPartition`, sorting version) with
`split_val` (61-63) in rounded arithmetic. -/
noncomputable def parallelMedianFl (fl : ℝ → ℝ) (srt : Fin d → List α → List α) (pos : α → Point ℝ d) (dim : Fin d)
    (L : List α) : List α × ℝ × ℕ :=
  let L' := srt dim L
  (L', midFl fl (((L'[L.length / 2 - 1]?).map fun x => pos x dim).getD 0)
    (((L'[L.length / 2]?).map fun x => pos x dim).getD 0), L.length / 2)

/-- `include/batchKdtree/binary-heap-layout/bhlkdtree.h:65-75`, 101-132: object-median build in rounded
arithmetic. `par n` tells whether a slice of `n` items is split in parallel (`bhlkdtree.h:37`, `62`:
`n >= BHL_BUILD_BASE_CASE`, a macro of the build). The serial split does no arithmetic. -/
noncomputable def objectCfgFl (fl : ℝ → ℝ) (leafSize : ℕ) (par : ℕ → Bool) (nth : Fin d → ℕ → List α → List α)
    (srt : Fin d → List α → List α) (pos : α → Point ℝ d) : Cfg α ℝ d where
  leafSize := leafSize
  split := fun dim L => if par L.length then parallelMedianFl fl srt pos dim L else serialMedian nth pos dim L
  kids := fun i _ => (2 * i + 1, 2 * i + 2)

/-- `include/batchKdtree/shared/utils.h:186-205` and 207-237 (`parallelSpatialPartition`,
`serialSpatialPartition`) in rounded arithmetic. -/
noncomputable def spatialSplitFl (fl : ℝ → ℝ) (part : Fin d → ℝ → List α → List α) (pos : α → Point ℝ d) (dim : Fin d)
    (L : List α) : List α × ℝ × ℕ :=
  let v := midFl fl (minCoord pos dim L) (maxCoord pos dim L)
  (part dim v L, v, L.countP fun x => pos x dim < v)

/-- `include/batchKdtree/binary-heap-layout/bhlkdtree.h:73-79`, 103-132: spatial-median build in rounded
arithmetic. -/
noncomputable def spatialCfgFl (fl : ℝ → ℝ) (leafSize : ℕ) (part : Fin d → ℝ → List α → List α)
    (pos : α → Point ℝ d) : Cfg α ℝ d where
  leafSize := leafSize
  split := spatialSplitFl fl part pos
  kids := fun i m => (i + 1, i + 2 * m)

end Verif.BatchKd
