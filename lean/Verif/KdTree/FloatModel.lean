import Verif.KdTree.RangeModel
import Verif.Metric
import Verif.Float.Round

set_option linter.unusedSectionVars false
set_option linter.unusedVariables false

/-!
The kd-tree construction and the range searches in rounded arithmetic: every addition, subtraction,
multiplication, division and square root of the code is followed by a rounding `fl`. Comparisons,
minima and maxima are exact. The rest of the code is as in `Verif.KdTree.Model` and
`Verif.KdTree.RangeModel`.
-/

namespace Verif.KdTree

variable {α : Type} {d : ℕ}

/-- `include/pargeo/point.h:98-101` (`distSqr`): one pass of the loop,
`xx += (x[i]-p.x[i])*(x[i]-p.x[i])`. -/
def addSqFl (fl : ℝ → ℝ) (p q : Point ℝ d) (xx : ℝ) (i : Fin d) : ℝ :=
  fl (xx + fl (fl (p i - q i) * fl (p i - q i)))

/-- `include/pargeo/point.h:98-101` (`distSqr`) in rounded arithmetic. -/
def distSqrFl (fl : ℝ → ℝ) (p q : Point ℝ d) : ℝ := (List.finRange d).foldl (addSqFl fl p q) 0

/-- `include/pargeo/point.h:103-105` (`dist`) in rounded arithmetic. -/
noncomputable def distFl (fl : ℝ → ℝ) (p q : Point ℝ d) : ℝ := fl (Real.sqrt (distSqrFl fl p q))

/-- `include/kdTree/rangeSearchImpl.h:79-85`, `169-175` and `knnImpl.h:146-152`: the query box with
`tmp = q[i] - r`, `qMin = tmp`, `qMax = tmp + r * 2` in rounded arithmetic. -/
def queryBoxFl (fl : ℝ → ℝ) (q : Point ℝ d) (r : ℝ) : Box ℝ d :=
  ⟨fun i => fl (q i - r), fun i => fl (fl (q i - r) + fl (r * 2))⟩

/-- `include/kdTree/rangeSearchImpl.h:73-101` (`rangeTraverse`, `rangeSearch`) in rounded
arithmetic. -/
noncomputable def rangeSearchFl (fl : ℝ → ℝ) (pos : α → Point ℝ d) (t : Tree α ℝ d)
    (q : Point ℝ d) (radius : ℝ) : List α :=
  rangeHelper (distFl fl) pos q (queryBoxFl fl q radius) radius t

/-- `include/kdTree/rangeSearchImpl.h:163-189` (`orthogonalRangeTraverse`,
`orthogonalRangeSearch`) in rounded arithmetic. -/
noncomputable def orthogonalRangeSearchFl (fl : ℝ → ℝ) (pos : α → Point ℝ d) (t : Tree α ℝ d)
    (q : Point ℝ d) (halfLen : ℝ) : List α :=
  orthRangeHelper pos (queryBoxFl fl q halfLen) t

/-- `include/kdTree/rangeSearchImpl.h:103-117` (`bruteforceRange`) in rounded arithmetic. -/
noncomputable def bruteforceRangeFl (fl : ℝ → ℝ) (elems : List (Point ℝ d)) (q : Point ℝ d)
    (radius : ℝ) : List ℕ :=
  bruteforceRange (distFl fl) elems q radius

/-- `include/kdTree/kdTree.h:244-251` (`findWidest`): one pass of the loop. -/
noncomputable def widestStepFl (fl : ℝ → ℝ) (b : Box ℝ d) (s : ℝ × Option (Fin d)) (kk : Fin d) :
    ℝ × Option (Fin d) :=
  if fl (b.hi kk - b.lo kk) > s.1 then (fl (b.hi kk - b.lo kk), some kk) else s

/-- `include/kdTree/kdTree.h:241-253` (`findWidest`) in rounded arithmetic. -/
noncomputable def findWidestFl (fl : ℝ → ℝ) (b : Box ℝ d) : Except Err (Fin d) :=
  match ((List.finRange d).foldl (widestStepFl fl b) (-1, none)).2 with
  | some k => .ok k
  | none => .error .ub

/-- `include/kdTree/treeImpl.h:160-273` (`constructSerial`, `constructParallel` and the two node
constructors) in rounded arithmetic: the split value is `fl (fl (pMax[k] + pMin[k]) / 2)`. -/
noncomputable def constructFl (fl : ℝ → ℝ) (w bs : ℕ) (pos : α → Point ℝ d) (leafSize : ℕ) :
    ℕ → Bool → List α → Except Err (Tree α ℝ d)
  | 0, _, _ => .error .fuel
  | fuel + 1, par, items => do
    let usePar : Bool := par && decide (items.length > 2000)
    let box ← nodeBox w pos usePar items
    if items.length ≤ leafSize then
      return .leaf box items
    else
      let k ← findWidestFl fl box
      let xM := fl (fl (box.hi k + box.lo k) / 2)
      let sp ← nodeSplit bs (fun x => pos x k) xM usePar items
      let median := nodeMedian usePar items.length sp.2
      let l ← constructFl fl w bs pos leafSize fuel usePar (sp.1.take median)
      let r ← constructFl fl w bs pos leafSize fuel usePar (sp.1.drop median)
      return .node box l r

/-- `include/kdTree/treeImpl.h:312-338` (`build`) and `include/kdTree/kdTree.h:127-177` (`tree`
constructors) in rounded arithmetic. -/
noncomputable def buildFl (fl : ℝ → ℝ) (w bs : ℕ) (pos : α → Point ℝ d) (leafSize : ℕ)
    (parallel : Bool) (items : List α) : Except Err (Tree α ℝ d) :=
  constructFl fl w bs pos leafSize (items.length + 1) parallel items

end Verif.KdTree
