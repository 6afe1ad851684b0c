import Verif.BatchKd.KnnModel
import Verif.KdTree.FloatModel

set_option linter.unusedSectionVars false
set_option linter.unusedVariables false

/-!
The `k` nearest neighbour searches of the batch kd-tree in rounded arithmetic: every addition, subtraction,
multiplication and square root of the code is followed by a rounding `fl`; comparisons and maxima are exact. The
distance `include/batchKdtree/shared/geometry.h:134-137` (`dist`) is the same loop as
`include/pargeo/point.h:98-105`, that is, `distFl fl`. The buffer does no arithmetic on distances, so
it, and the loop `scanAdd` that fills it, are those of `Verif.BatchKd.KnnModel`.
-/

namespace Verif.BatchKd

open Verif.KdTree (distFl)

variable {α : Type} {d : ℕ}

section
variable (nth : ℕ → List (ℝ × α) → List (ℝ × α)) (fl : ℝ → ℝ) (pos : α → Point ℝ d)

/-- `include/batchKdtree/shared/kdnode.h:509-511`, 569-571: the box around the query, both ends rounded. -/
noncomputable def radiusBoxFl (q : Point ℝ d) (r : ℝ) : Box ℝ d := ⟨fun i => fl (q i - r), fun i => fl (q i + r)⟩

/-- `include/batchKdtree/shared/kdnode.h:501-514` and 559-577: get the current radius, shrink the box. -/
noncomputable def shrinkFl (q : Point ℝ d) (s : Scan α ℝ d) : Except Err (Scan α ℝ d) :=
  (s.buf.keepK nth).map fun r =>
    if leRadius r.2.1 s.radius && !(decide (s.radius = some r.2.1)) then
      ⟨some r.2.1, some (radiusBoxFl fl q r.2.1), r.1⟩
    else ⟨s.radius, s.box, r.1⟩

/-- `include/batchKdtree/shared/kdnode.h:493-537` (`knnPrune`) in rounded arithmetic. A call through a null child, and a comparison
with an uninitialised box, are undefined. -/
noncomputable def knnPruneFl (update : Bool) (items : List α) (present : List Bool) (q : Point ℝ d) :
    BT ℝ d → Scan α ℝ d → Except Err (Scan α ℝ d)
  | .nil, _ => .error .ub
  | .leaf _ s e _ b, st =>
    (if update then shrinkFl nth fl q st else .ok st).bind fun st =>
      match st.box with
      | none => .error .ub
      | some qb =>
        match KdTree.boxCompare qb b with
        | .excl => .ok st
        | .incl => scanAdd nth (distFl fl) pos items present q s e st
        | .overlap => scanAdd nth (distFl fl) pos items present q s e st
  | .node _ s e _ _ b l r, st =>
    (if update then shrinkFl nth fl q st else .ok st).bind fun st =>
      match st.box with
      | none => .error .ub
      | some qb =>
        match KdTree.boxCompare qb b with
        | .excl => .ok st
        | .incl => scanAdd nth (distFl fl) pos items present q s e st
        | .overlap =>
          if l.isNil && r.isNil then scanAdd nth (distFl fl) pos items present q s e st
          else (knnPruneFl update items present q l st).bind (knnPruneFl update items present q r)

/-- `include/batchKdtree/shared/kdnode.h:556-581`: the pruned search of the other child. -/
noncomputable def knnOtherFl (update : Bool) (items : List α) (present : List Bool) (q : Point ℝ d) (other : BT ℝ d)
    (b : BBuf α ℝ) : Except Err (BBuf α ℝ) :=
  ((if update then .ok ⟨none, none, b⟩ else shrinkFl nth fl q ⟨none, none, b⟩).bind
    (knnPruneFl nth fl pos update items present q other)).map fun s => s.buf

/-- `include/batchKdtree/shared/kdnode.h:539-583` (`knnHelper`) in rounded arithmetic. -/
noncomputable def knnHelperFl (update recurse : Bool) (items : List α) (present : List Bool) (q : Point ℝ d) :
    BT ℝ d → BBuf α ℝ → Except Err (BBuf α ℝ)
  | .nil, _ => .error .ub
  | .leaf _ s e _ _, b => knnAdd nth (distFl fl) pos items present q none s e b
  | .node _ s e dim val _ l r, b =>
    if l.isNil && r.isNil then knnAdd nth (distFl fl) pos items present q none s e b
    else if q dim < val then
      (if l.isNil then .ok b else knnHelperFl update recurse items present q l b).bind fun b =>
        if b.hasK then knnOtherFl nth fl pos update items present q r b
        else if recurse then knnHelperFl update recurse items present q r b
        else if r.isNil then .error .ub
        else knnAdd nth (distFl fl) pos items present q none r.start r.stop b
    else
      (if r.isNil then .ok b else knnHelperFl update recurse items present q r b).bind fun b =>
        if b.hasK then knnOtherFl nth fl pos update items present q l b
        else if recurse then knnHelperFl update recurse items present q l b
        else if l.isNil then .error .ub
        else knnAdd nth (distFl fl) pos items present q none l.start l.stop b

/-- `include/batchKdtree/shared/kdtree.h:303-309` (`knnSinglePoint` on a buffer). -/
noncomputable def knnIntoFl (update recurse : Bool) (t : Tree α ℝ d) (q : Point ℝ d) (b : BBuf α ℝ) :
    Except Err (BBuf α ℝ) :=
  ((knnHelperFl nth fl pos update recurse t.items t.present q t.root b).bind fun b => b.keepK nth).map
    fun r => r.1

/-- `include/batchKdtree/shared/kdtree.h:311-328` (`knnSinglePoint` with a fresh buffer, `preload` false). -/
noncomputable def knnSingleFl (update recurse : Bool) (t : Tree α ℝ d) (k : ℕ) (q : Point ℝ d) : Except Err (List α) :=
  (knnIntoFl nth fl pos update recurse t q (BBuf.new k)).map fun b => (b.elems.take k).map fun x => x.2

/-- `include/batchKdtree/shared/kdtree.h:404-414` (`knn`) in rounded arithmetic: the rows of the result. Every query works on its own
part of `out` and `res`, so the parallel loop is a map. -/
noncomputable def knnFl (update recurse : Bool) (t : Tree α ℝ d) (k : ℕ) (qs : List (Point ℝ d)) :
    Except Err (List (List α)) :=
  qs.mapM (knnSingleFl nth fl pos update recurse t k)

end

/-- `include/batchKdtree/shared/box.h:85-88`: the gap between two boxes in one coordinate. -/
noncomputable def gapFl (fl : ℝ → ℝ) (a b : Box ℝ d) (i : Fin d) : ℝ :=
  max (max 0 (fl (a.lo i - b.hi i))) (fl (b.lo i - a.hi i))

/-- `include/batchKdtree/shared/box.h:89`: `dist += dim_val * dim_val`. -/
noncomputable def addGapFl (fl : ℝ → ℝ) (a b : Box ℝ d) (x : ℝ) (i : Fin d) : ℝ :=
  fl (x + fl (gapFl fl a b i * gapFl fl a b i))

/-- `include/batchKdtree/shared/box.h:76-92` (`BoundingBoxDistance`) in rounded arithmetic. -/
noncomputable def boxDistFl (fl : ℝ → ℝ) (a b : Box ℝ d) : ℝ :=
  fl (Real.sqrt ((List.finRange d).foldl (addGapFl fl a b) 0))

end Verif.BatchKd
