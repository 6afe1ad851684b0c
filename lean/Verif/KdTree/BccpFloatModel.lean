import Verif.KdTree.FloatModel
import Verif.KdTree.BccpModel

set_option linter.unusedSectionVars false
set_option linter.unusedVariables false

/-!
The bichromatic closest pair (`include/kdTree/bccpImpl.h`) in rounded arithmetic: every operation on
coordinates is followed by a rounding `fl`, and distances are the rounded square roots the code
computes.
-/

namespace Verif.KdTree

variable {α : Type} {d : ℕ}

/-- `include/kdTree/treeImpl.h:287-290`: the gap of two boxes in one dimension, at least 0, in
rounded arithmetic. -/
noncomputable def gapFl (fl : ℝ → ℝ) (b1 b2 : Box ℝ d) (i : Fin d) : ℝ :=
  max (max (fl (b1.lo i - b2.hi i)) (fl (b2.lo i - b1.hi i))) 0

/-- `include/kdTree/treeImpl.h:285-292`: one pass of the inner loop, `rsqr += tmp * tmp`. -/
noncomputable def addGapFl (fl : ℝ → ℝ) (b1 b2 : Box ℝ d) (rsqr : ℝ) (dd : Fin d) : ℝ :=
  fl (rsqr + fl (gapFl fl b1 b2 dd * gapFl fl b1 b2 dd))

/-- `include/kdTree/treeImpl.h:275-297` (`nodeDistance`) in rounded arithmetic: at the first
dimension `i` in which the boxes are disjoint the root of the sum of the squared gaps from `i` on; 0
if there is none. -/
noncomputable def nodeDistFl (fl : ℝ → ℝ) (b1 b2 : Box ℝ d) : ℝ :=
  match (List.finRange d).find? fun i => b1.lo i > b2.hi i ∨ b2.lo i > b1.hi i with
  | none => 0
  | some i => fl (Real.sqrt (((List.finRange d).filter fun j => i ≤ j).foldl (addGapFl fl b1 b2) 0))

/-- `include/kdTree/bccpImpl.h:57-69` and `80-88`: the double loop over the items of two nodes, in
rounded arithmetic. -/
noncomputable def bcpLoopFl (fl : ℝ → ℝ) (pos : α → Point ℝ d) (l1 l2 : List α) (r : Bcp α ℝ) :
    Bcp α ℝ :=
  l1.foldl (fun r x => l2.foldl (fun r y => r.update x y (distFl fl (pos x) (pos y))) r) r

/-- `include/kdTree/bccpImpl.h:56-69` (`bcpBruteforce`) in rounded arithmetic. -/
noncomputable def bcpBruteforceFl (fl : ℝ → ℝ) (pos : α → Point ℝ d) (t1 t2 : Tree α ℝ d) :
    Bcp α ℝ :=
  bcpLoopFl fl pos t1.items t2.items none

/-- `include/kdTree/bccpImpl.h:74`: the pruning test; no distance exceeds `max()`. -/
noncomputable def bcpPruneFl (fl : ℝ → ℝ) (b1 b2 : Box ℝ d) (r : Bcp α ℝ) : Bool :=
  match r with
  | none => false
  | some (_, _, dist) => decide (nodeDistFl fl b1 b2 > dist)

/-- `include/kdTree/bccpImpl.h:91-136`: the pairs of nodes visited next, in the order before
sorting by computed distance. -/
noncomputable def bcpChildrenFl (fl : ℝ → ℝ) :
    Tree α ℝ d → Tree α ℝ d → List (Tree α ℝ d × Tree α ℝ d)
  | .leaf b1 i1, .leaf b2 i2 => []
  | .leaf b1 i1, .node b2 l r =>
    if nodeDistFl fl b1 l.box < nodeDistFl fl b1 r.box then
      [(.leaf b1 i1, l), (.leaf b1 i1, r)] else [(.leaf b1 i1, r), (.leaf b1 i1, l)]
  | .node b1 l r, .leaf b2 i2 =>
    if nodeDistFl fl b2 l.box < nodeDistFl fl b2 r.box then
      [(l, .leaf b2 i2), (r, .leaf b2 i2)] else [(r, .leaf b2 i2), (l, .leaf b2 i2)]
  | .node b1 l1 r1, .node b2 l2 r2 => [(l1, l2), (l1, r2), (r1, l2), (r1, r2)]

/-- `include/kdTree/bccpImpl.h:71-139` (`bcpHelper`) in rounded arithmetic. `ord` is the `std::sort`
of the four pairs of children by distance; it is applied to the two-element lists too, which are
already ordered. -/
noncomputable def bcpHelperFl (fl : ℝ → ℝ) (pos : α → Point ℝ d)
    (ord : List (Tree α ℝ d × Tree α ℝ d) → List (Tree α ℝ d × Tree α ℝ d)) :
    ℕ → Tree α ℝ d → Tree α ℝ d → Bcp α ℝ → Except Err (Bcp α ℝ)
  | 0, _, _, _ => .error .fuel
  | fuel + 1, t1, t2, r =>
    if bcpPruneFl fl t1.box t2.box r then .ok r
    else
      match t1, t2 with
      | .leaf _ i1, .leaf _ i2 => .ok (bcpLoopFl fl pos i1 i2 r)
      | t1, t2 =>
        (ord (bcpChildrenFl fl t1 t2)).foldlM (fun r p => bcpHelperFl fl pos ord fuel p.1 p.2 r) r

/-- `include/kdTree/bccpImpl.h:143-161` (`bichromaticClosestPair`) in rounded arithmetic. -/
noncomputable def bichromaticClosestPairFl (fl : ℝ → ℝ) (pos : α → Point ℝ d)
    (ord : List (Tree α ℝ d × Tree α ℝ d) → List (Tree α ℝ d × Tree α ℝ d))
    (t1 t2 : Tree α ℝ d) : Except Err (Bcp α ℝ) :=
  bcpHelperFl fl pos ord (t1.height + t2.height + 1) t1 t2 none

end Verif.KdTree
