import Verif.KdTree.BccpModel
import Verif.Metric

/-!
Model of the well-separated pair decomposition in `include/kdTree/wspdImpl.h`.

The operation object `f` of the code has `moveon` and `start` constantly true for the
decomposition itself (70-71, 184-185), so they are left out here; the filters that use them are
modelled with the Euclidean minimum spanning tree.
-/

namespace Verif.KdTree

variable {α K : Type} {d : ℕ}

section
variable [Field K] [LinearOrder K]

/-- `include/kdTree/kdTree.h:329-341` (`lMax`): the largest side of the box, at least 0. -/
def lMax (b : Box K d) : K :=
  (List.finRange d).foldl (fun m i => if b.hi i - b.lo i > m then b.hi i - b.lo i else m) 0

/-- `include/kdTree/wspdImpl.h:76-116` (`findPairSerial`), with `ws u v` the well-separation test.
Returns the pairs given to `run`, in order. -/
def findPairSerial (ws : Tree α K d → Tree α K d → Bool) :
    ℕ → Tree α K d → Tree α K d → Except Err (List (Tree α K d × Tree α K d))
  | 0, _, _ => .error .fuel
  | fuel + 1, u, v =>
    if ws u v then .ok [(u, v)]
    else
      match u, v with
      | .leaf _ _, .leaf _ _ => .error .throws
      | .leaf bu iu, .node _ vl vr => do
        return (← findPairSerial ws fuel vl (.leaf bu iu)) ++
          (← findPairSerial ws fuel vr (.leaf bu iu))
      | .node _ ul ur, .leaf bv iv => do
        return (← findPairSerial ws fuel ul (.leaf bv iv)) ++
          (← findPairSerial ws fuel ur (.leaf bv iv))
      | .node bu ul ur, .node bv vl vr =>
        if lMax bu > lMax bv then do
          return (← findPairSerial ws fuel ul (.node bv vl vr)) ++
            (← findPairSerial ws fuel ur (.node bv vl vr))
        else do
          return (← findPairSerial ws fuel vl (.node bu ul ur)) ++
            (← findPairSerial ws fuel vr (.node bu ul ur))

/-- `include/kdTree/wspdImpl.h:118-128` (`computeWspdSerial`) and `130-145` (`wspdSerial`). -/
def wspdSerial (ws : Tree α K d → Tree α K d → Bool) :
    Tree α K d → Except Err (List (Tree α K d × Tree α K d))
  | .leaf _ _ => .ok []
  | .node _ l r => do
    return (← wspdSerial ws l) ++ (← wspdSerial ws r) ++
      (← findPairSerial ws (l.height + r.height + 1) l r)

/-- `include/kdTree/wspdImpl.h:192-243` (`findPairParallel`): the two branches of a `par_do` only
append to the per-worker buffers; the model lists the pairs of the left branch first (C10 shows that
collecting the buffers gives all pairs whatever the interleaving). -/
def findPairParallel (ws : Tree α K d → Tree α K d → Bool) :
    ℕ → Tree α K d → Tree α K d → Except Err (List (Tree α K d × Tree α K d))
  | 0, _, _ => .error .fuel
  | fuel + 1, u, v =>
    if u.size + v.size < 2000 then findPairSerial ws (fuel + 1) u v
    else if ws u v then .ok [(u, v)]
    else
      match u, v with
      | .leaf _ _, .leaf _ _ => .error .throws
      | .leaf bu iu, .node _ vl vr => do
        return (← findPairParallel ws fuel vl (.leaf bu iu)) ++
          (← findPairParallel ws fuel vr (.leaf bu iu))
      | .node _ ul ur, .leaf bv iv => do
        return (← findPairParallel ws fuel ul (.leaf bv iv)) ++
          (← findPairParallel ws fuel ur (.leaf bv iv))
      | .node bu ul ur, .node bv vl vr =>
        if lMax bu > lMax bv then do
          return (← findPairParallel ws fuel ul (.node bv vl vr)) ++
            (← findPairParallel ws fuel ur (.node bv vl vr))
        else do
          return (← findPairParallel ws fuel vl (.node bu ul ur)) ++
            (← findPairParallel ws fuel vr (.node bu ul ur))

/-- `include/kdTree/wspdImpl.h:245-261` (`computeWspdParallel`) and `263-278`
(`wellSeparatedPairDecomp`). -/
def wspdParallel (ws : Tree α K d → Tree α K d → Bool) :
    Tree α K d → Except Err (List (Tree α K d × Tree α K d))
  | .leaf b i => if (Tree.leaf b i : Tree α K d).size < 2000 then wspdSerial ws (.leaf b i) else .ok []
  | .node b l r =>
    if (Tree.node b l r).size < 2000 then wspdSerial ws (.node b l r)
    else do
      return (← wspdParallel ws l) ++ (← wspdParallel ws r) ++
        (← findPairParallel ws (l.height + r.height + 1) l r)

end

/-- `include/kdTree/wspdImpl.h:43-51`: the middle of a box. -/
noncomputable def boxCentre (b : Box ℝ d) : Point ℝ d := fun i => (b.hi i + b.lo i) / 2

/-- `include/kdTree/wspdImpl.h:43-52` (`circleDiam`): the length of the diagonal of a box. -/
noncomputable def boxDiam (b : Box ℝ d) : ℝ :=
  Real.sqrt (∑ i, (b.hi i - b.lo i) * (b.hi i - b.lo i))

/-- `include/kdTree/wspdImpl.h:35-56` (`geomWellSeparated`). -/
noncomputable def geomWellSeparated (s : ℝ) (u v : Tree α ℝ d) : Bool :=
  let du := boxDiam u.box
  let dv := boxDiam v.box
  let myRadius := max du dv / 2
  let circleDistance := eucl (boxCentre u.box) (boxCentre v.box) - du / 2 - dv / 2
  decide (circleDistance ≥ s * myRadius)

end Verif.KdTree
