import Verif.KdTree.FloatModel
import Verif.KdTree.WspdModel

set_option linter.unusedSectionVars false
set_option linter.unusedVariables false

/-!
The well-separated pair decomposition of `include/kdTree/wspdImpl.h` in rounded arithmetic. The
recursion is that of `Verif.KdTree.WspdModel`; the sides of the boxes and the separation test are
computed with a rounding `fl` after every operation.
-/

namespace Verif.KdTree

variable {α : Type} {d : ℕ}

/-- `include/kdTree/kdTree.h:329-341` (`lMax`) in rounded arithmetic: one pass of the loop. -/
noncomputable def lMaxStepFl (fl : ℝ → ℝ) (b : Box ℝ d) (m : ℝ) (i : Fin d) : ℝ :=
  if fl (b.hi i - b.lo i) > m then fl (b.hi i - b.lo i) else m

/-- `include/kdTree/kdTree.h:329-341` (`lMax`) in rounded arithmetic. -/
noncomputable def lMaxFl (fl : ℝ → ℝ) (b : Box ℝ d) : ℝ :=
  (List.finRange d).foldl (lMaxStepFl fl b) 0

/-- `include/kdTree/wspdImpl.h:45-46` (`uTmpAvg`, `vTmpAvg`) in rounded arithmetic: the middle of a
box. -/
noncomputable def boxCentreFl (fl : ℝ → ℝ) (b : Box ℝ d) : Point ℝ d :=
  fun i => fl (fl (b.hi i + b.lo i) / 2)

/-- `include/kdTree/wspdImpl.h:43-44`, `48-49`, `51-52` (`circleDiam_u`, `circleDiam_v`) in rounded
arithmetic: the operations are those of `dist` on the two corners of the box. -/
noncomputable def boxDiamFl (fl : ℝ → ℝ) (b : Box ℝ d) : ℝ := distFl fl b.hi b.lo

/-- `include/kdTree/wspdImpl.h:35-56` (`geomWellSeparated`) in rounded arithmetic. The sum for
`circleDistance` (47) and its root (54) are the operations of `dist` on the two middles. -/
noncomputable def geomWellSeparatedFl (fl : ℝ → ℝ) (s : ℝ) (u v : Tree α ℝ d) : Bool :=
  let du := boxDiamFl fl u.box
  let dv := boxDiamFl fl v.box
  let myRadius := fl (max du dv / 2)
  let circleDistance := fl (fl (distFl fl (boxCentreFl fl u.box) (boxCentreFl fl v.box)
    - fl (du / 2)) - fl (dv / 2))
  decide (circleDistance ≥ fl (s * myRadius))

/-- `include/kdTree/wspdImpl.h:76-116` (`findPairSerial`) in rounded arithmetic,
with `ws u v` the well-separation test. Returns the pairs given to `run`, in order. -/
noncomputable def findPairSerialFl (fl : ℝ → ℝ) (ws : Tree α ℝ d → Tree α ℝ d → Bool) :
    ℕ → Tree α ℝ d → Tree α ℝ d → Except Err (List (Tree α ℝ d × Tree α ℝ d))
  | 0, _, _ => .error .fuel
  | fuel + 1, u, v =>
    if ws u v then .ok [(u, v)]
    else
      match u, v with
      | .leaf _ _, .leaf _ _ => .error .throws
      | .leaf bu iu, .node _ vl vr => do
        return (← findPairSerialFl fl ws fuel vl (.leaf bu iu)) ++
          (← findPairSerialFl fl ws fuel vr (.leaf bu iu))
      | .node _ ul ur, .leaf bv iv => do
        return (← findPairSerialFl fl ws fuel ul (.leaf bv iv)) ++
          (← findPairSerialFl fl ws fuel ur (.leaf bv iv))
      | .node bu ul ur, .node bv vl vr =>
        if lMaxFl fl bu > lMaxFl fl bv then do
          return (← findPairSerialFl fl ws fuel ul (.node bv vl vr)) ++
            (← findPairSerialFl fl ws fuel ur (.node bv vl vr))
        else do
          return (← findPairSerialFl fl ws fuel vl (.node bu ul ur)) ++
            (← findPairSerialFl fl ws fuel vr (.node bu ul ur))

/-- `include/kdTree/wspdImpl.h:118-128` (`computeWspdSerial`) and `130-145`
(`wspdSerial`) in rounded arithmetic. -/
noncomputable def wspdSerialFl (fl : ℝ → ℝ) (ws : Tree α ℝ d → Tree α ℝ d → Bool) :
    Tree α ℝ d → Except Err (List (Tree α ℝ d × Tree α ℝ d))
  | .leaf _ _ => .ok []
  | .node _ l r => do
    return (← wspdSerialFl fl ws l) ++ (← wspdSerialFl fl ws r) ++
      (← findPairSerialFl fl ws (l.height + r.height + 1) l r)

/-- `include/kdTree/wspdImpl.h:192-243` (`findPairParallel`) in rounded arithmetic:
the two branches of a `par_do` only append to the per-worker buffers; the model lists the pairs of the left branch first (C10 shows that
collecting the buffers gives all pairs whatever the interleaving). -/
noncomputable def findPairParallelFl (fl : ℝ → ℝ) (ws : Tree α ℝ d → Tree α ℝ d → Bool) :
    ℕ → Tree α ℝ d → Tree α ℝ d → Except Err (List (Tree α ℝ d × Tree α ℝ d))
  | 0, _, _ => .error .fuel
  | fuel + 1, u, v =>
    if u.size + v.size < 2000 then findPairSerialFl fl ws (fuel + 1) u v
    else if ws u v then .ok [(u, v)]
    else
      match u, v with
      | .leaf _ _, .leaf _ _ => .error .throws
      | .leaf bu iu, .node _ vl vr => do
        return (← findPairParallelFl fl ws fuel vl (.leaf bu iu)) ++
          (← findPairParallelFl fl ws fuel vr (.leaf bu iu))
      | .node _ ul ur, .leaf bv iv => do
        return (← findPairParallelFl fl ws fuel ul (.leaf bv iv)) ++
          (← findPairParallelFl fl ws fuel ur (.leaf bv iv))
      | .node bu ul ur, .node bv vl vr =>
        if lMaxFl fl bu > lMaxFl fl bv then do
          return (← findPairParallelFl fl ws fuel ul (.node bv vl vr)) ++
            (← findPairParallelFl fl ws fuel ur (.node bv vl vr))
        else do
          return (← findPairParallelFl fl ws fuel vl (.node bu ul ur)) ++
            (← findPairParallelFl fl ws fuel vr (.node bu ul ur))

/-- `include/kdTree/wspdImpl.h:245-261` (`computeWspdParallel`) and `263-278`
(`wellSeparatedPairDecomp`) in rounded arithmetic. -/
noncomputable def wspdParallelFl (fl : ℝ → ℝ) (ws : Tree α ℝ d → Tree α ℝ d → Bool) :
    Tree α ℝ d → Except Err (List (Tree α ℝ d × Tree α ℝ d))
  | .leaf b i => if (Tree.leaf b i : Tree α ℝ d).size < 2000 then wspdSerialFl fl ws (.leaf b i) else .ok []
  | .node b l r =>
    if (Tree.node b l r).size < 2000 then wspdSerialFl fl ws (.node b l r)
    else do
      return (← wspdParallelFl fl ws l) ++ (← wspdParallelFl fl ws r) ++
        (← findPairParallelFl fl ws (l.height + r.height + 1) l r)

end Verif.KdTree
