import Verif.Emst.Model
import Verif.KdTree.WspdFloatModel
import Verif.KdTree.BccpFloatModel

set_option linter.unusedSectionVars false
set_option linter.unusedVariables false

/-!
The Euclidean minimum spanning tree of `src/euclideanMst/memoGfk/` in rounded arithmetic: the
traversals, tests and rounds are those of `Verif.Emst.Model`, with a rounding `fl` after every
operation on coordinates and distances.
-/

namespace Verif.Emst

open Verif.KdTree Verif.UF Verif.Mst

variable {d : ℕ} {α : Type}

/-- `include/kdTree/wspdImpl.h:76-116` (`findPairSerial`) in rounded arithmetic, with the test `moveon`; `ws` is the separation
test. Returns the pairs given to `run`. -/
noncomputable def findPairSerialFFl (fl : ℝ → ℝ) (moveon : NTree α ℝ d → NTree α ℝ d → Bool) (ws : Tree α ℝ d → Tree α ℝ d → Bool) :
    ℕ → NTree α ℝ d → NTree α ℝ d → Except Err (List (NTree α ℝ d × NTree α ℝ d))
  | 0, _, _ => .error .fuel
  | fuel + 1, u, v =>
    if !moveon u v then .ok []
    else if ws u.tree v.tree then .ok [(u, v)]
    else
      match u, v with
      | .leaf _ _ _, .leaf _ _ _ => .error .throws
      | .leaf ju bu iu, .node _ _ vl vr =>
        (findPairSerialFFl fl moveon ws fuel vl (.leaf ju bu iu)).bind fun o1 =>
        (findPairSerialFFl fl moveon ws fuel vr (.leaf ju bu iu)).map fun o2 => o1 ++ o2
      | .node _ _ ul ur, .leaf jv bv iv =>
        (findPairSerialFFl fl moveon ws fuel ul (.leaf jv bv iv)).bind fun o1 =>
        (findPairSerialFFl fl moveon ws fuel ur (.leaf jv bv iv)).map fun o2 => o1 ++ o2
      | .node ju bu ul ur, .node jv bv vl vr =>
        if lMaxFl fl bu > lMaxFl fl bv then
          (findPairSerialFFl fl moveon ws fuel ul (.node jv bv vl vr)).bind fun o1 =>
          (findPairSerialFFl fl moveon ws fuel ur (.node jv bv vl vr)).map fun o2 => o1 ++ o2
        else
          (findPairSerialFFl fl moveon ws fuel vl (.node ju bu ul ur)).bind fun o1 =>
          (findPairSerialFFl fl moveon ws fuel vr (.node ju bu ul ur)).map fun o2 => o1 ++ o2

/-- `include/kdTree/wspdImpl.h:192-243` (`findPairParallel`) in rounded arithmetic, with the test `moveon`. The test is made
again by `findPairSerial` for small nodes; because it may depend on a shared variable the second
answer is a separate parameter `moveonS`. -/
noncomputable def findPairParallelFFl (fl : ℝ → ℝ) (moveon moveonS : NTree α ℝ d → NTree α ℝ d → Bool)
    (ws : Tree α ℝ d → Tree α ℝ d → Bool) :
    ℕ → NTree α ℝ d → NTree α ℝ d → Except Err (List (NTree α ℝ d × NTree α ℝ d))
  | 0, _, _ => .error .fuel
  | fuel + 1, u, v =>
    if !moveon u v then .ok []
    else if u.size + v.size < 2000 then findPairSerialFFl fl moveonS ws (fuel + 1) u v
    else if ws u.tree v.tree then .ok [(u, v)]
    else
      match u, v with
      | .leaf _ _ _, .leaf _ _ _ => .error .throws
      | .leaf ju bu iu, .node _ _ vl vr =>
        (findPairParallelFFl fl moveon moveonS ws fuel vl (.leaf ju bu iu)).bind fun o1 =>
        (findPairParallelFFl fl moveon moveonS ws fuel vr (.leaf ju bu iu)).map fun o2 => o1 ++ o2
      | .node _ _ ul ur, .leaf jv bv iv =>
        (findPairParallelFFl fl moveon moveonS ws fuel ul (.leaf jv bv iv)).bind fun o1 =>
        (findPairParallelFFl fl moveon moveonS ws fuel ur (.leaf jv bv iv)).map fun o2 => o1 ++ o2
      | .node ju bu ul ur, .node jv bv vl vr =>
        if lMaxFl fl bu > lMaxFl fl bv then
          (findPairParallelFFl fl moveon moveonS ws fuel ul (.node jv bv vl vr)).bind fun o1 =>
          (findPairParallelFFl fl moveon moveonS ws fuel ur (.node jv bv vl vr)).map fun o2 => o1 ++ o2
        else
          (findPairParallelFFl fl moveon moveonS ws fuel vl (.node ju bu ul ur)).bind fun o1 =>
          (findPairParallelFFl fl moveon moveonS ws fuel vr (.node ju bu ul ur)).map fun o2 => o1 ++ o2

/-- `include/kdTree/wspdImpl.h:118-128` (`computeWspdSerial`) in rounded arithmetic, with the tests `start` and `moveon`. -/
noncomputable def wspdSerialFFl (fl : ℝ → ℝ) (start : NTree α ℝ d → Bool) (moveon : NTree α ℝ d → NTree α ℝ d → Bool)
    (ws : Tree α ℝ d → Tree α ℝ d → Bool) :
    NTree α ℝ d → Except Err (List (NTree α ℝ d × NTree α ℝ d))
  | .leaf _ _ _ => .ok []
  | .node i b l r =>
    if start (.node i b l r) then
      (wspdSerialFFl fl start moveon ws l).bind fun o1 => (wspdSerialFFl fl start moveon ws r).bind fun o2 =>
      (findPairSerialFFl fl moveon ws (l.tree.height + r.tree.height + 1) l r).map fun o3 => o1 ++ o2 ++ o3
    else .ok []

/-- `include/kdTree/wspdImpl.h:245-261` (`computeWspdParallel`) in rounded arithmetic, with the tests `start` and `moveon`. -/
noncomputable def wspdParallelFFl (fl : ℝ → ℝ) (start : NTree α ℝ d → Bool) (moveon moveonS : NTree α ℝ d → NTree α ℝ d → Bool)
    (ws : Tree α ℝ d → Tree α ℝ d → Bool) :
    NTree α ℝ d → Except Err (List (NTree α ℝ d × NTree α ℝ d))
  | .leaf i b items =>
    if (NTree.leaf i b items : NTree α ℝ d).size < 2000 then
      wspdSerialFFl fl start moveonS ws (.leaf i b items) else .ok []
  | .node i b l r =>
    if (NTree.node i b l r).size < 2000 then wspdSerialFFl fl start moveonS ws (.node i b l r)
    else if start (.node i b l r) then
      (wspdParallelFFl fl start moveon moveonS ws l).bind fun o1 =>
      (wspdParallelFFl fl start moveon moveonS ws r).bind fun o2 =>
      (findPairParallelFFl fl moveon moveonS ws (l.tree.height + r.tree.height + 1) l r).map fun o3 =>
        o1 ++ o2 ++ o3
    else .ok []

/-- `include/kdTree/treeImpl.h:299-310` (`nodeFarDistance`) in rounded arithmetic: the operations are
those of `dist` on the corners of the smallest box around both. -/
noncomputable def nodeFarDistFl (fl : ℝ → ℝ) (b1 b2 : Box ℝ d) : ℝ :=
  distFl fl (fun i => max (b1.hi i) (b2.hi i)) (fun i => min (b1.lo i) (b2.lo i))

open Classical in
/-- In rounded arithmetic:
`src/euclideanMst/memoGfk/wspdFilter.h:56-61,169-174` (`moveon` of the rho traversal); `obs` is the
value of the shared variable `rho` that the test reads. -/
noncomputable def rhoMoveonFl (fl : ℝ → ℝ) (beta : ℕ) (obs : NTree ℕ ℝ d → NTree ℕ ℝ d → WithTop ℝ)
    (u v : NTree ℕ ℝ d) : Bool :=
  !sameId u v && !decide (u.size + v.size ≤ beta) &&
    !decide ((nodeDistFl fl u.box v.box : WithTop ℝ) ≥ obs u v)

open Classical in
/-- In rounded arithmetic:
`src/euclideanMst/memoGfk/wspdFilter.h:104-109,240-245` (`moveon` of the edge traversal). -/
noncomputable def getMoveonFl (fl : ℝ → ℝ) (rhoLo rhoHi : WithTop ℝ) (u v : NTree ℕ ℝ d) : Bool :=
  !sameId u v && !decide ((nodeDistFl fl u.box v.box : WithTop ℝ) ≥ rhoHi) &&
    !decide ((nodeFarDistFl fl u.box v.box : WithTop ℝ) < rhoLo)

open Classical in
/-- In rounded arithmetic:
`src/euclideanMst/memoGfk/wspdFilter.h:111-117,247-253` (`start` of the edge traversal);
`include/kdTree/kdTree.h:318-327` (`diag`). -/
noncomputable def getStartFl (fl : ℝ → ℝ) (rhoLo : WithTop ℝ) (u : NTree ℕ ℝ d) : Bool :=
  decide ((boxDiamFl fl u.box : WithTop ℝ) ≥ rhoLo)

/-- In rounded arithmetic:
`src/euclideanMst/memoGfk/wspdFilter.h:47-54,161-167`: the value of `rho` after all calls of `run`
(`write_min`, C13). -/
noncomputable def rhoOfFl (fl : ℝ → ℝ) (L : List (NTree ℕ ℝ d × NTree ℕ ℝ d)) : WithTop ℝ :=
  L.foldl (fun r p => min r (nodeDistFl fl p.1.box p.2.box : WithTop ℝ)) ⊤

open Classical in
/-- In rounded arithmetic:
`src/euclideanMst/memoGfk/wspdFilter.h:95-102,228-238` (`run` of the edge traversal): the edge
recorded for a pair, if any. -/
noncomputable def getRunFl (fl : ℝ → ℝ) (pos : ℕ → Point ℝ d)
    (ord : List (Tree ℕ ℝ d × Tree ℕ ℝ d) → List (Tree ℕ ℝ d × Tree ℕ ℝ d))
    (beta : ℕ) (rhoLo rhoHi : WithTop ℝ) (p : NTree ℕ ℝ d × NTree ℕ ℝ d) :
    Except Err (Option (WEdge ℝ)) :=
  (bichromaticClosestPairFl fl pos ord p.1.tree p.2.tree).bind fun r =>
    match r with
    | none => .error .ub
    | some (u, v, c) =>
      if p.1.size + p.2.size ≤ beta ∧ (c : WithTop ℝ) ≥ rhoLo ∧
          (c : WithTop ℝ) < rhoHi then
        .ok (some ⟨u, v, c⟩)
      else .ok none

/-- In rounded arithmetic:
`src/euclideanMst/memoGfk/wspdFilter.h:265` first traversal of `filterWspdParallel`: the value of
`rho`. -/
noncomputable def rhoPassFl (fl : ℝ → ℝ) (sch : Sched d) (beta : ℕ) (t : NTree ℕ ℝ d) : Except Err (WithTop ℝ) :=
  (wspdParallelFFl fl (rhoStart beta) (rhoMoveonFl fl beta (sch.obs beta t)) (rhoMoveonFl fl beta (sch.obsS beta t))
    (geomWellSeparatedFl fl 2) t).map (rhoOfFl fl)

/-- In rounded arithmetic:
`src/euclideanMst/memoGfk/wspdFilter.h:267-269` second traversal of `filterWspdParallel`: the
edges. -/
noncomputable def getPassFl (fl : ℝ → ℝ) (pos : ℕ → Point ℝ d) (sch : Sched d) (beta : ℕ) (rhoLo rhoHi : WithTop ℝ)
    (t : NTree ℕ ℝ d) : Except Err (List (WEdge ℝ)) :=
  (wspdParallelFFl fl (getStartFl fl rhoLo) (getMoveonFl fl rhoLo rhoHi) (getMoveonFl fl rhoLo rhoHi)
    (geomWellSeparatedFl fl 2) t).bind fun L =>
  (L.mapM (getRunFl fl pos sch.ord beta rhoLo rhoHi)).map fun es => sch.buf (es.filterMap fun e => e)

/-- `src/euclideanMst/memoGfk/emst.cpp:17-108` (`euclideanMst`) in rounded arithmetic, with
`batchKruskal` step by step (`include/euclideanMst/kruskal.h:173-196`; it only compares weights, and
so do the other routines of a round). -/
noncomputable def euclideanMstFl (fl : ℝ → ℝ) (w bs : ℕ) (sch : ℕ → Sched d)
    (S : List (Point ℝ d)) : Except Err (List (WEdge ℝ)) :=
  if S.length < 2 then .error .throws
  else
    (buildFl fl w bs (ptAt S) 1 true (List.range S.length)).bind fun t =>
    (emstLoopK (fun k => ⟨rhoPassFl fl (sch k), fun pos => getPassFl fl pos (sch k),
      batchKruskal (sch k).kr, mark⟩) (ptAt S) S.length (S.length + 1) 0 2 (fl (-0.1) : WithTop ℝ)
      (NTree.ofTree t) (EdgeUF.new S.length)).map fun uf => uf.getEdge

end Verif.Emst
