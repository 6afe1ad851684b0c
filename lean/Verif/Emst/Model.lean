import Verif.Mst.KruskalModel
import Verif.Mst.FineModel
import Verif.KdTree.WspdModel

/-!
Model of the Euclidean minimum spanning tree in `src/euclideanMst/memoGfk/` (`emst.cpp`, `mark.h`,
`wspdFilter.h`), the version that is built (`src/euclideanMst/CMakeLists.txt`).

Items of the kd-tree are the indices of the points (the code subtracts the base pointer `S.data()`).
Distances are over the reals; `numeric_limits::max()` is `⊤`.
-/

namespace Verif.Emst

open Verif.KdTree Verif.UF Verif.Mst

/-- A kd-tree whose nodes carry the id of `include/kdTree/kdTree.h:199,292-310`; `none` is the id -1. -/
inductive NTree (α K : Type) (d : ℕ)
  | leaf (id : Option ℕ) (b : Box K d) (items : List α)
  | node (id : Option ℕ) (b : Box K d) (l r : NTree α K d)

namespace NTree

variable {α K : Type} {d : ℕ}

/-- The tree without ids (`include/kdTree/kdTree.h:190-345`). -/
def tree : NTree α K d → Tree α K d
  | leaf _ b items => .leaf b items
  | node _ b l r => .node b l.tree r.tree

/-- `include/kdTree/treeImpl.h:258,271` (`resetId` in the constructors): after the construction no node
has an id. -/
def ofTree : Tree α K d → NTree α K d
  | .leaf b items => leaf none b items
  | .node b l r => node none b (ofTree l) (ofTree r)

/-- `include/kdTree/kdTree.h:292-310` (`hasId`, `getId`). -/
def id : NTree α K d → Option ℕ
  | leaf i _ _ => i
  | node i _ _ _ => i

/-- `include/kdTree/kdTree.h:270` (`size`). -/
def size (t : NTree α K d) : ℕ := t.tree.size

/-- `include/kdTree/kdTree.h:280-282` (`getMin`, `getMax`). -/
def box (t : NTree α K d) : Box K d := t.tree.box

end NTree

variable {d : ℕ} {K : Type}

/-- `src/euclideanMst/memoGfk/mark.h:8-19` (`markAll`). -/
def markAll {α : Type} (id : ℕ) : NTree α K d → NTree α K d
  | .leaf _ b items => .leaf (some id) b items
  | .node i b l r =>
    if i ≠ some id then .node (some id) b (markAll id l) (markAll id r) else .node (some id) b l r

/-- `src/euclideanMst/memoGfk/mark.h:32-36`: the loop over the items of a leaf; whether all have root
`r`. -/
def markLeaf (r : ℤ) : List ℕ → List ℤ → Except Err (Bool × List ℤ)
  | [], P => .ok (true, P)
  | x :: xs, P => (find P x).bind fun q => if r ≠ q.1 then .ok (false, q.2) else markLeaf r xs q.2

/-- `src/euclideanMst/memoGfk/mark.h:22-54` (`mark`); the two branches of a `par_do` are executed one
after the other (C12 shows that concurrent finds keep all roots). The second component is the parent
array of the union-find structure, which `find` compresses. -/
def mark : NTree ℕ K d → List ℤ → Except Err (NTree ℕ K d × List ℤ)
  | .leaf i b items, P =>
    match items with
    | [] => .error .ub
    | x :: xs => (find P x).bind fun q =>
      if i.isSome then .ok (markAll q.1.toNat (.leaf i b (x :: xs)), q.2)
      else (markLeaf q.1 xs q.2).map fun s =>
        (.leaf (if s.1 then some q.1.toNat else none) b (x :: xs), s.2)
  | .node i b l r, P =>
    match l.tree.items ++ r.tree.items with
    | [] => .error .ub
    | x :: _ => (find P x).bind fun q =>
      if i.isSome then .ok (markAll q.1.toNat (.node i b l r), q.2)
      else (mark l q.2).bind fun ml => (mark r ml.2).map fun mr =>
        (.node (if ml.1.id ≠ some q.1.toNat then none else if mr.1.id ≠ some q.1.toNat then none
          else some q.1.toNat) b ml.1 mr.1, mr.2)

section

variable {α : Type} [Field K] [LinearOrder K]

/-- `include/kdTree/wspdImpl.h:76-116` (`findPairSerial`) with the test `moveon`; `ws` is the separation
test. Returns the pairs given to `run`. -/
def findPairSerialF (moveon : NTree α K d → NTree α K d → Bool) (ws : Tree α K d → Tree α K d → Bool) :
    ℕ → NTree α K d → NTree α K d → Except Err (List (NTree α K d × NTree α K d))
  | 0, _, _ => .error .fuel
  | fuel + 1, u, v =>
    if !moveon u v then .ok []
    else if ws u.tree v.tree then .ok [(u, v)]
    else
      match u, v with
      | .leaf _ _ _, .leaf _ _ _ => .error .throws
      | .leaf ju bu iu, .node _ _ vl vr =>
        (findPairSerialF moveon ws fuel vl (.leaf ju bu iu)).bind fun o1 =>
        (findPairSerialF moveon ws fuel vr (.leaf ju bu iu)).map fun o2 => o1 ++ o2
      | .node _ _ ul ur, .leaf jv bv iv =>
        (findPairSerialF moveon ws fuel ul (.leaf jv bv iv)).bind fun o1 =>
        (findPairSerialF moveon ws fuel ur (.leaf jv bv iv)).map fun o2 => o1 ++ o2
      | .node ju bu ul ur, .node jv bv vl vr =>
        if lMax bu > lMax bv then
          (findPairSerialF moveon ws fuel ul (.node jv bv vl vr)).bind fun o1 =>
          (findPairSerialF moveon ws fuel ur (.node jv bv vl vr)).map fun o2 => o1 ++ o2
        else
          (findPairSerialF moveon ws fuel vl (.node ju bu ul ur)).bind fun o1 =>
          (findPairSerialF moveon ws fuel vr (.node ju bu ul ur)).map fun o2 => o1 ++ o2

/-- `include/kdTree/wspdImpl.h:192-243` (`findPairParallel`) with the test `moveon`. The test is made
again by `findPairSerial` for small nodes; because it may depend on a shared variable the second
answer is a separate parameter `moveonS`. -/
def findPairParallelF (moveon moveonS : NTree α K d → NTree α K d → Bool)
    (ws : Tree α K d → Tree α K d → Bool) :
    ℕ → NTree α K d → NTree α K d → Except Err (List (NTree α K d × NTree α K d))
  | 0, _, _ => .error .fuel
  | fuel + 1, u, v =>
    if !moveon u v then .ok []
    else if u.size + v.size < 2000 then findPairSerialF moveonS ws (fuel + 1) u v
    else if ws u.tree v.tree then .ok [(u, v)]
    else
      match u, v with
      | .leaf _ _ _, .leaf _ _ _ => .error .throws
      | .leaf ju bu iu, .node _ _ vl vr =>
        (findPairParallelF moveon moveonS ws fuel vl (.leaf ju bu iu)).bind fun o1 =>
        (findPairParallelF moveon moveonS ws fuel vr (.leaf ju bu iu)).map fun o2 => o1 ++ o2
      | .node _ _ ul ur, .leaf jv bv iv =>
        (findPairParallelF moveon moveonS ws fuel ul (.leaf jv bv iv)).bind fun o1 =>
        (findPairParallelF moveon moveonS ws fuel ur (.leaf jv bv iv)).map fun o2 => o1 ++ o2
      | .node ju bu ul ur, .node jv bv vl vr =>
        if lMax bu > lMax bv then
          (findPairParallelF moveon moveonS ws fuel ul (.node jv bv vl vr)).bind fun o1 =>
          (findPairParallelF moveon moveonS ws fuel ur (.node jv bv vl vr)).map fun o2 => o1 ++ o2
        else
          (findPairParallelF moveon moveonS ws fuel vl (.node ju bu ul ur)).bind fun o1 =>
          (findPairParallelF moveon moveonS ws fuel vr (.node ju bu ul ur)).map fun o2 => o1 ++ o2

/-- `include/kdTree/wspdImpl.h:118-128` (`computeWspdSerial`) with the tests `start` and `moveon`. -/
def wspdSerialF (start : NTree α K d → Bool) (moveon : NTree α K d → NTree α K d → Bool)
    (ws : Tree α K d → Tree α K d → Bool) :
    NTree α K d → Except Err (List (NTree α K d × NTree α K d))
  | .leaf _ _ _ => .ok []
  | .node i b l r =>
    if start (.node i b l r) then
      (wspdSerialF start moveon ws l).bind fun o1 => (wspdSerialF start moveon ws r).bind fun o2 =>
      (findPairSerialF moveon ws (l.tree.height + r.tree.height + 1) l r).map fun o3 => o1 ++ o2 ++ o3
    else .ok []

/-- `include/kdTree/wspdImpl.h:245-261` (`computeWspdParallel`) with the tests `start` and `moveon`. -/
def wspdParallelF (start : NTree α K d → Bool) (moveon moveonS : NTree α K d → NTree α K d → Bool)
    (ws : Tree α K d → Tree α K d → Bool) :
    NTree α K d → Except Err (List (NTree α K d × NTree α K d))
  | .leaf i b items =>
    if (NTree.leaf i b items : NTree α K d).size < 2000 then
      wspdSerialF start moveonS ws (.leaf i b items) else .ok []
  | .node i b l r =>
    if (NTree.node i b l r).size < 2000 then wspdSerialF start moveonS ws (.node i b l r)
    else if start (.node i b l r) then
      (wspdParallelF start moveon moveonS ws l).bind fun o1 =>
      (wspdParallelF start moveon moveonS ws r).bind fun o2 =>
      (findPairParallelF moveon moveonS ws (l.tree.height + r.tree.height + 1) l r).map fun o3 =>
        o1 ++ o2 ++ o3
    else .ok []

end

/-- `include/kdTree/treeImpl.h:275-297` (`nodeDistance`). -/
noncomputable def nodeDist (b1 b2 : Box ℝ d) : ℝ := Real.sqrt (nodeDistSqr b1 b2)

/-- `include/kdTree/treeImpl.h:299-310` (`nodeFarDistance`). -/
noncomputable def nodeFarDist (b1 b2 : Box ℝ d) : ℝ := Real.sqrt (nodeFarDistSqr b1 b2)

/-- `src/euclideanMst/memoGfk/wspdFilter.h:57,105,170,241`: both nodes are known to be in the same
component. -/
def sameId {α : Type} (u v : NTree α K d) : Bool := u.id.isSome && u.id == v.id

open Classical in
/-- `src/euclideanMst/memoGfk/wspdFilter.h:56-61,169-174` (`moveon` of the rho traversal); `obs` is the
value of the shared variable `rho` that the test reads. -/
noncomputable def rhoMoveon (beta : ℕ) (obs : NTree ℕ ℝ d → NTree ℕ ℝ d → WithTop ℝ)
    (u v : NTree ℕ ℝ d) : Bool :=
  !sameId u v && !decide (u.size + v.size ≤ beta) &&
    !decide ((nodeDist u.box v.box : WithTop ℝ) ≥ obs u v)

/-- `src/euclideanMst/memoGfk/wspdFilter.h:63-69,176-182` (`start` of the rho traversal). -/
def rhoStart (beta : ℕ) (u : NTree ℕ ℝ d) : Bool := decide (u.size > beta)

open Classical in
/-- `src/euclideanMst/memoGfk/wspdFilter.h:104-109,240-245` (`moveon` of the edge traversal). -/
noncomputable def getMoveon (rhoLo rhoHi : WithTop ℝ) (u v : NTree ℕ ℝ d) : Bool :=
  !sameId u v && !decide ((nodeDist u.box v.box : WithTop ℝ) ≥ rhoHi) &&
    !decide ((nodeFarDist u.box v.box : WithTop ℝ) < rhoLo)

open Classical in
/-- `src/euclideanMst/memoGfk/wspdFilter.h:111-117,247-253` (`start` of the edge traversal);
`include/kdTree/kdTree.h:318-327` (`diag`). -/
noncomputable def getStart (rhoLo : WithTop ℝ) (u : NTree ℕ ℝ d) : Bool :=
  decide ((boxDiam u.box : WithTop ℝ) ≥ rhoLo)

/-- `src/euclideanMst/memoGfk/wspdFilter.h:47-54,161-167`: the value of `rho` after all calls of `run`
(`write_min`, C13). -/
noncomputable def rhoOf (L : List (NTree ℕ ℝ d × NTree ℕ ℝ d)) : WithTop ℝ :=
  L.foldl (fun r p => min r (nodeDist p.1.box p.2.box : WithTop ℝ)) ⊤

open Classical in
/-- `src/euclideanMst/memoGfk/wspdFilter.h:95-102,228-238` (`run` of the edge traversal): the edge
recorded for a pair, if any. -/
noncomputable def getRun (pos : ℕ → Point ℝ d)
    (ord : List (Tree ℕ ℝ d × Tree ℕ ℝ d) → List (Tree ℕ ℝ d × Tree ℕ ℝ d))
    (beta : ℕ) (rhoLo rhoHi : WithTop ℝ) (p : NTree ℕ ℝ d × NTree ℕ ℝ d) :
    Except Err (Option (WEdge ℝ)) :=
  (bichromaticClosestPair pos ord p.1.tree p.2.tree).bind fun r =>
    match r with
    | none => .error .ub
    | some (u, v, c) =>
      if p.1.size + p.2.size ≤ beta ∧ (Real.sqrt c : WithTop ℝ) ≥ rhoLo ∧
          (Real.sqrt c : WithTop ℝ) < rhoHi then
        .ok (some ⟨u, v, Real.sqrt c⟩)
      else .ok none

/-- Everything the schedule decides in one round: what the tests of the rho traversal read
(in `findPairParallel` and in `findPairSerial`; a function of `beta`, of the tree and of the pair of nodes
tested), the tie breaking in `bichromaticClosestPair`, the
order in which the worker buffers are collected, and the schedule of `batchKruskal`
(`src/euclideanMst/memoGfk/emst.cpp:50-88`). -/
structure Sched (d : ℕ) where
  obs : ℕ → NTree ℕ ℝ d → NTree ℕ ℝ d → NTree ℕ ℝ d → WithTop ℝ
  obsS : ℕ → NTree ℕ ℝ d → NTree ℕ ℝ d → NTree ℕ ℝ d → WithTop ℝ
  ord : List (Tree ℕ ℝ d × Tree ℕ ℝ d) → List (Tree ℕ ℝ d × Tree ℕ ℝ d)
  buf : List (WEdge ℝ) → List (WEdge ℝ)
  kr : Env

/-- `src/euclideanMst/memoGfk/wspdFilter.h:265` first traversal of `filterWspdParallel`: the value of
`rho`. -/
noncomputable def rhoPass (sch : Sched d) (beta : ℕ) (t : NTree ℕ ℝ d) : Except Err (WithTop ℝ) :=
  (wspdParallelF (rhoStart beta) (rhoMoveon beta (sch.obs beta t)) (rhoMoveon beta (sch.obsS beta t))
    (geomWellSeparated 2) t).map rhoOf

/-- `src/euclideanMst/memoGfk/wspdFilter.h:267-269` second traversal of `filterWspdParallel`: the
edges. -/
noncomputable def getPass (pos : ℕ → Point ℝ d) (sch : Sched d) (beta : ℕ) (rhoLo rhoHi : WithTop ℝ)
    (t : NTree ℕ ℝ d) : Except Err (List (WEdge ℝ)) :=
  (wspdParallelF (getStart rhoLo) (getMoveon rhoLo rhoHi) (getMoveon rhoLo rhoHi)
    (geomWellSeparated 2) t).bind fun L =>
  (L.mapM (getRun pos sch.ord beta rhoLo rhoHi)).map fun es => sch.buf (es.filterMap fun e => e)

/-- The routines of a round that work on shared variables: the two traversals of `filterWspdParallel`
(`src/euclideanMst/memoGfk/wspdFilter.h:265`; given `beta` and the tree, the value of `rho`, and
`src/euclideanMst/memoGfk/wspdFilter.h:267-269`; given `beta`, the two values of `rho` and the tree, the edges), `batchKruskal`
(`src/euclideanMst/memoGfk/emst.cpp:86`) and `mark` (`src/euclideanMst/memoGfk/emst.cpp:90`). -/
structure Routines (d : ℕ) where
  rho : ℕ → NTree ℕ ℝ d → Except Err (WithTop ℝ)
  get : (ℕ → Point ℝ d) → ℕ → WithTop ℝ → WithTop ℝ → NTree ℕ ℝ d → Except Err (List (WEdge ℝ))
  kr : List (WEdge ℝ) → ℕ → EdgeUF ℝ → Except Err (EdgeUF ℝ)
  mark : NTree ℕ ℝ d → List ℤ → Except Err (NTree ℕ ℝ d × List ℤ)

/-- `src/euclideanMst/memoGfk/emst.cpp:50-94`: the main loop, `rou k` being the routines called in
round `k`. -/
noncomputable def emstLoopK (rou : ℕ → Routines d)
    (pos : ℕ → Point ℝ d) (n : ℕ) :
    ℕ → ℕ → ℕ → WithTop ℝ → NTree ℕ ℝ d → EdgeUF ℝ → Except Err (EdgeUF ℝ)
  | 0, k, beta, rhoLo, t, uf => if uf.numEdge < n - 1 then .error .fuel else .ok uf
  | fuel + 1, k, beta, rhoLo, t, uf =>
    if uf.numEdge < n - 1 then
      ((rou k).rho beta t).bind fun rhoHi =>
      ((rou k).get pos beta rhoLo rhoHi t).bind fun edges =>
      if edges.length ≤ 0 then emstLoopK rou pos n fuel (k + 1) (beta * 2) rhoHi t uf
      else
        ((rou k).kr edges n uf).bind fun uf' =>
        ((rou k).mark t uf'.P).bind fun m =>
        emstLoopK rou pos n fuel (k + 1) (beta * 2) rhoHi m.1 { uf' with P := m.2 }
    else .ok uf

/-- Point number `i` of the input (`src/euclideanMst/memoGfk/emst.cpp:74`: pointers into `S`). -/
def ptAt (S : List (Point ℝ d)) (i : ℕ) : Point ℝ d := (S[i]?).getD 0

/-- `src/euclideanMst/memoGfk/emst.cpp:17-108` (`euclideanMst`). `w` and `bs` are the
parameters of the parallel tree construction, `rou` the routines called in the rounds. -/
noncomputable def euclideanMstK (rou : ℕ → Routines d) (w bs : ℕ)
    (S : List (Point ℝ d)) : Except Err (List (WEdge ℝ)) :=
  if S.length < 2 then .error .throws
  else
    (build w bs (ptAt S) 1 true (List.range S.length)).bind fun t =>
    (emstLoopK rou (ptAt S) S.length (S.length + 1) 0 2 ((-0.1 : ℝ) : WithTop ℝ) (NTree.ofTree t)
      (EdgeUF.new S.length)).map fun uf => uf.getEdge

/-- `src/euclideanMst/memoGfk/emst.cpp:17-108` (`euclideanMst`) with `batchKruskal` step by step
(`include/euclideanMst/kruskal.h:173-196`; the granularity of the interleavings is the one of C14). -/
noncomputable def euclideanMst (w bs : ℕ) (sch : ℕ → Sched d) (S : List (Point ℝ d)) :
    Except Err (List (WEdge ℝ)) :=
  euclideanMstK (fun k => ⟨rhoPass (sch k), fun pos => getPass pos (sch k), batchKruskal (sch k).kr, mark⟩) w bs S

/-- `src/euclideanMst/memoGfk/emst.cpp:17-108` (`euclideanMst`) with `batchKruskal` access by access
(`include/euclideanMst/kruskal.h:173-196`); `fe k` interleaves the memory accesses of round `k`. -/
noncomputable def euclideanMstF (fe : ℕ → FineEnv) (w bs : ℕ) (sch : ℕ → Sched d) (S : List (Point ℝ d)) :
    Except Err (List (WEdge ℝ)) :=
  euclideanMstK (fun k => ⟨rhoPass (sch k), fun pos => getPass pos (sch k), batchKruskalF (fe k) 20, mark⟩) w bs S

end Verif.Emst
