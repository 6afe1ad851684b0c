import Verif.Emst.ConcModel
import Verif.Par.ParBufModel
import Verif.SpatialGraph.SpannerModel

/-!
The traversals that collect pairs in the per-worker buffers of `include/pargeo/parBuffer.h`, access by access: the
well-separated pair decomposition (`include/kdTree/wspdImpl.h:149-278`), the spanner built from it, and the second traversal
of `filterWspdParallel` (`src/euclideanMst/memoGfk/wspdFilter.h:184-269`).

A push works on the buffer of the worker that executes it; which worker that is, is decided by the scheduler, and so is the
order of the pushes. No other worker touches the buffer, so a push is one access of the model.
-/

namespace Verif.Emst

open Verif.KdTree Verif.UF Verif.Mst Verif.ForkJoin Verif.Par

variable {d : ℕ} {α K β : Type}

/-- The buffers of all workers (`include/kdTree/wspdImpl.h:155`, `src/euclideanMst/memoGfk/wspdFilter.h:196`) and the number
of pushes so far, which only serves to index the choice of the worker. -/
abbrev BufMem (β : Type) := List (ParBuf β) × ℕ

/-- A program that pushes to the buffers (`include/kdTree/wspdImpl.h:168-173`). -/
abbrev BufProg (β : Type) := FJ (BufMem β) (Option Err) Unit

/-- What the scheduler decides in one collection: the worker that executes the push number `i`
(`parlay::worker_id()`, `include/kdTree/wspdImpl.h:170`), the interleaving of the branches of `parlay::par_do`
(`include/kdTree/wspdImpl.h:212-238,253-256`) and the order of the writes of the copy loops
(`include/pargeo/parBuffer.h:145-156`). -/
structure BufEnv (β : Type) where
  who : ℕ → ℕ
  sched : ℕ → List Bool
  copy : List (ℕ × β) → List (ℕ × β)

/-- `include/kdTree/wspdImpl.h:170-172`, `src/euclideanMst/memoGfk/wspdFilter.h:224-227`: `increment()` on the buffer of the
current worker and the write through the pointer returned. Pointers have 8 bytes, elements `szT`. -/
def bufPush (who : ℕ → ℕ) (szT : ℕ) (x : β) (s : BufMem β) : Option Err × BufMem β :=
  match s.1[who s.2]? with
  | none => (some .ub, s)
  | some b =>
    match b.push szT 8 x with
    | .error e => (some e, s)
    | .ok b' => (none, (s.1.set (who s.2) b', s.2 + 1))

/-- A push as a program (`include/kdTree/wspdImpl.h:168-173`). -/
def pushP (who : ℕ → ℕ) (szT : ℕ) (x : β) : BufProg β :=
  .act (bufPush who szT x) fun v => match v with
    | none => .ret ()
    | some e => .err e

/-- `include/pargeo/parBuffer.h:131-158` (`parBufCollect`), the writes of the copy loops in the order `copy`; the result is a
sequence all of whose cells have been written, reading another cell would be undefined. -/
def collectSeq (copy : List (ℕ × β) → List (ℕ × β)) (bs : List (ParBuf β)) : Except Err (List β) :=
  (collect bs).bind fun x =>
    match runWrites x.2 (copy x.1) with
    | none => .error .ub
    | some cells =>
      match cells.mapM id with
      | none => .error .ub
      | some out => .ok out

/-- `include/kdTree/wspdImpl.h:157-163,175-179,270-275`: create the buffers of `P` workers with room for `n / P` elements
each, run the traversal, collect. -/
def bufRun (env : BufEnv β) (P szT n : ℕ) (prog : BufProg β) : Except Err (List β) :=
  (prog.run env.sched 0 (List.replicate P (ParBuf.new (n / P)), 0)).bind fun x => collectSeq env.copy x.2.1

section

variable [Field K] [LinearOrder K]

/-- `include/kdTree/wspdImpl.h:76-116` (`findPairSerial`) for an operation object with the tests `moveon` and `ws` and the
program `run`. -/
def findPairSerialG (moveon : NTree α K d → NTree α K d → Bool) (ws : Tree α K d → Tree α K d → Bool)
    (run : NTree α K d × NTree α K d → BufProg β) : ℕ → NTree α K d → NTree α K d → BufProg β
  | 0, _, _ => .err .fuel
  | fuel + 1, u, v =>
    if !moveon u v then .ret ()
    else if ws u.tree v.tree then run (u, v)
    else
      match u, v with
      | .leaf _ _ _, .leaf _ _ _ => .err .throws
      | .leaf ju bu iu, .node _ _ vl vr =>
        (findPairSerialG moveon ws run fuel vl (.leaf ju bu iu)).bind fun _ =>
          findPairSerialG moveon ws run fuel vr (.leaf ju bu iu)
      | .node _ _ ul ur, .leaf jv bv iv =>
        (findPairSerialG moveon ws run fuel ul (.leaf jv bv iv)).bind fun _ =>
          findPairSerialG moveon ws run fuel ur (.leaf jv bv iv)
      | .node ju bu ul ur, .node jv bv vl vr =>
        if lMax bu > lMax bv then
          (findPairSerialG moveon ws run fuel ul (.node jv bv vl vr)).bind fun _ =>
            findPairSerialG moveon ws run fuel ur (.node jv bv vl vr)
        else
          (findPairSerialG moveon ws run fuel vl (.node ju bu ul ur)).bind fun _ =>
            findPairSerialG moveon ws run fuel vr (.node ju bu ul ur)

/-- `include/kdTree/wspdImpl.h:192-243` (`findPairParallel`). -/
def findPairParallelG (moveon : NTree α K d → NTree α K d → Bool) (ws : Tree α K d → Tree α K d → Bool)
    (run : NTree α K d × NTree α K d → BufProg β) : ℕ → NTree α K d → NTree α K d → BufProg β
  | 0, _, _ => .err .fuel
  | fuel + 1, u, v =>
    if !moveon u v then .ret ()
    else if u.size + v.size < 2000 then findPairSerialG moveon ws run (fuel + 1) u v
    else if ws u.tree v.tree then run (u, v)
    else
      match u, v with
      | .leaf _ _ _, .leaf _ _ _ => .err .throws
      | .leaf ju bu iu, .node _ _ vl vr =>
        .par (findPairParallelG moveon ws run fuel vl (.leaf ju bu iu))
          (findPairParallelG moveon ws run fuel vr (.leaf ju bu iu)) fun _ _ => .ret ()
      | .node _ _ ul ur, .leaf jv bv iv =>
        .par (findPairParallelG moveon ws run fuel ul (.leaf jv bv iv))
          (findPairParallelG moveon ws run fuel ur (.leaf jv bv iv)) fun _ _ => .ret ()
      | .node ju bu ul ur, .node jv bv vl vr =>
        if lMax bu > lMax bv then
          .par (findPairParallelG moveon ws run fuel ul (.node jv bv vl vr))
            (findPairParallelG moveon ws run fuel ur (.node jv bv vl vr)) fun _ _ => .ret ()
        else
          .par (findPairParallelG moveon ws run fuel vl (.node ju bu ul ur))
            (findPairParallelG moveon ws run fuel vr (.node ju bu ul ur)) fun _ _ => .ret ()

/-- `include/kdTree/wspdImpl.h:118-128` (`computeWspdSerial`). -/
def wspdSerialG (start : NTree α K d → Bool) (moveon : NTree α K d → NTree α K d → Bool)
    (ws : Tree α K d → Tree α K d → Bool) (run : NTree α K d × NTree α K d → BufProg β) : NTree α K d → BufProg β
  | .leaf _ _ _ => .ret ()
  | .node i b l r =>
    if start (.node i b l r) then
      (wspdSerialG start moveon ws run l).bind fun _ => (wspdSerialG start moveon ws run r).bind fun _ =>
        findPairSerialG moveon ws run (l.tree.height + r.tree.height + 1) l r
    else .ret ()

/-- `include/kdTree/wspdImpl.h:245-261` (`computeWspdParallel`): the children concurrently, then the pairs across. -/
def wspdParallelG (start : NTree α K d → Bool) (moveon : NTree α K d → NTree α K d → Bool)
    (ws : Tree α K d → Tree α K d → Bool) (run : NTree α K d × NTree α K d → BufProg β) : NTree α K d → BufProg β
  | .leaf i b items =>
    if (NTree.leaf i b items : NTree α K d).size < 2000 then wspdSerialG start moveon ws run (.leaf i b items)
    else .ret ()
  | .node i b l r =>
    if (NTree.node i b l r).size < 2000 then wspdSerialG start moveon ws run (.node i b l r)
    else if start (.node i b l r) then
      .par (wspdParallelG start moveon ws run l) (wspdParallelG start moveon ws run r) fun _ _ =>
        findPairParallelG moveon ws run (l.tree.height + r.tree.height + 1) l r
    else .ret ()

end

/-- `include/kdTree/wspdImpl.h:263-278` (`wellSeparatedPairDecomp`) with the operation object of 147-190, for `P` workers.
The element of the buffers is a pair of pointers (`include/kdTree/kdTree.h:100-106`, `wsp`). -/
noncomputable def wspdBuf (env : BufEnv (Tree α ℝ d × Tree α ℝ d)) (P : ℕ) (s : ℝ) (t : Tree α ℝ d) :
    Except Err (List (Tree α ℝ d × Tree α ℝ d)) :=
  bufRun env P 16 t.size (wspdParallelG (fun _ => true) (fun _ _ => true) (geomWellSeparated s)
    (fun p => pushP env.who 16 (p.1.tree, p.2.tree)) (NTree.ofTree t))

/-- `src/spatialGraph/spanner/spanner.cpp:9-47` (`spanner`) for `P` workers, on the decomposition collected in the
buffers. -/
noncomputable def spannerBuf (env : BufEnv (Tree ℕ ℝ d × Tree ℕ ℝ d)) (P w bs : ℕ) (S : List (Point ℝ d)) (t : ℝ) :
    Except Err (List (ℕ × ℕ)) :=
  if S.length < 2 then .error .throws else
    (build w bs (SpatialGraph.ptAt S) 1 true (List.range S.length)).bind fun tree =>
      (wspdBuf env P (4 * (t + 1) / (t - 1)) tree).bind fun wspd => wspd.mapM SpatialGraph.pairEdge

/-- `src/euclideanMst/memoGfk/wspdFilter.h:219-229` (`run` of `wspGetParallel`); the closest pair is computed by the thread
on its own (C07). -/
noncomputable def getRunP (pos : ℕ → Point ℝ d)
    (ord : List (Tree ℕ ℝ d × Tree ℕ ℝ d) → List (Tree ℕ ℝ d × Tree ℕ ℝ d)) (who : ℕ → ℕ)
    (beta : ℕ) (rhoLo rhoHi : WithTop ℝ) (p : NTree ℕ ℝ d × NTree ℕ ℝ d) : BufProg (WEdge ℝ) :=
  match getRun pos ord beta rhoLo rhoHi p with
  | .error e => .err e
  | .ok none => .ret ()
  | .ok (some e) => pushP who 24 e

/-- `src/euclideanMst/memoGfk/wspdFilter.h:198-217,265-270`: the second traversal of `filterWspdParallel` for `P` workers. The
element of the buffers is a tuple of two pointers and a number (186-188). -/
noncomputable def getBuf (env : BufEnv (WEdge ℝ)) (P : ℕ)
    (ord : List (Tree ℕ ℝ d × Tree ℕ ℝ d) → List (Tree ℕ ℝ d × Tree ℕ ℝ d)) (pos : ℕ → Point ℝ d) (beta : ℕ)
    (rhoLo rhoHi : WithTop ℝ) (t : NTree ℕ ℝ d) : Except Err (List (WEdge ℝ)) :=
  bufRun env P 24 t.size (wspdParallelG (getStart rhoLo) (getMoveon rhoLo rhoHi) (geomWellSeparated 2)
    (getRunP pos ord env.who beta rhoLo rhoHi) t)

/-- What the scheduler decides in one round of `src/euclideanMst/memoGfk/emst.cpp:50-94`: the interleavings of the rho
traversal, of the traversal that collects edges, of `batchKruskal` and of `mark`, and the tie breaking of the closest
pairs. -/
structure RoundEnv (d : ℕ) where
  conc : ConcEnv
  buf : BufEnv (WEdge ℝ)
  ord : List (Tree ℕ ℝ d × Tree ℕ ℝ d) → List (Tree ℕ ℝ d × Tree ℕ ℝ d)

/-- `src/euclideanMst/memoGfk/emst.cpp:17-108` (`euclideanMst`) for `P` workers, with every routine that shares variables
access by access. `g` bounds the number of attempts of a `write_min`. -/
noncomputable def euclideanMstBuf (g P : ℕ) (re : ℕ → RoundEnv d) (w bs : ℕ) (S : List (Point ℝ d)) :
    Except Err (List (WEdge ℝ)) :=
  euclideanMstK (fun k => ⟨rhoConc (re k).conc.rho g, getBuf (re k).buf P (re k).ord, batchKruskalF (re k).conc.kr 20,
    markConc (re k).conc.mark⟩) w bs S

end Verif.Emst
