import Verif.Emst.Model
import Verif.Par.ForkJoin

/-!
The rho traversal and `mark` of the Euclidean minimum spanning tree as fork-join programs, access by access: the branches of
`parlay::par_do` run concurrently and share the variable `rho` and the array `parents`.
-/

namespace Verif.Emst

open Verif.KdTree Verif.UF Verif.Mst Verif.ForkJoin

variable {d : ℕ} {K : Type}

/-- A program that works on the shared variable `rho` (`src/euclideanMst/memoGfk/wspdFilter.h:150`). -/
abbrev RhoProg := FJ (WithTop ℝ) (WithTop ℝ) Unit

open Classical in
/-- `parlay::write_min(&rho, x)` (`src/euclideanMst/memoGfk/wspdFilter.h:160`; the text of the loop is the one of
`include/pargeo/atomics.h:60-66`): load, and compare-and-swap if the new value is smaller, until it succeeds or the value is
not smaller. The access of the compare-and-swap returns the value found. -/
noncomputable def writeMinP (x : WithTop ℝ) : ℕ → RhoProg
  | 0 => .err .fuel
  | g + 1 => .act (fun s => (s, s)) fun c =>
      if x < c then
        .act (fun s => (s, if s = c then x else s)) fun o => if o = c then .ret () else writeMinP x g
      else .ret ()

open Classical in
/-- `src/euclideanMst/memoGfk/wspdFilter.h:163-168` (`moveon`); `yes` is what happens if the test succeeds. `rho` is read
only if the first two tests do not decide. -/
noncomputable def moveonP (beta : ℕ) (u v : NTree ℕ ℝ d) (yes : RhoProg) : RhoProg :=
  if sameId u v then .ret ()
  else if u.size + v.size ≤ beta then .ret ()
  else .act (fun s => (s, s)) fun c => if (nodeDist u.box v.box : WithTop ℝ) ≥ c then .ret () else yes

/-- `include/kdTree/wspdImpl.h:76-116` (`findPairSerial`) with the tests and the `run` of
`src/euclideanMst/memoGfk/wspdFilter.h:145-181`. `g` bounds the number of attempts of a `write_min`. -/
noncomputable def findPairSerialP (beta g : ℕ) : ℕ → NTree ℕ ℝ d → NTree ℕ ℝ d → RhoProg
  | 0, _, _ => .err .fuel
  | fuel + 1, u, v =>
    moveonP beta u v <|
      if geomWellSeparated 2 u.tree v.tree then writeMinP (nodeDist u.box v.box : WithTop ℝ) g
      else
        match u, v with
        | .leaf _ _ _, .leaf _ _ _ => .err .throws
        | .leaf ju bu iu, .node _ _ vl vr =>
          (findPairSerialP beta g fuel vl (.leaf ju bu iu)).bind fun _ =>
            findPairSerialP beta g fuel vr (.leaf ju bu iu)
        | .node _ _ ul ur, .leaf jv bv iv =>
          (findPairSerialP beta g fuel ul (.leaf jv bv iv)).bind fun _ =>
            findPairSerialP beta g fuel ur (.leaf jv bv iv)
        | .node ju bu ul ur, .node jv bv vl vr =>
          if lMax bu > lMax bv then
            (findPairSerialP beta g fuel ul (.node jv bv vl vr)).bind fun _ =>
              findPairSerialP beta g fuel ur (.node jv bv vl vr)
          else
            (findPairSerialP beta g fuel vl (.node ju bu ul ur)).bind fun _ =>
              findPairSerialP beta g fuel vr (.node ju bu ul ur)

/-- `include/kdTree/wspdImpl.h:192-243` (`findPairParallel`) with the tests and the `run` of
`src/euclideanMst/memoGfk/wspdFilter.h:145-181`. -/
noncomputable def findPairParallelP (beta g : ℕ) : ℕ → NTree ℕ ℝ d → NTree ℕ ℝ d → RhoProg
  | 0, _, _ => .err .fuel
  | fuel + 1, u, v =>
    moveonP beta u v <|
      if u.size + v.size < 2000 then findPairSerialP beta g (fuel + 1) u v
      else if geomWellSeparated 2 u.tree v.tree then writeMinP (nodeDist u.box v.box : WithTop ℝ) g
      else
        match u, v with
        | .leaf _ _ _, .leaf _ _ _ => .err .throws
        | .leaf ju bu iu, .node _ _ vl vr =>
          .par (findPairParallelP beta g fuel vl (.leaf ju bu iu)) (findPairParallelP beta g fuel vr (.leaf ju bu iu))
            fun _ _ => .ret ()
        | .node _ _ ul ur, .leaf jv bv iv =>
          .par (findPairParallelP beta g fuel ul (.leaf jv bv iv)) (findPairParallelP beta g fuel ur (.leaf jv bv iv))
            fun _ _ => .ret ()
        | .node ju bu ul ur, .node jv bv vl vr =>
          if lMax bu > lMax bv then
            .par (findPairParallelP beta g fuel ul (.node jv bv vl vr))
              (findPairParallelP beta g fuel ur (.node jv bv vl vr)) fun _ _ => .ret ()
          else
            .par (findPairParallelP beta g fuel vl (.node ju bu ul ur))
              (findPairParallelP beta g fuel vr (.node ju bu ul ur)) fun _ _ => .ret ()

/-- `include/kdTree/wspdImpl.h:118-128` (`computeWspdSerial`) with the tests and the `run` of
`src/euclideanMst/memoGfk/wspdFilter.h:145-181`. -/
noncomputable def wspdSerialP (beta g : ℕ) : NTree ℕ ℝ d → RhoProg
  | .leaf _ _ _ => .ret ()
  | .node i b l r =>
    if rhoStart beta (.node i b l r) then
      (wspdSerialP beta g l).bind fun _ => (wspdSerialP beta g r).bind fun _ =>
        findPairSerialP beta g (l.tree.height + r.tree.height + 1) l r
    else .ret ()

/-- `include/kdTree/wspdImpl.h:245-261` (`computeWspdParallel`) with the tests and the `run` of
`src/euclideanMst/memoGfk/wspdFilter.h:145-181`: the children concurrently, then the pairs across. -/
noncomputable def wspdParallelP (beta g : ℕ) : NTree ℕ ℝ d → RhoProg
  | .leaf i b items =>
    if (NTree.leaf i b items : NTree ℕ ℝ d).size < 2000 then wspdSerialP beta g (.leaf i b items) else .ret ()
  | .node i b l r =>
    if (NTree.node i b l r).size < 2000 then wspdSerialP beta g (.node i b l r)
    else if rhoStart beta (.node i b l r) then
      .par (wspdParallelP beta g l) (wspdParallelP beta g r) fun _ _ =>
        findPairParallelP beta g (l.tree.height + r.tree.height + 1) l r
    else .ret ()

/-- `src/euclideanMst/memoGfk/wspdFilter.h:255-269`: the first traversal of `filterWspdParallel` under the schedule `w`, with
`rho` starting at the largest number (line 156); its result is `getRho` (line 178). -/
noncomputable def rhoConc (w : ℕ → List Bool) (g beta : ℕ) (t : NTree ℕ ℝ d) : Except Err (WithTop ℝ) :=
  ((wspdParallelP beta g t).run w 0 ⊤).map fun x => x.2

/-- A program that works on the shared array `parents` (`include/euclideanMst/unionFind.h:97`). -/
abbrev MarkProg (K : Type) (d : ℕ) := FJ (List ℤ) (Option ℤ) (NTree ℕ K d)

/-- A read of `parents[i]` (`include/euclideanMst/unionFind.h:100-122`). -/
def readP (i : ℤ) (k : ℤ → MarkProg K d) : MarkProg K d :=
  .act (fun P => ((get P i).toOption, P)) fun o => match o with
    | some x => k x
    | none => .err .ub

/-- A write of `parents[i]` (`include/euclideanMst/unionFind.h:117`). -/
def writeP (i x : ℤ) (k : MarkProg K d) : MarkProg K d :=
  .act (fun P => match put P i x with
      | .ok P' => (some 0, P')
      | .error _ => (none, P)) fun o => match o with
    | some _ => k
    | none => .err .ub

/-- `include/euclideanMst/unionFind.h:115-121`: the loop of `find` in `edgeUnionFind`. -/
def findLoopP (k : ℤ → MarkProg K d) : ℕ → ℤ → ℤ → MarkProg K d
  | 0, _, _ => .err .fuel
  | f + 1, i, p => readP p fun gp => writeP i gp <| readP gp fun r => if r = -1 then k gp else findLoopP k f p gp

/-- `include/euclideanMst/unionFind.h:109-122` (`find` of `edgeUnionFind`), followed by `k`; `n` is the length of the
array. -/
def findP (n : ℕ) (i : ℤ) (k : ℤ → MarkProg K d) : MarkProg K d :=
  readP i fun r => if r = -1 then k i else
    readP i fun p => readP p fun r => if r = -1 then k p else findLoopP k n i p

/-- `src/euclideanMst/memoGfk/mark.h:33-37`: the loop over the other items of a leaf, followed by `k` on the answer
whether all of them have the representative `r`. -/
def markLeafP (n : ℕ) (r : ℤ) (k : Bool → MarkProg K d) : List ℕ → MarkProg K d
  | [] => k true
  | x :: xs => findP n x fun q => if r ≠ q then k false else markLeafP n r k xs

/-- `src/euclideanMst/memoGfk/mark.h:22-54` (`mark`), access by access. The ids are written only by the thread that works on
the subtree and read after the join, so they are part of the result; `markAll` (8-19) accesses nothing shared. -/
def markP (n : ℕ) : NTree ℕ K d → MarkProg K d
  | .leaf i b items =>
    match items with
    | [] => .err .ub
    | x :: xs => findP n x fun q =>
      if i.isSome then .ret (markAll q.toNat (.leaf i b (x :: xs)))
      else markLeafP n q (fun s => .ret (.leaf (if s then some q.toNat else none) b (x :: xs))) xs
  | .node i b l r =>
    match l.tree.items ++ r.tree.items with
    | [] => .err .ub
    | x :: _ => findP n x fun q =>
      if i.isSome then .ret (markAll q.toNat (.node i b l r))
      else
        let rest := fun l' r' : NTree ℕ K d => (.ret (.node (if l'.id ≠ some q.toNat then none
          else if r'.id ≠ some q.toNat then none else some q.toNat) b l' r') : MarkProg K d)
        if (NTree.node i b l r).size > 2000 then .par (markP n l) (markP n r) rest
        else (markP n l).bind fun l' => (markP n r).bind fun r' => rest l' r'

/-- `src/euclideanMst/memoGfk/emst.cpp:90`: `mark` under the schedule `w`. -/
def markConc (w : ℕ → List Bool) (t : NTree ℕ K d) (P : List ℤ) : Except Err (NTree ℕ K d × List ℤ) :=
  (markP P.length t).run w 0 P

/-- What the schedule decides in one round of `src/euclideanMst/memoGfk/emst.cpp:50-94`: the interleavings of the rho
traversal, of the memory accesses of `batchKruskal` and of `mark`. -/
structure ConcEnv where
  rho : ℕ → List Bool
  kr : FineEnv
  mark : ℕ → List Bool

/-- `src/euclideanMst/memoGfk/emst.cpp:17-108` (`euclideanMst`) with all three routines that share variables access by
access. `g` bounds the number of attempts of a `write_min`. -/
noncomputable def euclideanMstC (g : ℕ) (ce : ℕ → ConcEnv) (w bs : ℕ) (sch : ℕ → Sched d) (S : List (Point ℝ d)) :
    Except Err (List (WEdge ℝ)) :=
  euclideanMstK (fun k => ⟨rhoConc (ce k).rho g, fun pos => getPass pos (sch k), batchKruskalF (ce k).kr 20,
    markConc (ce k).mark⟩) w bs S

end Verif.Emst
