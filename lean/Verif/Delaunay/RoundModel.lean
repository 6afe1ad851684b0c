import Verif.Delaunay.ProgModel
import Verif.Reserve.Model

set_option linter.unusedSectionVars false
set_option linter.unusedVariables false

/-!
Model of one round of the parallel insertion, `src/delaunayTriangulation/incremental/delaunay.cpp:269-277`: two parallel
loops over the vertices of the buffer. Thread `j` works on vertex `j` of the buffer.

In the first loop the mesh is only read, and the field `reserve` of vertices is only accessed by `write_max`; so the
interleaving only matters for the accesses of the latter. In the second loop each thread first reads and resets `reserve`
of its vertices and then, if it won, reads and writes the mesh. These are different cells, so an interleaving of the loop
is given by the order of the accesses to the first and by the order of the accesses to the second. The model admits any
two orders; those that do not belong to an interleaving of the loop do no harm.
-/

namespace Verif.Delaunay

open Verif.Par Verif.Reserve

variable {K : Type} [Field K] [LinearOrder K]

/-- What a thread of `src/delaunayTriangulation/incremental/delaunay.cpp:269-273` leaves for the second loop: `buffer[j]`,
`t[j]` and `VQ[j]`. -/
structure Prep where
  v : ℕ
  t : ℕ
  vq : List ℕ
  sq : List Simplex

/-- `src/delaunayTriangulation/incremental/delaunay.cpp:272-273`, without the writes of `reserve_for_insert`: locate the
vertex from triangle `start` and find its cavity. -/
def prepare (pos : ℕ → P2 K) (m : Mesh) (fuel v start : ℕ) : Except Err Prep :=
  (find pos m (pos v) fuel ⟨start, 0, false⟩).bind fun s => (cavity pos m (pos v) fuel s).map fun q => ⟨v, s.t, q.1, q.2⟩

/-- `src/delaunayTriangulation/incremental/delaunay.cpp:124-127`: thread `t` is not through its priority writes. -/
def reserving (cs : List (Contender ℤ)) (s : RState ℤ) (t : ℕ) : Bool :=
  match cs[t]?, s.pc t with
  | some k, .load i => decide (i < k.cells.length)
  | some _, .cas _ _ => true
  | none, _ => false

/-- `src/delaunayTriangulation/incremental/topology.h:50,51,81`: the memory as mesh. -/
def ofMem (f : Cell → Option ℕ) : Mesh :=
  ⟨fun t => ⟨fun i => f (.ngh t i), fun i => (f (.vtx t i)).getD 0⟩, fun v => (f (.vt v)).getD 0⟩

/-- `src/delaunayTriangulation/incremental/delaunay.cpp:139-148`: the rest of `insert` of thread `t` after the check. -/
def winner (ps : List Prep) (cs : List (Contender ℤ)) (c : CState ℤ) (t : ℕ) : MProg :=
  match ps[t]?, won cs c t with
  | some p, some true => insertP p.v p.t p.sq
  | _, _ => .done

/-- The thread is through (`src/delaunayTriangulation/incremental/delaunay.cpp:276-277`). -/
def isDone : MProg → Bool
  | .done => true
  | _ => false

/-- The thread called `abort` (`src/delaunayTriangulation/incremental/topology.h:64,70`). -/
def isAbort : MProg → Bool
  | .abort => true
  | _ => false

/-- `src/delaunayTriangulation/incremental/delaunay.cpp:269-277`: a round with buffer `b`, from a mesh and the fields
`reserve`. `near v` is the result of `knn.nearest`. `s1`, `s2`, `s3` are the orders of the accesses by `write_max`, by the
check, and to the mesh. The result has the mesh, the fields `reserve` and `flags`. The outcome `fuel` says that some
thread is not through, or that a search was cut off. -/
def insertRound (pos : ℕ → P2 K) (id : ℕ → ℤ) (near : ℕ → ℕ) (fuel : ℕ) (m : Mesh) (res : ℕ → ℤ) (b : List ℕ)
    (s1 s2 s3 : List ℕ) : Except Err (Mesh × (ℕ → ℤ) × List Bool) :=
  (b.mapM fun v => prepare pos m fuel v (m.vt (near v))).bind fun ps =>
  let cs := ps.map fun p => (⟨id p.v, p.vq⟩ : Contender ℤ)
  let ts := List.range b.length
  let r := s1.foldl (rstep cs) ⟨res, fun _ => .load 0⟩
  if ts.any (reserving cs r) then .error .fuel else
  let c := check (-1) cs r.mem s2
  if ts.any (fun t => (won cs c t).isNone) then .error .fuel else
  let p := prun ⟨toMem m, winner ps cs c⟩ s3
  if ts.any (fun t => isAbort (p.pc t)) then .error .throws else
  if ts.any (fun t => !isDone (p.pc t)) then .error .fuel else
  .ok (ofMem p.mem, c.mem, ts.map fun t => !(won cs c t).getD false)

end Verif.Delaunay
