import Verif.Delaunay.MeshModel
import Verif.Delaunay.GeomModel

set_option linter.unusedSectionVars false
set_option linter.unusedVariables false

/-!
Model of point location and insertion, `src/delaunayTriangulation/incremental/delaunay.cpp:74-152`. The reservations
(`write_max`, 124-127, and the check of `insert`, 132-138) are modelled in `Verif/Reserve`; here a point is inserted
whose reservations all held.
-/

namespace Verif.Delaunay

variable {K : Type} [Field K] [LinearOrder K]

/-- `src/delaunayTriangulation/incremental/topology.h:163-166` (`outside`). -/
def outside (pos : ℕ → P2 K) (m : Mesh) (s : Simplex) (p : P2 K) : Bool :=
  if s.boundary then false else counterClockwise (pos (m.vtx s.t (s.o + 2))) p (pos (m.vtx s.t s.o))

/-- `src/delaunayTriangulation/incremental/topology.h:150-154` (`inCirc`). -/
def inCirc (pos : ℕ → P2 K) (m : Mesh) (s : Simplex) (p : P2 K) : Bool :=
  if s.boundary then false else inCircle (pos (m.vtx s.t 0)) (pos (m.vtx s.t 1)) (pos (m.vtx s.t 2)) p

/-- `src/delaunayTriangulation/incremental/delaunay.cpp:74-86` (`find`): walk across an edge that has the point on its
far side, until there is none or the mesh ends. The loop is cut off after `fuel` triangles. -/
def find (pos : ℕ → P2 K) (m : Mesh) (p : P2 K) : ℕ → Simplex → Except Err Simplex
  | 0, _ => .error .fuel
  | fuel + 1, t =>
    let t1 := t.rot
    let t2 := t1.rot
    let t3 := t2.rot
    let next := fun (s : Simplex) => (across m s).bind fun a => if a.boundary then .ok a else find pos m p fuel a
    if outside pos m t1 p then next t1
    else if outside pos m t2 p then next t2
    else if outside pos m t3 p then next t3
    else .ok t3

/-- `src/delaunayTriangulation/incremental/delaunay.cpp:99-108` (`findCavity`): what it appends to `vertexQ` and to
`simplexQ`. The recursion is cut off at depth `fuel`. -/
def findCavity (pos : ℕ → P2 K) (m : Mesh) (p : P2 K) : ℕ → Simplex → Except Err (List ℕ × List Simplex)
  | 0, _ => .error .fuel
  | fuel + 1, t =>
    if inCirc pos m t p then
      let t1 := t.rot
      let t2 := t1.rot
      (across m t1).bind fun a1 => (findCavity pos m p fuel a1).bind fun q1 =>
      (across m t2).bind fun a2 => (findCavity pos m p fuel a2).map fun q2 =>
        (q1.1 ++ m.vtx t1.t t1.o :: q2.1, t :: (q1.2 ++ q2.2))
    else .ok ([], [])

/-- `src/delaunayTriangulation/incremental/delaunay.cpp:115-122`: the search of `reserve_for_insert` from the three edges
of the triangle holding the point; the result is `(vertexQ, simplexQ)`. -/
def cavity (pos : ℕ → P2 K) (m : Mesh) (p : P2 K) (fuel : ℕ) (t : Simplex) : Except Err (List ℕ × List Simplex) :=
  let t1 := t.rot
  let t2 := t1.rot
  (across m t).bind fun a0 => (findCavity pos m p fuel a0).bind fun q0 =>
  (across m t1).bind fun a1 => (findCavity pos m p fuel a1).bind fun q1 =>
  (across m t2).bind fun a2 => (findCavity pos m p fuel a2).map fun q2 =>
    (m.vtx t.t t.o :: (q0.1 ++ m.vtx t1.t t1.o :: (q1.1 ++ m.vtx t2.t t2.o :: q2.1)), q0.2 ++ (q1.2 ++ q2.2))

/-- `src/delaunayTriangulation/incremental/delaunay.cpp:144-147`: the flips of `insert`. -/
def flips (m : Mesh) : List Simplex → Except Err Mesh
  | [] => .ok m
  | s :: q => (flip m s).bind fun m => flips m q

/-- `src/delaunayTriangulation/incremental/delaunay.cpp:139-148`: the side effects of `insert` on the mesh. -/
def insertMesh (m : Mesh) (v t : ℕ) (q : List Simplex) : Except Err Mesh :=
  (split m t v (m.vt v) (m.vt v + 1)).bind fun m => flips m q

/-- `src/delaunayTriangulation/incremental/delaunay.cpp:273-280`: locate the point from triangle `start`, find its cavity
and insert it, when nothing else is inserted meanwhile. The result also has the vertices it reserves. -/
def insertPoint (pos : ℕ → P2 K) (m : Mesh) (fuel v start : ℕ) : Except Err (Mesh × List ℕ) :=
  (find pos m (pos v) fuel ⟨start, 0, false⟩).bind fun t => (cavity pos m (pos v) fuel t).bind fun q =>
    (insertMesh m v t.t q.2).map fun m => (m, q.1)

end Verif.Delaunay
