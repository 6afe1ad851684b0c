import Verif.Delaunay.BoundaryModel
import Verif.Delaunay.CheckModel

set_option linter.unusedSectionVars false
set_option linter.unusedVariables false

/-!
`delaunay` compiled with the self-check (`#define CHECK 1`), `src/delaunayTriangulation/incremental/delaunay.cpp:50,352`.
-/

namespace Verif.Delaunay

/-- `src/delaunayTriangulation/incremental/delaunay.cpp:308-369` (`delaunay`) with `CHECK` set, with given boundary points; as
`delaunayWith`, with the call of line 352 on the triangles after the loop. `cs` is the interleaving of the parallel loop of the check,
which may depend on the triangles. The result is that of `delaunay`, the lines the check prints about edges, and whether it prints the
line about the boundary. -/
def delaunayCheckedWith {K : Type} [Field K] [LinearOrder K] (bd : List (P2 K)) (perm : List ℕ) (near : List ℕ → ℕ → ℕ) (fuel : ℕ)
    (sched : ℕ → List ℕ × List ℕ × List ℕ) (cs : Mesh → List ℕ) (m0 : Mesh) (p0 : ℕ → P2 K) (i0 : ℕ → ℕ) (P : List (P2 K)) :
    Except Err ((List (P2 K) × List (ℕ × ℕ × ℕ)) × List Report × Bool) :=
  let n := P.length
  let slots := perm ++ (List.range bd.length).map fun i => i + n
  let pos := scatter slots (P ++ bd) p0
  let id := scatter slots (List.range n ++ (List.range bd.length).map fun i => i + n) i0
  let m : Mesh := ⟨m0.tri, scatter (List.range n) ((List.range n).map fun i => 2 * i) m0.vt⟩
  (boundaryFan m ((List.range bd.length).map fun i => i + n) (2 * n)).bind fun m =>
  (addPoints pos (fun v => (id v : ℤ)) near fuel (List.range n) sched n 0
    ⟨⟨[], []⟩, m, fun _ => -1, [n], 100⟩).bind fun s =>
  (checkDelaunay pos s.mesh (2 * n + (bd.length - 2)) bd.length (cs s.mesh)).map fun out =>
  ((P ++ ((List.range bd.length).map fun i => pos (i + n)),
    (List.range (2 * n + (bd.length - 2))).map fun i =>
      (id (s.mesh.vtx i 0), id (s.mesh.vtx i 1), id (s.mesh.vtx i 2))), out)

/-- `src/delaunayTriangulation/incremental/delaunay.cpp:308-369` (`delaunay`) with `CHECK` set. -/
noncomputable def delaunayChecked (perm : List ℕ) (near : List ℕ → ℕ → ℕ) (fuel : ℕ)
    (sched : ℕ → List ℕ × List ℕ × List ℕ) (cs : Mesh → List ℕ) (m0 : Mesh) (p0 : ℕ → P2 ℝ) (i0 : ℕ → ℕ) (P : List (P2 ℝ)) :
    Except Err ((List (P2 ℝ) × List (ℕ × ℕ × ℕ)) × List Report × Bool) :=
  (boundaryPoints 10 P).bind fun bd => delaunayCheckedWith bd perm near fuel sched cs m0 p0 i0 P

end Verif.Delaunay
