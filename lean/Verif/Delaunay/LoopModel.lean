import Verif.Delaunay.RoundModel
import Verif.Reserve.Loop

set_option linter.unusedSectionVars false
set_option linter.unusedVariables false

/-!
Model of the main loop of the incremental triangulation with its mesh,
`src/delaunayTriangulation/incremental/delaunay.cpp:228-301`, and of the driver `delaunay` (308-369) apart from the
positions of the boundary.
-/

namespace Verif.Delaunay

open Verif.Par Verif.Reserve

variable {K : Type} [Field K] [LinearOrder K]

/-- The variables of `src/delaunayTriangulation/incremental/delaunay.cpp:228-250`: `done` and `remain`, the mesh, the
fields `reserve`, the vertices in the structure `knn`, and `num_next_rebuild`. -/
structure AState where
  loop : LState ℕ
  mesh : Mesh
  res : ℕ → ℤ
  pool : List ℕ
  next : ℕ

/-- `src/delaunayTriangulation/incremental/delaunay.cpp:256-297`: the body of the loop. `near pool v` is the result of
`knn.nearest` for a structure built from the vertices `pool`. `sc` gives the interleavings of the round
(`insertRound`). -/
def addRound (pos : ℕ → P2 K) (id : ℕ → ℤ) (near : List ℕ → ℕ → ℕ) (fuel : ℕ) (v : List ℕ)
    (sc : List ℕ × List ℕ × List ℕ) (s : AState) : Except Err AState :=
  let nd := s.loop.done.length
  let rebuild := decide (s.next ≤ nd ∧ nd ≤ v.length / 10)
  let pool := if rebuild then s.loop.done else s.pool
  let next := if rebuild then s.next * 10 else s.next
  (fillBuffer v s.loop).bind fun b =>
  (insertRound pos id (near pool) fuel s.mesh s.res b sc.1 sc.2.1 sc.2.2).bind fun x =>
  (packRound v.length s.loop b x.2.2).map fun l => ⟨l, x.1, x.2.1, pool, next⟩

/-- `src/delaunayTriangulation/incremental/delaunay.cpp:252-297`: the loop, cut off after `rounds` rounds. `sched k` gives
the interleavings of round `k`. -/
def addPoints (pos : ℕ → P2 K) (id : ℕ → ℤ) (near : List ℕ → ℕ → ℕ) (fuel : ℕ) (v : List ℕ)
    (sched : ℕ → List ℕ × List ℕ × List ℕ) : ℕ → ℕ → AState → Except Err AState
  | rounds, k, s =>
    if v.length ≤ s.loop.done.length then .ok s
    else match rounds with
      | 0 => .error .fuel
      | rounds + 1 => (addRound pos id near fuel v (sched k) s).bind fun s =>
          addPoints pos id near fuel v sched rounds (k + 1) s

/-- `src/delaunayTriangulation/incremental/delaunay.cpp:323-324`: the loop over `i` writes `x i` to slot `perm i`. -/
def scatter {A : Type} (perm : List ℕ) (x : List A) (f : ℕ → A) : ℕ → A :=
  (perm.zip x).foldl (fun f a => Function.update f a.1 a.2) f

/-- `src/delaunayTriangulation/incremental/delaunay.cpp:308-369` (`delaunay`) with given boundary points `bd`, a given
permutation, and given interleavings. `m0` is what the uninitialised triangles and pointers hold, `p0` and `i0` what the
uninitialised vertices hold. The result has the points and, for each triangle, the ids of its corners. The array
`Vertices` is `(pos, id, vt)`. The id of a vertex is an `int` in the code, its overflow is not modelled. -/
def delaunayWith (bd : List (P2 K)) (perm : List ℕ) (near : List ℕ → ℕ → ℕ) (fuel : ℕ)
    (sched : ℕ → List ℕ × List ℕ × List ℕ) (m0 : Mesh) (p0 : ℕ → P2 K) (i0 : ℕ → ℕ) (P : List (P2 K)) :
    Except Err (List (P2 K) × List (ℕ × ℕ × ℕ)) :=
  let n := P.length
  let slots := perm ++ (List.range bd.length).map fun i => i + n
  let pos := scatter slots (P ++ bd) p0
  let id := scatter slots (List.range n ++ (List.range bd.length).map fun i => i + n) i0
  let m : Mesh := ⟨m0.tri, scatter (List.range n) ((List.range n).map fun i => 2 * i) m0.vt⟩
  (boundaryFan m ((List.range bd.length).map fun i => i + n) (2 * n)).bind fun m =>
  (addPoints pos (fun v => (id v : ℤ)) near fuel (List.range n) sched n 0
    ⟨⟨[], []⟩, m, fun _ => -1, [n], 100⟩).map fun s =>
  (P ++ ((List.range bd.length).map fun i => pos (i + n)),
    (List.range (2 * n + (bd.length - 2))).map fun i =>
      (id (s.mesh.vtx i 0), id (s.mesh.vtx i 1), id (s.mesh.vtx i 2)))

end Verif.Delaunay
