import Verif.Delaunay.InsertModel

set_option linter.unusedSectionVars false
set_option linter.unusedVariables false

/-!
The self-check of the triangulation, `src/delaunayTriangulation/incremental/delaunay.cpp:159-179`.

The field `initialized`, which nothing sets (`topology.h:53`), is a `bool`, so the test `initialized >= 0` of line 163 holds whatever its
value; reading it uninitialised is not modelled.
-/

namespace Verif.Delaunay

section
variable {K : Type} [Field K] [LinearOrder K]

/-- `src/delaunayTriangulation/incremental/delaunay.cpp:169-172`: the two kinds of lines printed, with the triangle and the edge. -/
inductive Report where
  | insideOut (t : ℕ) (o : Fin 3)
  | inCircle (t : ℕ) (o : Fin 3)
deriving DecidableEq

/-- `src/delaunayTriangulation/incremental/delaunay.cpp:165-175`: one edge of a triangle, out of `n` triangles: what is printed, and
the places of `boundary_count` that are incremented. The inner `i` hides the outer one: the place is the number of the edge. -/
def checkEdge (pos : ℕ → P2 K) (m : Mesh) (n t : ℕ) (o : Fin 3) : Except Err (List Report × List (Fin 3)) :=
  (across m ⟨t, o, false⟩).bind fun a =>
    if a.boundary then if (o : ℕ) < n then .ok ([], [o]) else .error .ub
    else
      let v := m.vtx a.t (a.o + 1)
      .ok ((if outside pos m ⟨t, o, false⟩ (pos v) then [] else [.insideOut t o]) ++
        (if inCirc pos m ⟨t, o, false⟩ (pos v) then [.inCircle t o] else []), [])

/-- `src/delaunayTriangulation/incremental/delaunay.cpp:164-176`: one triangle. -/
def checkTri (pos : ℕ → P2 K) (m : Mesh) (n t : ℕ) : Except Err (List Report × List (Fin 3)) :=
  (checkEdge pos m n t 0).bind fun a => (checkEdge pos m n t 1).bind fun b => (checkEdge pos m n t 2).map fun c =>
    (a.1 ++ b.1 ++ c.1, a.2 ++ b.2 ++ c.2)

/-- `src/delaunayTriangulation/incremental/delaunay.cpp:162-176`: the lines printed by the triangles from the first to the last, and the
increments each of them performs. The iterations read the mesh and do not change it, so they print the same in every execution, up
to the order. -/
def checkTris (pos : ℕ → P2 K) (m : Mesh) (n : ℕ) : List ℕ → Except Err (List Report × List (List (Fin 3)))
  | [] => .ok ([], [])
  | t :: ts => (checkTri pos m n t).bind fun a => (checkTris pos m n ts).map fun r => (a.1 ++ r.1, a.2 :: r.2)

end

/-- An iteration on its way through its increments, `src/delaunayTriangulation/incremental/delaunay.cpp:173`: the places still to be
incremented, and the value loaded from the first of them. -/
structure Bump where
  todo : List (Fin 3)
  reg : Option ℕ

/-- `src/delaunayTriangulation/incremental/delaunay.cpp:173`: `boundary_count[i]++` loads, then stores. -/
def Bump.step (c : Fin 3 → ℕ) (b : Bump) : (Fin 3 → ℕ) × Bump :=
  match b.todo, b.reg with
  | [], _ => (c, b)
  | o :: _, none => (c, { b with reg := some (c o) })
  | o :: rest, some v => (Function.update c o (v + 1), ⟨rest, none⟩)

/-- `src/delaunayTriangulation/incremental/delaunay.cpp:162-176`: an execution of the parallel loop; `s` names the iteration that makes
the next step. -/
def bumpRun : List ℕ → (Fin 3 → ℕ) → (ℕ → Bump) → (Fin 3 → ℕ) × (ℕ → Bump)
  | [], c, b => (c, b)
  | i :: s, c, b => bumpRun s ((b i).step c).1 (Function.update b i ((b i).step c).2)

/-- `src/delaunayTriangulation/incremental/delaunay.cpp:161`: the counters and iterations at the start. -/
def bumpStart (l : List (List (Fin 3))) (i : ℕ) : Bump := ⟨l.getD i [], none⟩

/-- `src/delaunayTriangulation/incremental/delaunay.cpp:177-179`: the sum of the counters; only the first three are used. -/
def bumpSum (c : Fin 3 → ℕ) : ℕ := c 0 + c 1 + c 2

/-- `src/delaunayTriangulation/incremental/delaunay.cpp:159-179` (`check_delaunay`) for `n` triangles: the lines about edges, and whether the
line about the size of the boundary (expected `size`) is printed. -/
def checkDelaunay {K : Type} [Field K] [LinearOrder K] (pos : ℕ → P2 K) (m : Mesh) (n size : ℕ) (s : List ℕ) :
    Except Err (List Report × Bool) :=
  (checkTris pos m n (List.range n)).map fun r =>
    (r.1, decide (size ≠ bumpSum (bumpRun s (fun _ => 0) (bumpStart r.2)).1))

end Verif.Delaunay
