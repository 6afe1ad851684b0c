import Verif.Delaunay.LoopModel
import Mathlib.Analysis.SpecialFunctions.Trigonometric.Basic

set_option linter.unusedSectionVars false
set_option linter.unusedVariables false

/-!
Model of the boundary points of `generate_boundary`, `src/delaunayTriangulation/incremental/delaunay.cpp:191-221`, and of
`delaunay` (308-369). Coordinates are real numbers: square root, sine and cosine are exact.
-/

namespace Verif.Delaunay

open Verif.Par Verif.Reserve

/-- `include/delaunayTriangulation/geometry.h:318` (`minCoords`). -/
noncomputable def minCoords (a b : P2 ℝ) : P2 ℝ := ⟨min a.x b.x, min a.y b.y⟩

/-- `include/delaunayTriangulation/geometry.h:319` (`maxCoords`). -/
noncomputable def maxCoords (a b : P2 ℝ) : P2 ℝ := ⟨max a.x b.x, max a.y b.y⟩

/-- The point of a circle at an angle, `src/delaunayTriangulation/incremental/delaunay.cpp:210-212`. -/
noncomputable def circlePoint (c : P2 ℝ) (r θ : ℝ) : P2 ℝ := ⟨c.x + r * Real.cos θ, c.y + r * Real.sin θ⟩

/-- `src/delaunayTriangulation/incremental/delaunay.cpp:197-214`: the boundary points. The parallel `reduce` is taken as
a left fold; `min` and `max` are associative. Without points the access `P[0]` is undefined. -/
noncomputable def boundaryPoints (size : ℕ) (P : List (P2 ℝ)) : Except Err (List (P2 ℝ)) :=
  match P with
  | [] => .error .ub
  | p :: _ =>
    let lo := P.foldl minCoords p
    let hi := P.foldl maxCoords p
    let dx := hi.x - lo.x
    let dy := hi.y - lo.y
    let radius := 10 * Real.sqrt (dx * dx + dy * dy)
    let center : P2 ℝ := ⟨hi.x + dx / 2, hi.y + dy / 2⟩
    .ok ((List.range size).map fun i => circlePoint center radius (2 * 3.14159 * (i : ℝ) / (size : ℝ)))

/-- `src/delaunayTriangulation/incremental/delaunay.cpp:308-369` (`delaunay`): see `delaunayWith`; `boundary_size` is 10
(line 311). -/
noncomputable def delaunay (perm : List ℕ) (near : List ℕ → ℕ → ℕ) (fuel : ℕ)
    (sched : ℕ → List ℕ × List ℕ × List ℕ) (m0 : Mesh) (p0 : ℕ → P2 ℝ) (i0 : ℕ → ℕ) (P : List (P2 ℝ)) :
    Except Err (List (P2 ℝ) × List (ℕ × ℕ × ℕ)) :=
  (boundaryPoints 10 P).bind fun bd => delaunayWith bd perm near fuel sched m0 p0 i0 P

end Verif.Delaunay
