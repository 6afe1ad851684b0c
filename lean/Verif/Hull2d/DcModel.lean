import Verif.Hull2d.QuickModel

set_option linter.unusedSectionVars false
set_option linter.unusedVariables false

/-!
Model of `src/convexHull2d/divideConquer/hull.cpp`.
-/

namespace Verif.Hull2d

open Verif

variable {K : Type} [Field K] [LinearOrder K]

/-- `src/convexHull2d/divideConquer/hull.cpp:22-27`: the number of blocks, from a first guess `numProc` on. Division by zero
is undefined behaviour. -/
def blocks (n : ℕ) : ℕ → Except Err ℕ
  | 0 => .error .ub
  | k + 1 => if n / (k + 1) < 10 then blocks n k else .ok (k + 1)

/-- `src/convexHull2d/divideConquer/hull.cpp:29-44`: the sub-hulls of blocks of size `b` one after the other; each is computed
into its own sequence, then they are concatenated. -/
def subHulls (hull : List (Point K 2) → Except Err (List ℕ)) (b : ℕ) (P : List (Point K 2)) :
    List ℕ → Except Err (List ℕ)
  | [] => .ok []
  | i :: is =>
    (hull ((P.drop (i * b)).take (min P.length ((i + 1) * b) - i * b))).bind fun h =>
      (subHulls hull b P is).map fun rest => h.map (fun x => i * b + x) ++ rest

/-- `src/convexHull2d/divideConquer/hull.cpp:15-67` (`compute`), for `w > 0` workers; `hull` is `quickHull::compute`. -/
def dcCompute (hull : List (Point K 2) → Except Err (List ℕ)) (w : ℕ) (P : List (Point K 2)) : Except Err (List ℕ) :=
  (blocks P.length (w * 8)).bind fun B =>
    (subHulls hull (P.length / B) P (List.range B)).bind fun uniquePts =>
      (hull (uniquePts.map fun i => P.getD i 0)).map fun H2 => H2.map fun h => uniquePts.getD h 0

end Verif.Hull2d
