import Verif.Hull2d.DcModel

set_option linter.unusedSectionVars false
set_option linter.unusedVariables false

/-!
Model of `concurrentHull` in `src/convexHull3d/divideConquer/hull.cpp`.
-/

namespace Verif.Hull3d

open Verif

variable {V : Type}

/-- `src/convexHull3d/divideConquer/hull.cpp:74-88`: the sub-hulls of blocks of size `b`, concatenated. `sub` is
`serialQuickHull::computeVertex`. -/
def subVerts (sub : List V → Except Err (List V)) (b : ℕ) (P : List V) : List ℕ → Except Err (List V)
  | [] => .ok []
  | i :: is =>
    (sub ((P.drop (i * b)).take (min P.length ((i + 1) * b) - i * b))).bind fun h =>
      (subVerts sub b P is).map fun rest => h ++ rest

/-- `src/convexHull3d/divideConquer/hull.cpp:49-97` (`concurrentHull`), for `w > 0` workers. The number of blocks is computed
as in the planar version (lines 58-67). -/
def concurrentHull (sub : List V → Except Err (List V)) (w : ℕ) (P : List V) : Except Err (List V) :=
  (Hull2d.blocks P.length (w * 8)).bind fun B => subVerts sub (P.length / B) P (List.range B)

/-- `src/convexHull3d/divideConquer/hull.cpp:99-142` (`compute`). `frac` is whether the sampled fraction is below 0.8; `serial`
and `par` are the serial and parallel quickHull. -/
def dcCompute3 {H : Type} (sub : List V → Except Err (List V)) (serial par : List V → Except Err H) (frac : Bool) (w : ℕ)
    (P : List V) : Except Err H :=
  if P.length < 1000 then serial P
  else if frac then (concurrentHull sub w P).bind par
  else par P

end Verif.Hull3d
