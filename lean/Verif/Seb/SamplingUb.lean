import Verif.Seb.ScanModel
import Mathlib.Data.Fin.VecNotation
import Mathlib.Algebra.Order.Ring.Rat
import Mathlib.Data.Rat.Cast.Order

/-!
Property C37: an input on which the sampling routine reads behind its array. (The kernel runs the model.)
-/

namespace Verif.Seb

/-- C37 (sampling) with a step that does not divide the number of points: 701 points on a line, each per cent of which
lies outside the ball of those before. The last slice is `P.cut(700, 707)`. -/
theorem c37_sampling_ub : (sampleCompute 0 96 (compute plain plain 0 0 fun L => L.headD 0) 1
    ((List.range 701).map fun i => (![(i : ℚ), 0] : Point ℚ 2))) matches .error .ub := by
  decide +kernel

end Verif.Seb
