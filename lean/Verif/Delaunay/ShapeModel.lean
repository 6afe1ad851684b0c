import Verif.Delaunay.GeomModel
import Mathlib.Analysis.SpecialFunctions.Trigonometric.Inverse
import Mathlib.Analysis.SpecialFunctions.Sqrt

set_option linter.unusedSectionVars false
set_option linter.unusedVariables false

/-!
The measures of triangles of `include/delaunayTriangulation/geometry.h`. A quotient with divisor zero (an infinity or a NaN in the
code) is `none`.
-/

namespace Verif.Delaunay

/-- The division of the doubles of `include/delaunayTriangulation/geometry.h:367,401,437,450-451,460`; `none` for the divisor zero. -/
noncomputable def ratio (x y : ℝ) : Option ℝ := if y = 0 then none else some (x / y)

/-- `include/delaunayTriangulation/geometry.h:288` (`Length`) of the vector `b - a`. -/
noncomputable def len (a b : P2 ℝ) : ℝ := Real.sqrt ((b.x - a.x) * (b.x - a.x) + (b.y - a.y) * (b.y - a.y))

/-- `include/delaunayTriangulation/geometry.h:284` (`dot`) of the vectors `b - a` and `d - c`. -/
def dotV (a b c d : P2 ℝ) : ℝ := (b.x - a.x) * (d.x - c.x) + (b.y - a.y) * (d.y - c.y)

/-- `include/delaunayTriangulation/geometry.h:202,376-378` (`Length` of `onParabola`): the length of `a - d` lifted to the paraboloid. -/
noncomputable def liftLen (a d : P2 ℝ) : ℝ :=
  let x := a.x - d.x
  let y := a.y - d.y
  let z := x * x + y * y
  Real.sqrt (x * x + y * y + z * z)

/-- `include/delaunayTriangulation/geometry.h:365-368` (`triAreaNormalized`). -/
noncomputable def triAreaNormalized (a b c : P2 ℝ) : Option ℝ := ratio (area a b c) (len a b * len a c)

/-- `include/delaunayTriangulation/geometry.h:395-403` (`inCircleNormalized`). -/
noncomputable def inCircleNormalized (a b c d : P2 ℝ) : Option ℝ :=
  ratio (circ a b c d) (liftLen a d * liftLen b d * liftLen c d)

/-- `include/delaunayTriangulation/geometry.h:430-438` (`angle`); `acos` of an exact quotient. -/
noncomputable def angle (a b c : P2 ℝ) : Option ℝ :=
  (ratio (dotV a b a c) (len a b * len a c)).map fun r => 180 / 3.14159 * Real.arccos r

open Classical in
/-- The comparisons of `include/delaunayTriangulation/geometry.h:450-451`; a NaN is not greater. -/
noncomputable def exceeds (r : Option ℝ) (co : ℝ) : Bool :=
  match r with
  | none => false
  | some r => decide (r > co)

/-- `include/delaunayTriangulation/geometry.h:440-452` (`minAngleCheck`). -/
noncomputable def minAngleCheck (a b c : P2 ℝ) (ang : ℝ) : Bool :=
  let co := Real.cos (ang * 3.14159 / 180)
  exceeds (ratio (dotV a b a c) (len a b * len a c)) co || exceeds (ratio (dotV a c b c) (len a c * len b c)) co ||
    exceeds (ratio (-dotV a b b c) (len a b * len b c)) co

/-- `include/delaunayTriangulation/geometry.h:454-461` (`triangleCircumcenter`). -/
noncomputable def triangleCircumcenter (a b c : P2 ℝ) : Option (P2 ℝ) :=
  let v1x := b.x - a.x
  let v1y := b.y - a.y
  let v2x := c.x - a.x
  let v2y := c.y - a.y
  let s2 := v2x * v2x + v2y * v2y
  let s1 := v1x * v1x + v1y * v1y
  let cr := 2 * (v1x * v2y - v1y * v2x)
  (ratio (v2y * s1 - v1y * s2) cr).bind fun x => (ratio (v1x * s2 - v2x * s1) cr).map fun y => ⟨a.x + x, a.y + y⟩

end Verif.Delaunay
