import Mathlib.Algebra.Order.Field.Basic
import Mathlib.Data.Rat.Defs
import Mathlib.Algebra.Order.Field.Rat
import Mathlib.Tactic.Ring

set_option linter.unusedSectionVars false
set_option linter.unusedVariables false

/-!
Model of the planar predicates of `include/delaunayTriangulation/geometry.h`. Coordinates are in an ordered field, so the
predicates are exact; the rounding of the code's doubles is not modelled.
-/

namespace Verif.Delaunay

/-- `include/delaunayTriangulation/geometry.h:302-311` (`point2d`). -/
structure P2 (K : Type) where
  x : K
  y : K
deriving DecidableEq

section
variable {K : Type} [Field K]

/-- `include/delaunayTriangulation/geometry.h:361-363` (`triArea`): `(b-a).cross(c-a)`, with `cross` from line 285. -/
def area (a b c : P2 K) : K := (b.x - a.x) * (c.y - a.y) - (b.y - a.y) * (c.x - a.x)

/-- `include/delaunayTriangulation/geometry.h:385-390` (`inCircle`), without the comparison: the triple product
`(ad.cross(bd)).dot(cd)` (lines 195-198) of the three corners seen from `d` and lifted to the paraboloid (`onParabola`,
376-378). -/
def circ (a b c d : P2 K) : K :=
  let ax := a.x - d.x
  let ay := a.y - d.y
  let az := ax * ax + ay * ay
  let bx := b.x - d.x
  let by_ := b.y - d.y
  let bz := bx * bx + by_ * by_
  let cx := c.x - d.x
  let cy := c.y - d.y
  let cz := cx * cx + cy * cy
  (ay * bz - az * by_) * cx + (az * bx - ax * bz) * cy + (ax * by_ - ay * bx) * cz

variable [LinearOrder K]

/-- `include/delaunayTriangulation/geometry.h:371-374` (`counterClockwise`). -/
def counterClockwise (a b c : P2 K) : Bool := decide (0 < area a b c)

/-- `include/delaunayTriangulation/geometry.h:384-391` (`inCircle`). -/
def inCircle (a b c d : P2 K) : Bool := decide (0 < circ a b c d)

end

end Verif.Delaunay
