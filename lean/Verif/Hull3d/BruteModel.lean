import Mathlib.Data.List.GetD
import Verif.Geom

set_option linter.unusedSectionVars false
set_option linter.unusedVariables false

/-!
Model of `src/convexHull3d/bruteforce/hull.cpp`.
-/

namespace Verif.Hull3d

open Verif

variable {K : Type} [Field K] [LinearOrder K]

/-- `include/pargeo/algebra.h:23-30` (`crossProduct3d`). -/
def cross3 (p q : Point K 3) : Point K 3 := fun i =>
  if i = 0 then p 1 * q 2 - p 2 * q 1 else if i = 1 then p 2 * q 0 - p 0 * q 2 else p 0 * q 1 - p 1 * q 0

/-- `include/pargeo/algebra.h:32-37` (`determinant3by3`). -/
def det3 (a b c : Point K 3) : K :=
  a 0 * (b 1 * c 2 - c 1 * b 2) - a 1 * (b 0 * c 2 - b 2 * c 0) + a 2 * (b 0 * c 1 - b 1 * c 0)

/-- `src/convexHull3d/bruteforce/hull.cpp:11-16, 27-32` (`internalFacet` and its constructor; the field `area` is computed
from the other three). -/
structure IFacet (K : Type) where
  a : Point K 3
  b : Point K 3
  c : Point K 3

/-- `src/convexHull3d/bruteforce/hull.cpp:27-32`. -/
def mkIFacet (eps : K) (a b c : Point K 3) : IFacet K := if eps < det3 a b c then ⟨a, c, b⟩ else ⟨a, b, c⟩

/-- `src/convexHull3d/bruteforce/hull.cpp:18-25, 31` (`signedVolume`, `visible`). -/
def IFacet.visible (eps : K) (f : IFacet K) (p : Point K 3) : Bool :=
  decide (eps < dot (fun i => f.a i - p i) (cross3 (fun i => f.b i - f.a i) fun i => f.c i - f.a i))

/-- `include/convexHull3d/facet.h:10-17`: the constructor of the returned facets. -/
def mkFacet (f : IFacet K) : IFacet K := if 0 < det3 f.a f.b f.c then ⟨f.a, f.c, f.b⟩ else f

/-- `src/convexHull3d/bruteforce/hull.cpp:51-68`: the two loops over `l`; the second starts where the first stopped. `vis l` is
`f.visible(P[l])`, `skip l` is `l == i || l == j || l == k`. -/
def onHull (n : ℕ) (skip vis : ℕ → Bool) : Bool :=
  match (List.range n).dropWhile skip with
  | [] => true
  | l :: rest => (l :: rest).all fun l' => skip l' || decide (vis l' = vis l)

/-- `src/convexHull3d/bruteforce/hull.cpp:37-76` (`compute`). -/
def brute (eps : K) (P : List (Point K 3)) : List (IFacet K) :=
  (List.range P.length).flatMap fun i =>
    (List.range' (i + 1) (P.length - (i + 1))).flatMap fun j =>
      (List.range' (j + 1) (P.length - (j + 1))).flatMap fun k =>
        let f := mkIFacet eps (P.getD i 0) (P.getD j 0) (P.getD k 0)
        if onHull P.length (fun l => decide (l = i) || decide (l = j) || decide (l = k))
          fun l => f.visible eps (P.getD l 0) then [mkFacet f] else []

end Verif.Hull3d
