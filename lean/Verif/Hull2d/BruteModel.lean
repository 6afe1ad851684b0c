import Verif.Hull2d.QuickModel

set_option linter.unusedSectionVars false
set_option linter.unusedVariables false

/-!
Model of `src/convexHull2d/bruteforce/hull.cpp`. A facet is a pair of positions in the input array.
-/

namespace Verif.Hull2d

open Verif

variable {K : Type} [Field K] [LinearOrder K]

/-- `src/convexHull2d/bruteforce/hull.cpp:24-27` (`facet::operator==`). -/
def facetEq (f g : ℕ × ℕ) : Bool := (f.1 == g.1 && f.2 == g.2) || (f.2 == g.1 && f.1 == g.2)

/-- `src/convexHull2d/bruteforce/hull.cpp:29-31` (`facet::connect`). -/
def facetConnect (f g : ℕ × ℕ) : Bool := !(facetEq f g) && (f.2 == g.1 || f.2 == g.2)

/-- `src/convexHull2d/bruteforce/hull.cpp:33-43` (`facet::getConnect`). -/
def facetGetConnect (f g : ℕ × ℕ) : Except Err (ℕ × ℕ) :=
  if facetConnect f g then .ok (if f.2 == g.1 then g else (g.2, g.1)) else .error .throws

/-- `src/convexHull2d/bruteforce/hull.cpp:50-66`: the test of one pair. The first loop stops at the first position other
than `i` and `j` and records the side of that point, the second loop goes on from there. With no other position `dir` is
neither written nor read. -/
def bruteOnHull (P : List (Point K 2)) (i j : ℕ) : Bool :=
  let side : ℕ → Bool := fun l => decide (0 < triArea (P.getD i 0) (P.getD j 0) (P.getD l 0))
  match (List.range P.length).filter fun l => !(l == i || l == j) with
  | [] => true
  | l :: rest => (l :: rest).all fun q => side q == side l

/-- `src/convexHull2d/bruteforce/hull.cpp:46-70`: the list `H`, in the order of the two outer loops. -/
def bruteFacets (P : List (Point K 2)) : List (ℕ × ℕ) :=
  (List.range P.length).flatMap fun i =>
    ((List.range P.length).filter fun j => decide (i < j) && bruteOnHull P i j).map fun j => (i, j)

/-- `src/convexHull2d/bruteforce/hull.cpp:77-93`: the `while` loop. The number counts the elements still missing in `H2`;
every pass adds one or throws. The result is what the loop appends. -/
def bruteWalk (H : List (ℕ × ℕ)) : ℕ → ℕ × ℕ → Except Err (List ℕ)
  | 0, _ => .ok []
  | k + 1, prev =>
    match H.find? (facetConnect prev) with
    | none => .error .throws
    | some f => (facetGetConnect prev f).bind fun next => (bruteWalk H k next).map fun r => next.1 :: r

/-- `src/convexHull2d/bruteforce/hull.cpp:14-96` (`compute`). `H[0]` of an empty sequence (lines 74-75) is undefined. -/
def bruteCompute (P : List (Point K 2)) : Except Err (List ℕ) :=
  match bruteFacets P with
  | [] => .error .ub
  | f :: H => (bruteWalk (f :: H) H.length f).map fun r => f.1 :: r

end Verif.Hull2d
