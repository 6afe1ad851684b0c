import Verif.KdTree.RangeModel

set_option linter.unusedSectionVars false
set_option linter.unusedVariables false

/-!
Model of `src/spatialGraph/betaSkeleton/kdt.h` (lune test) and `src/spatialGraph/betaSkeleton/betaSkeleton.cpp`.

The tree of this file (`kdt.h:66-287`) is a copy of the one in `include/kdTree`, and is modelled by the same functions
(`KdTree.build`, leaf size 16). One difference matters: the array `items` that the nodes point into is a local variable of
`buildKdt` (`kdt.h:265`), so it is destroyed when the tree is returned. The parameter `alive` says whether that array still exists
when an item of a leaf is read; reading it afterwards is undefined. The code has `alive = false` (`betaSkeleton` below).

Items are indices of points; the comparison of addresses `p == e1` is equality of items. `float dist1`, `dist2` (`kdt.h:330-331`)
round the distance to single precision; the model is exact.
-/

namespace Verif.Lune

open Verif KdTree

variable {α K : Type} {d : ℕ} [Field K] [LinearOrder K]

section
variable [DecidableEq α] (alive : Bool) (dist : Point K d → Point K d → K) (pos : α → Point K d)

/-- `kdt.h:327-334`: the loop over the items of a leaf. -/
def leafLoop (p1 : Point K d) (r1 : K) (p2 : Point K d) (r2 : K) (e1 e2 : α) : List α → Except Err Bool
  | [] => .ok false
  | x :: l =>
    if !alive then .error .ub
    else if x = e1 ∨ x = e2 then leafLoop p1 r1 p2 r2 e1 e2 l
    else if dist p1 (pos x) ≤ r1 ∧ dist p2 (pos x) ≤ r2 then .ok true
    else leafLoop p1 r1 p2 r2 e1 e2 l

/-- `kdt.h:300-341` (`nonEmptyLuneHelper`), `boxCompare` 304-314 being the one of the range search. -/
def helper (b1 b2 : Box K d) (p1 : Point K d) (r1 : K) (p2 : Point K d) (r2 : K) (e1 e2 : α) :
    Tree α K d → Except Err Bool
  | .leaf box items =>
    if boxCompare b1 box = .excl ∨ boxCompare b2 box = .excl then .ok false
    else leafLoop alive dist pos p1 r1 p2 r2 e1 e2 items
  | .node box l r =>
    if boxCompare b1 box = .excl ∨ boxCompare b2 box = .excl then .ok false
    else (helper b1 b2 p1 r1 p2 r2 e1 e2 l).bind fun a =>
      if a then .ok true else helper b1 b2 p1 r1 p2 r2 e1 e2 r

/-- `kdt.h:352-355`: the box of a circle. The two coordinates are written out in the code. -/
def circleBox (p : Point K d) (r : K) : Box K d := ⟨fun i => p i - r, fun i => p i + r⟩

/-- `kdt.h:349-357` (`nonEmptyLune`). -/
def nonEmptyLune (t : Tree α K d) (p1 : Point K d) (r1 : K) (p2 : Point K d) (r2 : K) (e1 e2 : α) : Except Err Bool :=
  helper alive dist pos (circleBox p1 r1) (circleBox p2 r2) p1 r1 p2 r2 e1 e2 t

/-- `betaSkeleton.cpp:43` and 46-49: circle centres and radius for an edge. -/
def circles (beta : K) (u v : Point K d) : Point K d × Point K d × K :=
  if beta < 1 then (u, v, dist u v / (2 * beta))
  else (fun i => u i * (1 - beta / 2) + v i * (beta / 2), fun i => u i * (beta / 2) + v i * (1 - beta / 2),
    beta * dist u v / 2)

/-- `betaSkeleton.cpp:41-51`: the test of one edge. -/
def keep (beta : K) (t : Tree α K d) (e : α × α) : Except Err Bool :=
  let c := circles dist beta (pos e.1) (pos e.2)
  (nonEmptyLune alive dist pos t c.1 c.2.2 c.2.1 c.2.2 e.1 e.2).map fun b => !b

/-- `parlay::filter` with a test that can fail (`betaSkeleton.cpp:40-51`). The tests only read, so their order does not
matter. -/
def filterM' (f : α × α → Except Err Bool) : List (α × α) → Except Err (List (α × α))
  | [] => .ok []
  | e :: l => (f e).bind fun b => (filterM' f l).map fun l' => if b then e :: l' else l'

/-- `betaSkeleton.cpp:12-59`: Delaunay edges `dedges` filtered by the lune test; `beta < 0` throws (22). `items` are the indices of
the points. The dimension is fixed to 2 by the instantiation (61). -/
def betaSkeletonWith (w bs : ℕ) (beta : K) (items : List α) (dedges : List (α × α)) : Except Err (List (α × α)) :=
  if beta < 0 then .error .throws
  else (build w bs pos 16 true items).bind fun t => filterM' (keep alive dist pos beta t) dedges

end

/-- `betaSkeleton.cpp:12-59` as written: the item array of the tree is destroyed at the end of `buildKdt`. -/
def betaSkeleton [DecidableEq α] (dist : Point K 2 → Point K 2 → K) (pos : α → Point K 2) (w bs : ℕ) (beta : K)
    (items : List α) (dedges : List (α × α)) : Except Err (List (α × α)) :=
  betaSkeletonWith false dist pos w bs beta items dedges

end Verif.Lune
