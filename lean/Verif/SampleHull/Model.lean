import Verif.KdTree.Model
import Verif.Hull2d.QuickModel

set_option linter.unusedSectionVars false
set_option linter.unusedVariables false

/-!
Model of the sampling convex hulls: `include/convexHull2d/sampling/filter.h`, `include/convexHull3d/sampling/filter.h`,
`include/convexHull2d/sampling/sampling.h` (`randomSample`, `randomProjection`) and the two `compute` functions of
`src/convexHull2d/sampling/hull.cpp` and `src/convexHull3d/sampling/hull.cpp`.

The planar and the spatial filter differ only in the facet and in the number of corners of a box, so one definition with the
facet as a record serves both.
-/

namespace Verif.SampleHull

open Verif

variable {K : Type} {d : ℕ}

/-- `include/convexHull2d/sampling/filter.h:18-40` and `include/convexHull3d/sampling/filter.h:50-67` (`facet`): the signed
area or volume of a point and the corners of the facet. -/
structure Facet (K : Type) (d : ℕ) where
  vol : Point K d → K
  verts : List (Point K d)

section
variable [Field K] [LinearOrder K]

/-- `include/convexHull2d/sampling/filter.h:24-38`: a planar facet; `getArea(c) = triArea(a, b, c)`. -/
def facet2 (a b : Point K 2) : Facet K 2 := ⟨fun c => Hull2d.triArea a b c, [a, b]⟩

/-- `include/pargeo/algebra.h:32-37` (`determinant3by3`), rows `a`, `b`, `c`. -/
def det3 (a b c : Point K 3) : K :=
  a 0 * (b 1 * c 2 - c 1 * b 2) - a 1 * (b 0 * c 2 - c 0 * b 2) + a 2 * (b 0 * c 1 - c 0 * b 1)

/-- `include/pargeo/algebra.h:23-30` (`crossProduct3d`). -/
def cross3 (p q : Point K 3) : Point K 3 :=
  ![p 1 * q 2 - p 2 * q 1, p 2 * q 0 - p 0 * q 2, p 0 * q 1 - p 1 * q 0]

/-- `include/convexHull3d/sampling/filter.h:59-65`: `getVolume(p) = (a - p) . area` with `area = (b - a) x (c - a)`. -/
def vol3 (a b c p : Point K 3) : K := dot (a - p) (cross3 (b - a) (c - a))

/-- `include/convexHull3d/facet.h:13-17` and `include/convexHull3d/sampling/filter.h:63-65`: the constructor swaps `b` and `c`
if the determinant of the three corners is positive. -/
def facet3 (a b c : Point K 3) : Facet K 3 :=
  if 0 < det3 a b c then ⟨vol3 a c b, [a, c, b]⟩ else ⟨vol3 a b c, [a, b, c]⟩

/-- `include/convexHull2d/sampling/filter.h:52-65`: the four corners of a box in the order of the code. -/
def corners2 (b : Box K 2) : List (Point K 2) :=
  [![b.lo 0, b.lo 1], ![b.lo 0, b.hi 1], ![b.hi 0, b.lo 1], ![b.hi 0, b.hi 1]]

/-- `include/convexHull3d/sampling/filter.h:79-100`: the eight corners of a box in the order of the code. -/
def corners3 (b : Box K 3) : List (Point K 3) :=
  [![b.lo 0, b.lo 1, b.lo 2], ![b.hi 0, b.lo 1, b.lo 2], ![b.lo 0, b.hi 1, b.lo 2], ![b.lo 0, b.lo 1, b.hi 2],
   ![b.hi 0, b.hi 1, b.lo 2], ![b.lo 0, b.hi 1, b.hi 2], ![b.hi 0, b.lo 1, b.hi 2], ![b.hi 0, b.hi 1, b.hi 2]]

/-- `include/convexHull2d/sampling/filter.h:42-69` and `include/convexHull3d/sampling/filter.h:69-104` (`nodeVol`), second
component: `vMax` starts at `-1`. -/
def volMax (f : Facet K d) (cs : List (Point K d)) : K := cs.foldl (fun m c => max m (f.vol c)) (-1)

/-- The same lines, first component, as far as it is used: `vMin <= 0`. `vMin` starts at the largest float, which is positive,
so `vMin <= 0` iff the value of some corner is. -/
def volMinNonpos (f : Facet K d) (cs : List (Point K d)) : Bool := cs.any fun c => decide (f.vol c ≤ 0)

/-- `include/convexHull2d/sampling/filter.h:95-98` and `include/convexHull3d/sampling/filter.h:130-134`: the test of a point of
a leaf. -/
def seesPt (f : Facet K d) (p : Point K d) : Bool := decide (0 ≤ f.vol p) || decide (p ∈ f.verts)

/-- `include/convexHull2d/sampling/filter.h:71-110` and `include/convexHull3d/sampling/filter.h:106-155` (`flagVisible`): the
flags that the call tries to set. Every inner list is one loop; the loops have their own variable `F`. -/
def loops (corners : Box K d → List (Point K d)) (pos : ℕ → Point K d) (f : Facet K d) :
    KdTree.Tree ℕ K d → List (List ℕ)
  | .leaf b items =>
    if volMinNonpos f (corners b) then
      if volMax f (corners b) ≤ 0 then [] else [items.filter fun i => seesPt f (pos i)]
    else [items]
  | .node b l r =>
    if volMinNonpos f (corners b) then
      if volMax f (corners b) ≤ 0 then [] else loops corners pos f l ++ loops corners pos f r
    else [l.items ++ r.items]

/-- One call of `flagVisible` that is being executed: the local `F` of the current loop and what is left to be done. Serves
`include/convexHull2d/sampling/filter.h` lines 99, 106. -/
structure Thread where
  F : Bool
  todo : List (List ℕ)

/-- `include/convexHull2d/sampling/filter.h:99, 106`: `atomic_compare_exchange_weak(&flag[i], &F, true)`. It compares with `F`
and, if the values differ, **stores the value found in `F`**. Spurious failures of the weak form are left out (there are none
on x86). The next loop starts with `F = false` (line 82). -/
def Thread.step (flag : ℕ → Bool) (t : Thread) : (ℕ → Bool) × Thread :=
  match t.todo with
  | [] => (flag, t)
  | [] :: rest => (flag, ⟨false, rest⟩)
  | (i :: is) :: rest =>
    if flag i = t.F then (Function.update flag i true, ⟨t.F, is :: rest⟩) else (flag, ⟨flag i, is :: rest⟩)

/-- `include/convexHull2d/sampling/filter.h:153-155`: the calls run in parallel; the schedule says whose step is next. -/
def run (sched : List ℕ) (flag : ℕ → Bool) (ts : List Thread) : (ℕ → Bool) × List Thread :=
  match sched with
  | [] => (flag, ts)
  | k :: sched =>
    match ts[k]? with
    | none => run sched flag ts
    | some t => run sched (t.step flag).1 (ts.set k (t.step flag).2)

/-- `include/convexHull2d/sampling/filter.h:112-169` and `include/convexHull3d/sampling/filter.h:157-202` (`filter2`). A
schedule that does not run all calls to their end gives `fuel`. Without facets, line 150 (183) reads `facets[0]`. -/
def filter2 (w bs : ℕ) (corners : Box K d → List (Point K d)) (sched : List ℕ) (P : List (Point K d))
    (facets : List (Facet K d)) : Except Err (List (Point K d)) :=
  if facets = [] then .error .ub
  else
    (KdTree.build w bs (fun i => P.getD i 0) 128 true (List.range P.length)).bind fun tree =>
      let r := run sched (fun _ => false) (facets.map fun f => ⟨false, loops corners (fun i => P.getD i 0) f tree⟩)
      if r.2.all fun t => t.todo.isEmpty then
        .ok (((List.range P.length).filter fun i => r.1 i).map fun i => P.getD i 0)
      else .error .fuel

/-- `include/convexHull2d/sampling/filter.h:121-123`: the facets of a planar hull given by indices. -/
def hullFacets (sample : List (Point K 2)) (F : List ℕ) : List (Facet K 2) :=
  (List.range F.length).map fun i =>
    facet2 (sample.getD (F.getD i 0) 0) (sample.getD (F.getD ((i + 1) % F.length) 0) 0)

/-- `src/convexHull2d/sampling/hull.cpp:12-68` (`compute`). `sample` is the sampling routine, which gets the size
`max(5, n * fraction)`, and `hull` is the planar quickHull. -/
def compute2 (w bs : ℕ) (hull : List (Point K 2) → Except Err (List ℕ))
    (sample : List (Point K 2) → ℕ → Except Err (List (Point K 2))) (size : ℕ) (sched : List ℕ) (P : List (Point K 2)) :
    Except Err (List ℕ) :=
  if P.length < 1000 then hull P
  else
    (sample P (max size 5)).bind fun S =>
      (hull S).bind fun F =>
        (filter2 w bs corners2 sched P (hullFacets S F)).bind fun remain => hull remain

/-- `include/convexHull2d/sampling/sampling.h:13-19` (`randomSample`). `h` is `parlay::hash64`. The remainder by `P.size() = 0`
is undefined. -/
def randomSample (h : ℕ → ℕ) (P : List (Point K d)) (m : ℕ) : Except Err (List (Point K d)) :=
  if P = [] ∧ 0 < m then .error .ub
  else .ok ((List.range m).map fun i => P.getD (h i % P.length) 0)

/-- `include/convexHull2d/sampling/sampling.h:29-44`: one projection. `b = P[P.size() - ii]` is outside the array if `ii` is 0.
The first smallest and the last largest point of a window of `2 m` points; `mm` stands for `minmax_element` on the keys. -/
def projection (mm : List K → ℕ × ℕ) (h : ℕ → ℕ) (P : List (Point K d)) (m i : ℕ) : Except Err (List (Point K d)) :=
  let ii := h i % P.length
  if P = [] ∨ ii = 0 then .error .ub
  else
    let a := P.getD ii 0
    let b := P.getD (P.length - ii) 0
    let win := (P.drop ii).take (min (ii + m * 2) P.length - ii)
    let r := mm (win.map fun p => dot (p - a) (b - a) / dot (b - a) (b - a))
    .ok [win.getD r.1 0, win.getD r.2 0]

/-- `include/convexHull2d/sampling/sampling.h:21-48` (`randomProjection`). -/
def randomProjection (mm : List K → ℕ × ℕ) (h : ℕ → ℕ) (P : List (Point K d)) (m : ℕ) : Except Err (List (Point K d)) :=
  ((List.range (max 2 (m / 2))).mapM fun i => projection mm h P (max 2 (m / 2)) i).map List.flatten

end

end Verif.SampleHull
