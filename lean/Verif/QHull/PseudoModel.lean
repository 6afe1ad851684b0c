import Verif.QHull.ParModel

set_option linter.unusedSectionVars false
set_option linter.unusedVariables false

/-!
Model of `src/convexHull3d/pseudoHull/hull.cpp`: a filter that throws away points inside simplices, and the parallel quickhull
of the rest. `knob` is `numericKnob` (line 16), `E` the point that `vertexT()` makes (`include/pargeo/point.h:31`).
-/

namespace Verif.QHull

open Verif Verif.Hull3d

variable {K : Type} [Field K] [LinearOrder K]

/-- `src/convexHull3d/pseudoHull/hull.cpp:14-20` (`internalFacet`; `area` is computed where it is used). -/
structure PF (K : Type) where
  a : P3 K
  b : P3 K
  c : P3 K

/-- `src/convexHull3d/pseudoHull/hull.cpp:55-60`: the constructor. -/
def mkPF (knob : K) (a b c : P3 K) : PF K := if knob < det3 a b c then ⟨a, c, b⟩ else ⟨a, b, c⟩

/-- `src/convexHull3d/pseudoHull/hull.cpp:22-30` (`signedVolume`, `visible`). -/
def pVisible (knob : K) (f : PF K) (p : P3 K) : Bool :=
  decide (knob < sv f.a f.b f.c p) || decide (p = f.a) || decide (p = f.b) || decide (p = f.c)

/-- `src/convexHull3d/pseudoHull/hull.cpp:32-40` (`furthest`): the loop, from the running maximum and the apex so far. -/
def pFurthest (f : PF K) : List (P3 K) → K → P3 K → P3 K
  | [], _, apex => apex
  | p :: l, m, apex => if m < sv f.a f.b f.c p then pFurthest f l (sv f.a f.b f.c p) p else pFurthest f l m apex

/-- `src/convexHull3d/pseudoHull/hull.cpp:42-53` (`furthestParallel`). `parlay::max_element` (external) returns the first largest
element; here the list is not empty. -/
def pApex (knob : K) (E : P3 K) (f : PF K) (Q : List (P3 K)) : P3 K :=
  if Q.length < 1000 then pFurthest f Q knob E
  else match argmax (fun p => sv f.a f.b f.c p) Q with
    | some p => p
    | none => E

/-- `src/convexHull3d/pseudoHull/hull.cpp:87-109` and 174-197: every point goes to the first of the facets that it sees
(`flag`, `parlay::split_k`, C11), the points that see none are dropped, `rec` is called for every facet and the results are
put together. The calls (in parallel) work on different sequences. -/
def pParts (knob : K) (rec : PF K → List (P3 K) → Except Err (List (P3 K))) : List (PF K) → List (P3 K) → Except Err (List (P3 K))
  | [], _ => .ok []
  | f :: fs, Q =>
    (rec f (Q.filter fun p => pVisible knob f p)).bind fun R =>
      (pParts knob rec fs (Q.filter fun p => !pVisible knob f p)).map fun R' => R ++ R'

/-- `src/convexHull3d/pseudoHull/hull.cpp:67-113` (`pseudoHullHelper`). -/
def pHelper (knob : K) (E : P3 K) : ℕ → PF K → List (P3 K) → Except Err (List (P3 K))
  | 0, _, _ => .error .fuel
  | fuel + 1, f, Q =>
    if Q.length < 4 then .ok Q
    else
      let apex := pApex knob E f Q
      let o := centre f.a f.b f.c apex
      let tr (p : P3 K) : P3 K := fun i => p i - o i
      (pParts knob (pHelper knob E fuel)
        [mkPF knob (tr f.a) (tr f.b) (tr apex), mkPF knob (tr f.b) (tr f.c) (tr apex), mkPF knob (tr f.c) (tr f.a) (tr apex)]
        (Q.map tr)).map fun R => R.map fun p => fun i => p i + o i

/-- `src/convexHull3d/pseudoHull/hull.cpp:115-202` (`pseudoHull`). The corners of the first simplex are found as in
`include/convexHull3d/initialize.h` (`corners`); the element functions of parlay (external) return the first extreme element. -/
def pseudoHull (knob : K) (E : P3 K) (fuel : ℕ) (P : List (P3 K)) : Except Err (List (P3 K)) :=
  match corners P with
  | none => .error .ub
  | some (c1, c2, c3, c4) =>
    let o := centre c1 c2 c3 c4
    let tr (p : P3 K) : P3 K := fun i => p i - o i
    (pParts knob (pHelper knob E fuel)
      [mkPF knob (tr c1) (tr c2) (tr c3), mkPF knob (tr c1) (tr c2) (tr c4), mkPF knob (tr c3) (tr c4) (tr c2),
        mkPF knob (tr c3) (tr c4) (tr c1)]
      (P.map tr)).map fun R => R.map fun p => fun i => p i + o i

/-- `src/convexHull3d/pseudoHull/hull.cpp:204-226` (`compute`). -/
def pseudoCompute (knob eps : K) (E : P3 K) (fuel : ℕ) (pick : Pick K) (numProc : ℕ) (o : ℕ → Oracle K) (P : List (P3 K)) :
    Except Err (List (IFacet K)) :=
  (pseudoHull knob E fuel P).bind fun Q => parCompute eps fuel pick numProc o Q

end Verif.QHull
