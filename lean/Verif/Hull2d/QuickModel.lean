import Mathlib.Data.List.GetD
import Verif.Geom
import Verif.Outcome

set_option linter.unusedSectionVars false
set_option linter.unusedVariables false

/-!
Model of `include/convexHull2d/quickHull/hull.h`. Indices are positions in the input array.
-/

namespace Verif.Hull2d

open Verif

variable {K : Type} [Field K] [LinearOrder K]

/-- `include/convexHull2d/quickHull/hull.h:34-40` (`triArea`; repeated in `src/convexHull2d/divideConquer/hull.cpp:7-13` and
`src/convexHull2d/bruteforce/hull.cpp:6-12`). -/
def triArea (a b c : Point K 2) : K := (b 0 - a 0) * (c 1 - a 1) - (b 1 - a 1) * (c 0 - a 0)

/-- `include/convexHull2d/quickHull/hull.h:71-74, 90-92`: one half of the reduction with `pairMax`, from left to right and
starting with the identity `(0, 0)`: the index of the last largest value. The theorems hold for every reduction that returns
an index of a largest value if that value is positive (`PickOK`). -/
def reduceMax (f : ℕ → K) (L : List ℕ) : ℕ :=
  (L.foldl (fun (a : K × ℕ) j => if f j < a.1 then a else (f j, j)) (0, 0)).2

/-- `include/convexHull2d/quickHull/hull.h:55-115` (`quickHullHelper`). The two calls on lines 102-104 write to different
variables. Indices outside the array are undefined behaviour. -/
def helper (pick : (ℕ → K) → List ℕ → ℕ) (P : List (Point K 2)) :
    ℕ → List ℕ → ℕ → ℕ → ℕ → Except Err (List ℕ)
  | fuel, idxs, l, mid, r =>
    if idxs.length ≤ 1 then .ok idxs
    else
      match fuel with
      | 0 => .error .fuel
      | fuel + 1 =>
        if l < P.length ∧ mid < P.length ∧ r < P.length ∧ ∀ j ∈ idxs, j < P.length then
          let lefta : ℕ → K := fun j => triArea (P.getD l 0) (P.getD mid 0) (P.getD j 0)
          let righta : ℕ → K := fun j => triArea (P.getD mid 0) (P.getD r 0) (P.getD j 0)
          let left := idxs.filter fun j => decide (0 < lefta j)
          let right := idxs.filter fun j => decide (0 < righta j)
          (helper pick P fuel left l (pick lefta idxs) mid).bind fun leftR =>
            (helper pick P fuel right mid (pick righta idxs) r).map fun rightR => leftR ++ mid :: rightR
        else .error .ub

/-- `include/convexHull2d/quickHull/hull.h:117-182` (`compute`). `mm` is `minmax_element` with the lexicographic order of
lines 125-126. The minimum of the areas is the maximum of their negations. An empty array is dereferenced on line 143. -/
def compute (pick : (ℕ → K) → List ℕ → ℕ) (mm : List (Point K 2) → ℕ × ℕ) (P : List (Point K 2)) :
    Except Err (List ℕ) :=
  if P = [] then .error .ub
  else
    let mn := (mm P).1
    let mx := (mm P).2
    let a : ℕ → K := fun i => triArea (P.getD mn 0) (P.getD mx 0) (P.getD i 0)
    let all := List.range P.length
    let upper := all.filter fun i => decide (0 < a i)
    let lower := all.filter fun i => decide (a i < 0)
    (helper pick P P.length upper mn (pick a all) mx).bind fun upperR =>
      (helper pick P P.length lower mx (pick (fun i => -a i) all) mn).map fun lowerR =>
        mn :: upperR ++ mx :: lowerR

end Verif.Hull2d
