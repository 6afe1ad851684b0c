import Verif.Float.Round
import Verif.Hull2d.QuickModel

set_option linter.unusedSectionVars false
set_option linter.unusedVariables false

/-!
Model of `include/convexHull2d/quickHull/hull.h` in rounded arithmetic: `fl` rounds the result of every operation.
-/

namespace Verif.Hull2d

open Verif

/-- `include/convexHull2d/quickHull/hull.h:34-40` (`triArea`), every operation rounded. -/
noncomputable def areaFl (fl : ℝ → ℝ) (a b c : Point ℝ 2) : ℝ :=
  fl (fl (fl (b 0 - a 0) * fl (c 1 - a 1)) - fl (fl (b 1 - a 1) * fl (c 0 - a 0)))

/-- `include/convexHull2d/quickHull/hull.h:55-115` (`quickHullHelper`), as `helper`, with the rounded area. -/
noncomputable def helperFl (fl : ℝ → ℝ) (pick : (ℕ → ℝ) → List ℕ → ℕ) (P : List (Point ℝ 2)) :
    ℕ → List ℕ → ℕ → ℕ → ℕ → Except Err (List ℕ)
  | fuel, idxs, l, mid, r =>
    if idxs.length ≤ 1 then .ok idxs
    else
      match fuel with
      | 0 => .error .fuel
      | fuel + 1=>
        if l < P.length ∧ mid < P.length ∧ r < P.length ∧ ∀ j ∈ idxs, j < P.length then
          let lefta : ℕ → ℝ := fun j => areaFl fl (P.getD l 0) (P.getD mid 0) (P.getD j 0)
          let righta : ℕ → ℝ := fun j => areaFl fl (P.getD mid 0) (P.getD r 0) (P.getD j 0)
          let left := idxs.filter fun j => decide (0 < lefta j)
          let right := idxs.filter fun j => decide (0 < righta j)
          (helperFl fl pick P fuel left l (pick lefta idxs) mid).bind fun leftR =>
            (helperFl fl pick P fuel right mid (pick righta idxs) r).map fun rightR => leftR ++ mid :: rightR
        else .error .ub

/-- `include/convexHull2d/quickHull/hull.h:117-182` (`compute`), as `compute`, with the rounded area. -/
noncomputable def computeFl (fl : ℝ → ℝ) (pick : (ℕ → ℝ) → List ℕ → ℕ) (mm : List (Point ℝ 2) → ℕ × ℕ)
    (P : List (Point ℝ 2)) : Except Err (List ℕ) :=
  if P = [] then .error .ub
  else
    let mn := (mm P).1
    let mx := (mm P).2
    let a : ℕ → ℝ := fun i => areaFl fl (P.getD mn 0) (P.getD mx 0) (P.getD i 0)
    let all := List.range P.length
    let upper := all.filter fun i => decide (0 < a i)
    let lower := all.filter fun i => decide (a i < 0)
    (helperFl fl pick P P.length upper mn (pick a all) mx).bind fun upperR =>
      (helperFl fl pick P P.length lower mx (pick (fun i => -a i) all) mn).map fun lowerR =>
        mn :: upperR ++ mx :: lowerR

end Verif.Hull2d
