import Mathlib.Algebra.Order.Archimedean.Real.Basic
import Verif.Float.Round
import Verif.Morton.Model

set_option linter.unusedSectionVars false
set_option linter.unusedVariables false

/-!
The Morton sort of `include/mortonSort/mortonSortImpl.h` in rounded arithmetic. Only the spans, the box size and
the cells are computed with coordinates; the extrema compare, the codes are integers.
-/

namespace Verif.Morton

open Verif.Float

variable {α : Type} {d : ℕ}

/-- `include/mortonSort/mortonSortImpl.h:145` and `293-295` (`maxSpan`) in rounded arithmetic. -/
noncomputable def maxSpanFl (fl : ℝ → ℝ) (pos : α → Fin d → ℝ) (p : α) (P : List α) : ℝ :=
  (List.finRange d).foldl (fun m i => max m (fl (extMax pos p P i - extMin pos p P i))) 0

/-- `include/mortonSort/mortonSortImpl.h:147` (`boxSize`) in rounded arithmetic; the literal `1.01` is rounded as
well. -/
noncomputable def boxSizeFl (fl : ℝ → ℝ) (pos : α → Fin d → ℝ) (p : α) (P : List α) : ℝ :=
  fl (fl (fl (101 / 100) * maxSpanFl fl pos p P) / (maxRange : ℝ))

/-- `include/mortonSort/mortonSortImpl.h:123-124`: the cell of a coordinate in rounded arithmetic (`floor` is exact).
Division by zero gives NaN or infinity, whose conversion to `size_t` is undefined, as is that of a negative number. -/
noncomputable def cellFl (fl : ℝ → ℝ) (x lo box : ℝ) : Except Err ℕ :=
  if box = 0 then .error .ub
  else if fl (fl (x - lo) / box) < 0 then .error .ub
  else .ok ⌊fl (fl (x - lo) / box)⌋.toNat

/-- The cells of all coordinates of a point. Serves
`include/mortonSort/mortonSortImpl.h` lines 122-129. -/
noncomputable def cellsFl (fl : ℝ → ℝ) (pos : α → Fin d → ℝ) (p : α) (P : List α) (q : α) (i : Fin d) : Except Err ℕ :=
  cellFl fl (pos q i) (extMin pos p P i) (boxSizeFl fl pos p P)

/-- `include/mortonSort/mortonSortImpl.h:122-129`: code of a planar point. -/
noncomputable def code2Fl (fl : ℝ → ℝ) (pos : α → Fin 2 → ℝ) (p : α) (P : List α) (q : α) : Except Err ℕ :=
  (cellsFl fl pos p P q 0).bind fun x => (cellsFl fl pos p P q 1).bind fun y => zorder2 ![x, y]

/-- `include/mortonSort/mortonSortImpl.h:264-273`: code of a spatial point. -/
noncomputable def code3Fl (fl : ℝ → ℝ) (pos : α → Fin 3 → ℝ) (p : α) (P : List α) (q : α) : Except Err ℕ :=
  (cellsFl fl pos p P q 0).bind fun x => (cellsFl fl pos p P q 1).bind fun y =>
    (cellsFl fl pos p P q 2).bind fun z => zorder3 ![x, y, z]

/-- `include/mortonSort/mortonSortImpl.h:102-165` (`zorderSort2d`) and 34-98 (`zorderSort2d_2`) in rounded arithmetic. -/
noncomputable def zorderSort2dFl (fl : ℝ → ℝ) (srt : List (ℕ × α) → List (ℕ × α)) (pos : α → Fin 2 → ℝ) :
    List α → Except Err (List α)
  | [] => .error .ub
  | p :: P => sortByCode srt (code2Fl fl pos p (p :: P)) (p :: P)

/-- `include/mortonSort/mortonSortImpl.h:244-315` (`zorderSort3d`) and 170-240 (`zorderSort3d_2`) in rounded arithmetic. -/
noncomputable def zorderSort3dFl (fl : ℝ → ℝ) (srt : List (ℕ × α) → List (ℕ × α)) (pos : α → Fin 3 → ℝ) :
    List α → Except Err (List α)
  | [] => .error .ub
  | p :: P => sortByCode srt (code3Fl fl pos p (p :: P)) (p :: P)

/-- Rounding of the type `double` (`include/pargeo/point.h:32-36`) with gradual underflow: below `2 ^ -1022` to the
nearest multiple of `2 ^ -1074`, ties to even, from there on to 53 bits. Overflow is left out. -/
noncomputable def rneSub (x : ℝ) : ℝ :=
  if |x| < 2 ^ (-1022 : ℤ) then rhe (x * 2 ^ (1074 : ℕ)) / 2 ^ (1074 : ℕ) else rne 53 x

end Verif.Morton
