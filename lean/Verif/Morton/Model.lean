import Mathlib.Algebra.Order.Floor.Ring
import Mathlib.Algebra.Order.Field.Basic
import Mathlib.Data.Nat.Bitwise
import Mathlib.Data.Fin.VecNotation
import Verif.Outcome

set_option linter.unusedSectionVars false
set_option linter.unusedVariables false

/-!
Model of `include/mortonSort/mortonSortImpl.h`. `size_t` values are natural numbers, a left shift drops
the bits from position 64 on.
-/

namespace Verif.Morton

/-- `size_t` left shift. Serves
`include/mortonSort/mortonSortImpl.h` lines 38. -/
def shl (x k : ℕ) : ℕ := (x <<< k) % 2 ^ 64

/-- `include/mortonSort/mortonSortImpl.h:38` (`maxRange`). -/
def maxRange : ℕ := 65535

/-- `include/mortonSort/mortonSortImpl.h:47` -/
def step1 (x : ℕ) : ℕ := (x ||| shl x 16) &&& 0x001f0000ff0000ff

/-- `include/mortonSort/mortonSortImpl.h:48` -/
def step2 (x : ℕ) : ℕ := (x ||| shl x 8) &&& 0x100f00f00f00f00f

/-- `include/mortonSort/mortonSortImpl.h:49` -/
def step3 (x : ℕ) : ℕ := (x ||| shl x 4) &&& 0x10c30c30c30c30c3

/-- `include/mortonSort/mortonSortImpl.h:50` -/
def step4 (x : ℕ) : ℕ := (x ||| shl x 2) &&& 0x1249249249249249

/-- `include/mortonSort/mortonSortImpl.h:41-52` (`shift`; the same text at 109-120, 177-188, 251-262). -/
def shift (x : ℕ) : Except Err ℕ :=
  if maxRange < x then .error .throws else .ok (step4 (step3 (step2 (step1 x))))

/-- `include/mortonSort/mortonSortImpl.h:58-60` (`zorder` after the two coordinates are turned into cells;
also 126-128). -/
def zorder2 (c : Fin 2 → ℕ) : Except Err ℕ :=
  (shift (c 0)).bind fun x => (shift (c 1)).map fun y => x ||| shl y 1

/-- `include/mortonSort/mortonSortImpl.h:195-198` (`zorder`, three coordinates; also 269-272). -/
def zorder3 (c : Fin 3 → ℕ) : Except Err ℕ :=
  (shift (c 0)).bind fun x => (shift (c 1)).bind fun y => (shift (c 2)).map fun z =>
    x ||| shl y 1 ||| shl z 2

variable {K : Type} [Field K] [LinearOrder K] [IsStrictOrderedRing K] [FloorRing K]
variable {α : Type} {d : ℕ}

/-- `include/mortonSort/mortonSortImpl.h:131-143`: largest value of coordinate `i`; the atomic
`write_max` of all points gives the maximum in any order (property C13). -/
def extMax (pos : α → Fin d → K) (p : α) (P : List α) (i : Fin d) : K :=
  P.foldl (fun m q => max m (pos q i)) (pos p i)

/-- `include/mortonSort/mortonSortImpl.h:131-143`: smallest value of coordinate `i`. -/
def extMin (pos : α → Fin d → K) (p : α) (P : List α) (i : Fin d) : K :=
  P.foldl (fun m q => min m (pos q i)) (pos p i)

/-- `include/mortonSort/mortonSortImpl.h:145` and `293-295` (`maxSpan`; the spans are differences of a
maximum and a minimum, so 0 is a neutral start value). -/
def maxSpan (pos : α → Fin d → K) (p : α) (P : List α) : K :=
  (List.finRange d).foldl (fun m i => max m (extMax pos p P i - extMin pos p P i)) 0

/-- `include/mortonSort/mortonSortImpl.h:147` (`boxSize`). -/
def boxSize (pos : α → Fin d → K) (p : α) (P : List α) : K :=
  101 / 100 * maxSpan pos p P / (maxRange : K)

/-- `include/mortonSort/mortonSortImpl.h:123-124`: the cell of a coordinate. Division by a box size of
zero gives NaN, whose conversion to `size_t` is undefined, as is the conversion of a negative number. -/
def cell (x lo box : K) : Except Err ℕ :=
  if box = 0 then .error .ub
  else if (x - lo) / box < 0 then .error .ub
  else .ok ⌊(x - lo) / box⌋.toNat

/-- The cells of all coordinates of a point. Serves
`include/mortonSort/mortonSortImpl.h` lines 122-129. -/
def cells (pos : α → Fin d → K) (p : α) (P : List α) (q : α) (i : Fin d) : Except Err ℕ :=
  cell (pos q i) (extMin pos p P i) (boxSize pos p P)

/-- `include/mortonSort/mortonSortImpl.h:122-129`: code of a planar point. -/
def code2 (pos : α → Fin 2 → K) (p : α) (P : List α) (q : α) : Except Err ℕ :=
  (cells pos p P q 0).bind fun x => (cells pos p P q 1).bind fun y => zorder2 ![x, y]

/-- `include/mortonSort/mortonSortImpl.h:264-273`: code of a spatial point. -/
def code3 (pos : α → Fin 3 → K) (p : α) (P : List α) (q : α) : Except Err ℕ :=
  (cells pos p P q 0).bind fun x => (cells pos p P q 1).bind fun y =>
    (cells pos p P q 2).bind fun z => zorder3 ![x, y, z]

/-- Contract of `parlay::sort_inplace` on pairs compared by code. Serves
`include/mortonSort/mortonSortImpl.h` lines 153-164. -/
def SortSpec (srt : List (ℕ × α) → List (ℕ × α)) : Prop :=
  ∀ L, (srt L).Perm L ∧ (srt L).Pairwise fun a b => a.1 ≤ b.1

/-- `include/mortonSort/mortonSortImpl.h:153-164`: pair every point with its code, sort by code, drop the
codes. An exception or undefined code aborts. -/
def sortByCode (srt : List (ℕ × α) → List (ℕ × α)) (code : α → Except Err ℕ) (P : List α) :
    Except Err (List α) :=
  (P.mapM fun q => (code q).map fun c => (c, q)).map fun pairs => (srt pairs).map Prod.snd

/-- `include/mortonSort/mortonSortImpl.h:102-165` (`zorderSort2d`); 34-98 (`zorderSort2d_2`) differs only in
how coordinates are read. An empty input reads `P[0]`. -/
def zorderSort2d (srt : List (ℕ × α) → List (ℕ × α)) (pos : α → Fin 2 → K) :
    List α → Except Err (List α)
  | [] => .error .ub
  | p :: P => sortByCode srt (code2 pos p (p :: P)) (p :: P)

/-- `include/mortonSort/mortonSortImpl.h:244-315` (`zorderSort3d`); 170-240 (`zorderSort3d_2`). -/
def zorderSort3d (srt : List (ℕ × α) → List (ℕ × α)) (pos : α → Fin 3 → K) :
    List α → Except Err (List α)
  | [] => .error .ub
  | p :: P => sortByCode srt (code3 pos p (p :: P)) (p :: P)

end Verif.Morton
