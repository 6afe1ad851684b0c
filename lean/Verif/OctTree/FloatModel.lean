import Verif.OctTree.Model
import Verif.KdTree.FloatModel

set_option linter.unusedSectionVars false
set_option linter.unusedVariables false

/-!
The oct-tree and its nearest neighbour search, `src/delaunayTriangulation/incremental/oct_tree.h` and `neighbors.h`, in
rounded arithmetic. `fl` is the rounding of one operation on `double`. Comparisons, minima and maxima are exact, so
`get_box`, `new_leaf`, `new_node` and `build_recursive` are those of `Verif.OctTree.Model`.
-/

namespace Verif.OctTree

open Verif.KdTree

variable {V : Type} {d : ℕ}

/-- `src/delaunayTriangulation/incremental/oct_tree.h:158-160` (`set_center`) in rounded arithmetic. -/
noncomputable def OT.centerFl (fl : ℝ → ℝ) (T : OT V d) : Fin d → ℝ := fun i => fl (T.lo i + fl (fl (T.hi i - T.lo i) / 2))

/-- `src/delaunayTriangulation/incremental/oct_tree.h:203-221` (`interleave_bits`) in rounded arithmetic. `maxval` is an
`unsigned int`, its conversion to `double` is exact. For `delta = 0` see `interleaveBits`. -/
noncomputable def interleaveBitsFl (fl : ℝ → ℝ) (p lo : Fin d → ℝ) (delta : ℝ) : Except Err ℕ :=
  let bits := 64 / d
  let maxval : ℕ := 2 ^ bits - 1
  if delta = 0 then .error .ub
  else
    let ip : Fin d → ℕ := fun i => ⌊fl (fl ((maxval : ℝ) * fl (p i - lo i)) / delta)⌋₊
    .ok ((List.range bits).foldl (fun r i => (List.finRange d).foldl
      (fun r k => r ||| (((ip k >>> i) &&& 1) <<< (i * d + k.val))) r) 0)

/-- `src/delaunayTriangulation/incremental/oct_tree.h:242-264` (`tag_points`) without the sorting, in rounded
arithmetic. -/
noncomputable def tagsFl (fl : ℝ → ℝ) (pos : V → Fin d → ℝ) (P : List V) : Except Err (List (ℕ × V)) :=
  (getBox pos P).bind fun b =>
    let delta := (List.finRange d).foldl (fun x i => max x (fl (b.2 i - b.1 i))) 0
    P.mapM fun v => (interleaveBitsFl fl (pos v) b.1 delta).map fun t => (t, v)

/-- `src/delaunayTriangulation/incremental/oct_tree.h:188-198` (`build`) in rounded arithmetic. `sort` is `parlay::sort`
by the tag. -/
noncomputable def buildFl (fl : ℝ → ℝ) (search : (ℕ × V → Bool) → List (ℕ × V) → ℕ)
    (sort : List (ℕ × V) → List (ℕ × V)) (pos : V → Fin d → ℝ) (P : List V) : Except Err (OT V d) :=
  (tagsFl fl pos P).bind fun pts => buildRec search pos (d * (64 / d)) (sort pts)

/-- `src/delaunayTriangulation/incremental/neighbors.h:85-96` (`update_nearest`) in rounded arithmetic. `Length()`,
`include/delaunayTriangulation/geometry.h:288`, is `distFl`: the sum there begins with `0`, which adds no error. -/
noncomputable def updateNearestFl (fl : ℝ → ℝ) (pos : V → Fin d → ℝ) (v other : V) : Buf V → Buf V
  | [] => []
  | x :: l =>
    let dist := distFl fl (pos v) (pos other)
    if (dist : WithTop ℝ) < x.1 then bubble (dist, some other) l else x :: l

/-- `src/delaunayTriangulation/incremental/neighbors.h:98-107` (`within_epsilon_box`) in rounded arithmetic. With the
largest number as epsilon both tests hold, for coordinates of smaller size. -/
noncomputable def withinBoxFl (fl : ℝ → ℝ) (p : Fin d → ℝ) (T : OT V d) : WithTop ℝ → Bool
  | ⊤ => true
  | (e : ℝ) => decide (∀ i, fl (T.lo i - e) < p i ∧ p i < fl (T.hi i + e))

/-- The loop over a leaf, `src/delaunayTriangulation/incremental/neighbors.h:119-121`, in rounded arithmetic. -/
noncomputable def scanLeafFl [DecidableEq V] (fl : ℝ → ℝ) (pos : V → Fin d → ℝ) (v : V) (P : List V) (b : Buf V) : Buf V :=
  P.foldl (fun b u => if u ≠ v then updateNearestFl fl pos v u b else b) b

/-- `src/delaunayTriangulation/incremental/neighbors.h:113-130` (`k_nearest_rec`) in rounded arithmetic; `distance` of a
node is `src/delaunayTriangulation/incremental/neighbors.h:109-111`. -/
noncomputable def nearestRecFl [DecidableEq V] (fl : ℝ → ℝ) (pos : V → Fin d → ℝ) (v : V) : OT V d → Buf V → Buf V
  | .leaf P lo hi, b => if withinBoxFl fl (pos v) (.leaf P lo hi) b.dist0 then scanLeafFl fl pos v P b else b
  | .node L R lo hi, b =>
    if withinBoxFl fl (pos v) (.node L R lo hi) b.dist0 then
      if distFl fl (L.centerFl fl) (pos v) < distFl fl (R.centerFl fl) (pos v) then
        nearestRecFl fl pos v R (nearestRecFl fl pos v L b)
      else nearestRecFl fl pos v L (nearestRecFl fl pos v R b)
    else b

/-- `src/delaunayTriangulation/incremental/neighbors.h:66,147-153` (`k_nearest`) in rounded arithmetic. -/
noncomputable def kNearestFl [DecidableEq V] (fl : ℝ → ℝ) (maxK : ℕ) (pos : V → Fin d → ℝ) (T : OT V d) (v : V) (k : ℕ) :
    Except Err (List (Option V)) :=
  (initBuf maxK k).map fun b => ((nearestRecFl fl pos v T b).map Prod.snd).reverse

/-- `src/delaunayTriangulation/incremental/neighbors.h:155-160` (`nearest`) in rounded arithmetic. -/
noncomputable def nearestFl [DecidableEq V] (fl : ℝ → ℝ) (maxK : ℕ) (pos : V → Fin d → ℝ) (T : OT V d) (v : V) :
    Except Err (Option V) :=
  (kNearestFl fl maxK pos T v 1).map fun l => l.head?.join

end Verif.OctTree
