import Mathlib.Analysis.SpecialFunctions.Trigonometric.Inverse
import Mathlib.Data.Nat.Log
import Verif.QHull.Model

set_option linter.unusedSectionVars false
set_option linter.unusedVariables false

/-!
Model of the gift wrapping hull in space, `include/convexHull3d/gift/hull.h`.

Points are given by a function `pos` from indices; `n` is their number. `max_element` and `min_element` are functions that
return an index, subject to their contract (`PickOk`, `LowOk` in `Gift/Geo.lean`).
-/

namespace Verif.Gift

open Verif Verif.Hull3d Verif.QHull

/-- `include/convexHull3d/gift/hull.h:61-69` (`facetAngle`). The quotient is 0/0, and the angle NaN, iff one of the two
normals vanishes; then the result is 0. -/
noncomputable def facetAngle (a1 b1 c1 c2 : P3 ℝ) : ℝ :=
  let v1 := cross3 (fun i => b1 i - a1 i) fun i => c1 i - a1 i
  let v2 := cross3 (fun i => b1 i - a1 i) fun i => c2 i - a1 i
  if dot v1 v1 * dot v2 v2 = 0 then 0 else Real.arccos (dot v1 v2 / √(dot v1 v1 * dot v2 v2))

/-- `include/convexHull3d/gift/hull.h:78-87` and `89-98` (`pivotOnFacet0`, `pivotOnFacet`): the index of a point of largest
angle. The two functions differ in how the first three points are passed. `pivotOnFacet0` returns the index as a floating
point number, which is exact. -/
noncomputable def pivot (pick : (ℕ → ℝ) → ℕ) (pos : ℕ → P3 ℝ) (p1 q1 q2 : P3 ℝ) : ℕ :=
  pick fun i => facetAngle p1 q1 q2 (pos i)

/-- `include/convexHull3d/gift/hull.h:115-122` (`fc`), the indices of the corners. -/
structure Fc where
  a : ℕ
  b : ℕ
  c : ℕ
deriving DecidableEq

/-- `include/convexHull3d/gift/hull.h:117-121`: the constructor. -/
noncomputable def mkFc (pos : ℕ → P3 ℝ) (a b c : ℕ) : Fc :=
  if 0 < det3 (pos a) (pos b) (pos c) then ⟨c, b, a⟩ else ⟨a, b, c⟩

/-- `include/convexHull3d/gift/hull.h:36-42`, `include/convexHull3d/gift/sparse_table.h:126` with `_m = 4 * n`,
`space_mult = 1.1`: the number of slots of the table of edges. -/
def tableSize (n : ℕ) : ℕ := 2 ^ Nat.clog 2 (44 * n / 10 + 1)

/-- `include/convexHull3d/gift/hull.h:44-46` (`mark`), with the table of edges by the contract of C45
(`c45_insert`, `c45_full_diverges`): the keys it contains, and an insertion of a new key into a full table never returns.
Indices are converted to `int`, so there are fewer than `2 ^ 31` points. -/
def mark (cap : ℕ) (T : List (ℕ × ℕ)) (e : ℕ × ℕ) : Except Err (List (ℕ × ℕ)) :=
  if e ∈ T then .ok T else if T.length < cap then .ok (e :: T) else .error .fuel

/-- `include/convexHull3d/gift/hull.h:48-50` (`processed`), by the contract of C45 (`c45_contains`): a search for an absent key
in a full table never returns. -/
def processed (cap : ℕ) (T : List (ℕ × ℕ)) (e : ℕ × ℕ) : Except Err Bool :=
  if e ∈ T then .ok true else if T.length < cap then .ok false else .error .fuel

/-- `include/convexHull3d/gift/hull.h:146-164`: the sequence `H` with the number of times its buffer has moved, the table `T`
and the queue `Q`. A pointer into `H` is the generation of the buffer together with an index. -/
structure Mem where
  H : List Fc
  gen : ℕ
  T : List (ℕ × ℕ)
  Q : List (ℕ × ℕ)

/-- `include/convexHull3d/gift/hull.h:172-179`: reading a facet through a pointer; undefined if the buffer has moved. -/
def Mem.deref (m : Mem) (p : ℕ × ℕ) : Except Err Fc :=
  if p.1 = m.gen then
    match m.H[p.2]? with
    | some f => .ok f
    | none => .error .ub
  else .error .ub

/-- `include/convexHull3d/gift/hull.h:171-179`: the edge to pivot on, `(e1, e2, e3)`. -/
def edgeOf (f : Fc) : ℕ → ℕ × ℕ × ℕ
  | 0 => (f.b, f.a, f.c)
  | 1 => (f.c, f.b, f.a)
  | _ => (f.a, f.c, f.b)

/-- `include/convexHull3d/gift/hull.h:188-192`: a new facet is appended, its address is pushed and its edges are marked. `moves k`
says whether appending to `k` facets moves the buffer. -/
def addFacet (cap : ℕ) (moves : ℕ → Bool) (m : Mem) (g : Fc) : Except Err Mem :=
  let gen := if moves m.H.length then m.gen + 1 else m.gen
  (mark cap m.T (g.a, g.b)).bind fun T =>
    (mark cap T (g.b, g.c)).bind fun T =>
      (mark cap T (g.c, g.a)).bind fun T => .ok ⟨m.H ++ [g], gen, T, m.Q ++ [(gen, m.H.length)]⟩

/-- `include/convexHull3d/gift/hull.h:171-193`: one pass of the loop over the three edges of the facet `*f`. -/
noncomputable def edgeStep (cap : ℕ) (moves : ℕ → Bool) (pick : (ℕ → ℝ) → ℕ) (pos : ℕ → P3 ℝ) (f : ℕ × ℕ) (j : ℕ) (m : Mem) :
    Except Err Mem :=
  (m.deref f).bind fun fc =>
    let e := edgeOf fc j
    (processed cap m.T (e.1, e.2.1)).bind fun b =>
      if b then .ok m
      else
        let q := pivot pick pos (pos e.1) (pos e.2.1) (pos e.2.2)
        addFacet cap moves m (mkFc pos e.1 q e.2.1)

/-- `include/convexHull3d/gift/hull.h:166-194`: the loop over the queue. -/
noncomputable def loop (cap : ℕ) (moves : ℕ → Bool) (pick : (ℕ → ℝ) → ℕ) (pos : ℕ → P3 ℝ) : ℕ → Mem → Except Err (List Fc)
  | 0, _ => .error .fuel
  | fuel + 1, m =>
    match m.Q with
    | [] => .ok m.H
    | f :: Q =>
      (edgeStep cap moves pick pos f 0 { m with Q := Q }).bind fun m =>
        (edgeStep cap moves pick pos f 1 m).bind fun m =>
          (edgeStep cap moves pick pos f 2 m).bind fun m => loop cap moves pick pos fuel m

/-- `include/convexHull3d/gift/hull.h:134-144`: the first three points. -/
noncomputable def firstThree (low pick : (ℕ → ℝ) → ℕ) (pos : ℕ → P3 ℝ) : ℕ × ℕ × ℕ :=
  let p1 := low fun i => pos i 0
  let q1 : P3 ℝ := fun k => if k = 1 then pos p1 k + 1 else pos p1 k
  let q2 : P3 ℝ := fun k => if k = 2 then pos p1 k + 1 else pos p1 k
  let p2 := pivot pick pos (pos p1) q1 q2
  let p3 := pivot pick pos (pos p1) (pos p2) q1
  (p1, p2, p3)

/-- `include/convexHull3d/gift/hull.h:146-164`: the first facet, its address in the queue, and three marked edges. -/
noncomputable def start (cap : ℕ) (low pick : (ℕ → ℝ) → ℕ) (pos : ℕ → P3 ℝ) : Except Err Mem :=
  let p := firstThree low pick pos
  (mark cap [] (p.2.1, p.1)).bind fun T =>
    (mark cap T (p.2.2, p.2.1)).bind fun T =>
      (mark cap T (p.1, p.2.2)).bind fun T => .ok ⟨[mkFc pos p.1 p.2.1 p.2.2], 0, T, [(0, 0)]⟩

/-- `include/convexHull3d/gift/hull.h:108-200` (`compute`), with a table of `cap` slots. `min_element` of no points is
undefined. The returned facets go through the constructor of `hull3d::facet`. -/
noncomputable def computeWith (cap : ℕ) (moves : ℕ → Bool) (low pick : (ℕ → ℝ) → ℕ) (fuel : ℕ) (P : List (P3 ℝ)) :
    Except Err (List (IFacet ℝ)) :=
  if P = [] then .error .ub
  else
    let pos : ℕ → P3 ℝ := fun i => P.getD i 0
    (start cap low pick pos).bind fun m =>
      (loop cap moves pick pos fuel m).map fun H => H.map fun f => mkFacet ⟨pos f.a, pos f.b, pos f.c⟩

/-- `include/convexHull3d/gift/hull.h:108-200` (`compute`). -/
noncomputable def compute (moves : ℕ → Bool) (low pick : (ℕ → ℝ) → ℕ) (fuel : ℕ) (P : List (P3 ℝ)) :
    Except Err (List (IFacet ℝ)) :=
  computeWith (tableSize P.length) moves low pick fuel P

end Verif.Gift
