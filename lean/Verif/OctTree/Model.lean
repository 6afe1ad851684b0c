import Verif.Outcome
import Mathlib.Analysis.SpecialFunctions.Sqrt
import Mathlib.Algebra.Order.Floor.Semiring
import Mathlib.Algebra.Order.Archimedean.Real.Basic

set_option linter.unusedSectionVars false
set_option linter.unusedVariables false

/-!
Model of the oct-tree (quad-tree in the plane) and its nearest neighbour search,
`src/delaunayTriangulation/incremental/oct_tree.h` and `neighbors.h`. Coordinates are real numbers; a vertex is a pointer,
`pos` gives its point. The parallel calls of the construction work on separate parts and are taken in sequence.
-/

namespace Verif.OctTree

variable {V : Type} {d : ℕ}

/-- `src/delaunayTriangulation/incremental/oct_tree.h:45-56,148-156`: a node. `Box()` is the pair `lo`, `hi`; the size and
the pointer to the parent are left out, `center` is a function of the box. -/
inductive OT (V : Type) (d : ℕ) where
  | leaf (P : List V) (lo hi : Fin d → ℝ)
  | node (L R : OT V d) (lo hi : Fin d → ℝ)

namespace OT

/-- `src/delaunayTriangulation/incremental/oct_tree.h:50` (`Box().first`). -/
def lo : OT V d → Fin d → ℝ
  | leaf _ l _ => l
  | node _ _ l _ => l

/-- `src/delaunayTriangulation/incremental/oct_tree.h:50` (`Box().second`). -/
def hi : OT V d → Fin d → ℝ
  | leaf _ _ h => h
  | node _ _ _ h => h

/-- `src/delaunayTriangulation/incremental/oct_tree.h:158-160` (`set_center`). -/
noncomputable def center (T : OT V d) : Fin d → ℝ := fun i => T.lo i + (T.hi i - T.lo i) / 2

/-- `src/delaunayTriangulation/incremental/oct_tree.h:102-106,169-180` (`flatten`): the vertices in the order of the
leaves. The two halves are written to separate parts of the array. -/
def flatten : OT V d → List V
  | leaf P _ _ => P
  | node L R _ _ => L.flatten ++ R.flatten

end OT

/-- `src/delaunayTriangulation/incremental/oct_tree.h:225-237` (`get_box`): the box of the points. The parallel `reduce`
is taken as a left fold. Without points `pts[0]` is undefined. -/
noncomputable def getBox (pos : V → Fin d → ℝ) : List V → Except Err ((Fin d → ℝ) × (Fin d → ℝ))
  | [] => .error .ub
  | a :: l => .ok (fun i => (a :: l).foldl (fun x v => min x (pos v i)) (pos a i),
      fun i => (a :: l).foldl (fun x v => max x (pos v i)) (pos a i))

/-- `src/delaunayTriangulation/incremental/oct_tree.h:58-70,81-85` (`new_leaf`). -/
noncomputable def newLeaf (pos : V → Fin d → ℝ) (P : List V) : Except Err (OT V d) :=
  (getBox pos P).map fun b => .leaf P b.1 b.2

/-- `src/delaunayTriangulation/incremental/oct_tree.h:72-79,87-93` (`new_node`). -/
noncomputable def newNode (L R : OT V d) : OT V d :=
  .node L R (fun i => min (L.lo i) (R.lo i)) (fun i => max (L.hi i) (R.hi i))

/-- `src/delaunayTriangulation/incremental/oct_tree.h:269-301` (`build_recursive`). `x.first & mask` is the remainder by
`2^bit`. `search` is `parlay::internal::binary_search`. `abort()` is `throws`. -/
noncomputable def buildRec (search : (ℕ × V → Bool) → List (ℕ × V) → ℕ) (pos : V → Fin d → ℝ) :
    ℕ → List (ℕ × V) → Except Err (OT V d)
  | bit, Pts =>
    if Pts.length = 0 then .error .throws
    else if bit = 0 ∨ Pts.length < 20 then newLeaf pos (Pts.map Prod.snd)
    else match bit with
      | 0 => newLeaf pos (Pts.map Prod.snd)
      | bit + 1 =>
        let cut := search (fun x => decide (x.1 % 2 ^ (bit + 1) < 2 ^ bit)) Pts
        if cut = 0 ∨ cut = Pts.length then buildRec search pos bit Pts
        else (buildRec search pos bit (Pts.take cut)).bind fun L =>
          (buildRec search pos bit (Pts.drop cut)).map fun R => newNode L R

/-- `src/delaunayTriangulation/incremental/oct_tree.h:203-221` (`interleave_bits`): bit `i` of coordinate `k` becomes bit
`i·d + k`. The coordinates are rounded to `64 / d` bits (`d` is 2 or 3; for `d = 1` the shift by 64 is undefined, which is
left out). For `delta = 0` the quotient is not a number and its conversion to `unsigned int` is undefined. -/
noncomputable def interleaveBits (p lo : Fin d → ℝ) (delta : ℝ) : Except Err ℕ :=
  let bits := 64 / d
  let maxval : ℕ := 2 ^ bits - 1
  if delta = 0 then .error .ub
  else
    let ip : Fin d → ℕ := fun i => ⌊(maxval : ℝ) * (p i - lo i) / delta⌋₊
    .ok ((List.range bits).foldl (fun r i => (List.finRange d).foldl
      (fun r k => r ||| (((ip k >>> i) &&& 1) <<< (i * d + k.val))) r) 0)

/-- `src/delaunayTriangulation/incremental/oct_tree.h:242-264` (`tag_points`) without the sorting: the tags. -/
noncomputable def tags (pos : V → Fin d → ℝ) (P : List V) : Except Err (List (ℕ × V)) :=
  (getBox pos P).bind fun b =>
    let delta := (List.finRange d).foldl (fun x i => max x (b.2 i - b.1 i)) 0
    P.mapM fun v => (interleaveBits (pos v) b.1 delta).map fun t => (t, v)

/-- `src/delaunayTriangulation/incremental/oct_tree.h:188-198` (`build`). `sort` is `parlay::sort` by the tag. -/
noncomputable def build (search : (ℕ × V → Bool) → List (ℕ × V) → ℕ) (sort : List (ℕ × V) → List (ℕ × V))
    (pos : V → Fin d → ℝ) (P : List V) : Except Err (OT V d) :=
  (tags pos P).bind fun pts => buildRec search pos (d * (64 / d)) (sort pts)

/-- `src/delaunayTriangulation/incremental/neighbors.h:55-62`: the arrays `distances` and `neighbors` of a search; `⊤` is
`numeric_limits<double>::max()`, `none` is `NULL`. -/
abbrev Buf (V : Type) := List (WithTop ℝ × Option V)

/-- `(a - b).Length()`, `include/delaunayTriangulation/geometry.h`. -/
noncomputable def len (a b : Fin d → ℝ) : ℝ := Real.sqrt (∑ i, (a i - b i) * (a i - b i))

/-- `src/delaunayTriangulation/incremental/neighbors.h:90-94`: the loop which moves an entry to its place. -/
noncomputable def bubble (x : WithTop ℝ × Option V) : Buf V → Buf V
  | [] => [x]
  | y :: l => if x.1 < y.1 then y :: bubble x l else x :: y :: l

/-- `src/delaunayTriangulation/incremental/neighbors.h:85-96` (`update_nearest`). An empty array does not occur; the code
would read past its end. -/
noncomputable def updateNearest (pos : V → Fin d → ℝ) (v other : V) : Buf V → Buf V
  | [] => []
  | x :: l =>
    let dist := len (pos v) (pos other)
    if (dist : WithTop ℝ) < x.1 then bubble (dist, some other) l else x :: l

/-- `distances[0]`. Serves
`src/delaunayTriangulation/incremental/neighbors.h` lines 98-107. -/
def Buf.dist0 (b : Buf V) : WithTop ℝ := (b.head?.map Prod.fst).getD ⊤

/-- `src/delaunayTriangulation/incremental/neighbors.h:98-107` (`within_epsilon_box`). -/
noncomputable def withinBox (p : Fin d → ℝ) (T : OT V d) : WithTop ℝ → Bool
  | ⊤ => true
  | (e : ℝ) => decide (∀ i, T.lo i - e < p i ∧ p i < T.hi i + e)

/-- The loop over a leaf, `src/delaunayTriangulation/incremental/neighbors.h:119-121`. -/
noncomputable def scanLeaf [DecidableEq V] (pos : V → Fin d → ℝ) (v : V) (P : List V) (b : Buf V) : Buf V :=
  P.foldl (fun b u => if u ≠ v then updateNearest pos v u b else b) b

/-- `src/delaunayTriangulation/incremental/neighbors.h:113-130` (`k_nearest_rec`). The counters are left out. -/
noncomputable def nearestRec [DecidableEq V] (pos : V → Fin d → ℝ) (v : V) : OT V d → Buf V → Buf V
  | .leaf P lo hi, b => if withinBox (pos v) (.leaf P lo hi) b.dist0 then scanLeaf pos v P b else b
  | .node L R lo hi, b =>
    if withinBox (pos v) (.node L R lo hi) b.dist0 then
      if len L.center (pos v) < len R.center (pos v) then nearestRec pos v R (nearestRec pos v L b)
      else nearestRec pos v L (nearestRec pos v R b)
    else b

/-- `src/delaunayTriangulation/incremental/neighbors.h:133-143` (`near_rec`). -/
noncomputable def nearRec [DecidableEq V] (pos : V → Fin d → ℝ) (v : V) : OT V d → Buf V → Buf V
  | .leaf P lo hi, b => scanLeaf pos v P b
  | .node L R lo hi, b =>
    if len L.center (pos v) < len R.center (pos v) then nearRec pos v L b else nearRec pos v R b

/-- `src/delaunayTriangulation/incremental/neighbors.h:69-82`: the constructor of a search for `k` neighbours;
`k > max_k` is `abort()`. With `k = 0` later steps read `distances[0]`, which is not set. -/
def initBuf (maxK k : ℕ) : Except Err (Buf V) :=
  if maxK < k then .error .throws else if k = 0 then .error .ub else .ok (List.replicate k (⊤, none))

/-- `src/delaunayTriangulation/incremental/neighbors.h:66,147-153` (`k_nearest`): the fields `ngh[0], …, ngh[k-1]` of the
vertex; `nn[i]` is `neighbors[k-i-1]`. -/
noncomputable def kNearest [DecidableEq V] (maxK : ℕ) (pos : V → Fin d → ℝ) (T : OT V d) (v : V) (k : ℕ) :
    Except Err (List (Option V)) :=
  (initBuf maxK k).map fun b => ((nearestRec pos v T b).map Prod.snd).reverse

/-- `src/delaunayTriangulation/incremental/neighbors.h:155-160` (`nearest`). -/
noncomputable def nearest [DecidableEq V] (maxK : ℕ) (pos : V → Fin d → ℝ) (T : OT V d) (v : V) : Except Err (Option V) :=
  (kNearest maxK pos T v 1).map fun l => l.head?.join

/-- `src/delaunayTriangulation/incremental/neighbors.h:162-166` (`near`). -/
noncomputable def near [DecidableEq V] (maxK : ℕ) (pos : V → Fin d → ℝ) (T : OT V d) (v : V) : Except Err (Option V) :=
  (initBuf maxK 1).map fun b => (nearRec pos v T b).head?.bind Prod.snd

end Verif.OctTree
