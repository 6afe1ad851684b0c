import Verif.Geom
import Verif.Outcome
import Verif.Par.SplitModel

set_option linter.unusedSectionVars false
set_option linter.unusedVariables false

/-!
Model of the edge extraction of `src/spatialGraph/delaunayGraph/delaunayGraph.cpp` and
`src/spatialGraph/gabrielGraph/gabrielGraph.cpp`: from the triangles to the list of edges. The triangulation
itself is an input (a list of triangles).
-/

namespace Verif.TriEdges

variable {K : Type} [Field K] [LinearOrder K]

/-- An undirected edge: `include/spatialGraph/edge.h:5-28`, with `size_t` ends. -/
abbrev Edge := ℕ × ℕ

/-- The largest `size_t`, to which −1 converts. Serves
`include/spatialGraph/edge.h` lines 11-13. -/
def maxIdx : ℕ := 2 ^ 64 - 1

/-- `include/spatialGraph/edge.h:11-13`: the smaller end first. -/
def mkEdge (u v : ℕ) : Edge := if v < u then (v, u) else (u, v)

/-- `include/spatialGraph/edge.h:15`: the empty edge. -/
def noEdge : Edge := (maxIdx, maxIdx)

/-- `include/spatialGraph/edge.h:17` (`isEmpty`). -/
def isEmpty (e : Edge) : Bool := e.1 == maxIdx

/-- The comparison of `src/spatialGraph/delaunayGraph/delaunayGraph.cpp:65-68` and
`src/spatialGraph/gabrielGraph/gabrielGraph.cpp:75-79`. -/
def edgeLt (a b : Edge) : Prop := if a.1 = b.1 then a.2 < b.2 else a.1 < b.1

/-- A triangle: `include/delaunayTriangulation/geometry.h:408`, with natural numbers as vertices. -/
abbrev Tri := Fin 3 → ℕ

/-- The library sort (`parlay::sort_inplace`) by its contract: a permutation, ordered by the comparison of the
edges. The order of entries with equal edges is not fixed. Serves
`src/spatialGraph/delaunayGraph/delaunayGraph.cpp` lines 45-57. -/
def SortSpec (srt : List (Edge × Bool) → List (Edge × Bool)) : Prop :=
  ∀ l, (srt l).Perm l ∧ (srt l).Pairwise fun a b => ¬ edgeLt b.1 a.1

/-- `src/spatialGraph/delaunayGraph/delaunayGraph.cpp:45-57` (`processTri`): the three entries of a triangle. The
flag records that the edge is not empty (line 73). -/
def delTri (n : ℕ) (T : Tri) : List (Edge × Bool) :=
  (List.finRange 3).map fun i =>
    let u := T (i + 1)
    let v := T (i + 2)
    let e := if u < n ∧ v < n then mkEdge u v else noEdge
    (e, !isEmpty e)

/-- `src/spatialGraph/delaunayGraph/delaunayGraph.cpp:41-62`: all entries and the final empty edge. -/
def delEntries (n : ℕ) (Ts : List Tri) : List (Edge × Bool) :=
  Ts.flatMap (delTri n) ++ [(noEdge, !isEmpty noEdge)]

/-- `src/spatialGraph/gabrielGraph/gabrielGraph.cpp:59-61`: the point `x` is in the closed disk whose diameter is
the edge. Squared lengths in place of lengths. -/
def inDisk (P : List (Point K 2)) (x u v : ℕ) : Bool :=
  let p := P.getD u 0
  let q := P.getD v 0
  decide (distSqr (P.getD x 0) (fun i => (p i + q i) / 2) * 4 ≤ distSqr p q)

/-- `src/spatialGraph/gabrielGraph/gabrielGraph.cpp:45-67` (`processTri`). For a vertex `x` that is not an input
point the code reads `P[x]` outside the array (line 61) before it tests `x < n` (line 62); here the test comes
first, see `gabTriStrict`. -/
def gabTri (P : List (Point K 2)) (T : Tri) : List (Edge × Bool) :=
  (List.finRange 3).map fun i =>
    let x := T i
    let u := T (i + 1)
    let v := T (i + 2)
    if P.length ≤ u ∨ P.length ≤ v then (mkEdge u v, false)
    else if x < P.length ∧ inDisk P x u v = true then (mkEdge u v, false)
    else (mkEdge u v, true)

/-- `src/spatialGraph/gabrielGraph/gabrielGraph.cpp:41-73`. -/
def gabEntries (P : List (Point K 2)) (Ts : List Tri) : List (Edge × Bool) :=
  Ts.flatMap (gabTri P) ++ [(noEdge, false)]

/-- `src/spatialGraph/gabrielGraph/gabrielGraph.cpp:89-98` and
`src/spatialGraph/delaunayGraph/delaunayGraph.cpp:71-77`: the flag of entry `i`. (The second tests only entry `i` for
emptiness; equal edges are both empty or both not.) Entry `i + 1` is outside the array for the last `i`; `junk` is
whatever is read there. -/
def flagAt (junk : Edge × Bool) (l : List (Edge × Bool)) (i : ℕ) : Bool :=
  let a := l.getD i junk
  let b := l.getD (i + 1) junk
  decide (a.1 = b.1) && a.2 && b.2

/-- `src/spatialGraph/delaunayGraph/delaunayGraph.cpp:15-87`, if the accesses outside the arrays (`edges[i+1]` and
`flag[i]` for the last `i`) have no other effect than an arbitrary value read. -/
def delaunayGraph (srt : List (Edge × Bool) → List (Edge × Bool)) (junk : Edge × Bool) (n : ℕ) (Ts : List Tri) :
    List Edge :=
  let l := srt (delEntries n Ts)
  ((List.range l.length).filter (flagAt junk l)).map fun i => (l.getD i junk).1

/-- `src/spatialGraph/gabrielGraph/gabrielGraph.cpp:100`: the exclusive scan of the flags of all entries but the last, at
`i`; line 101 stores the total behind it. -/
def scanAt (fl : List Bool) (i : ℕ) : ℕ := (fl.take i).count true

/-- `src/spatialGraph/gabrielGraph/gabrielGraph.cpp:103-108`: the writes into the result. -/
def scatter (l : List Edge) (fl : List Bool) : List (ℕ × Edge) :=
  (List.range l.length).flatMap fun i =>
    if scanAt fl i ≠ scanAt fl (i + 1) then [(scanAt fl i, l.getD i noEdge)] else []

/-- `src/spatialGraph/gabrielGraph/gabrielGraph.cpp:13-118`: the writes into the result and its size, under the same
assumption on accesses outside the arrays. -/
def gabrielGraph (srt : List (Edge × Bool) → List (Edge × Bool)) (junk : Edge × Bool) (P : List (Point K 2))
    (Ts : List Tri) : List (ℕ × Edge) × ℕ :=
  let l := srt (gabEntries P Ts)
  let fl := (List.range (3 * Ts.length)).map (flagAt junk l)
  (scatter ((l.take (3 * Ts.length)).map fun a => a.1) fl, scanAt fl (3 * Ts.length))

/-! ### With accesses outside the arrays as undefined behaviour -/

/-- Reading an array. Serves
`delaunayGraph.cpp` lines 72-77. -/
def readAt {A : Type} (l : List A) (i : ℕ) : Except Err A :=
  match l[i]? with
  | some a => .ok a
  | none => .error .ub

/-- The flag loops (`delaunayGraph.cpp:72-77`, `gabrielGraph.cpp:90-98`): the bound is `edges.size()`, and the
body reads `edges[i+1]`. -/
def flagsStrict (l : List (Edge × Bool)) : Except Err (List Bool) :=
  (List.range l.length).mapM fun i =>
    (readAt l i).bind fun a => (readAt l (i + 1)).map fun b => decide (a.1 = b.1) && a.2 && b.2

/-- `src/spatialGraph/gabrielGraph/gabrielGraph.cpp:45-67` with the read of `P[x]` (line 61) where the code has it. -/
def gabTriStrict (P : List (Point K 2)) (T : Tri) : Except Err (List (Edge × Bool)) :=
  (List.finRange 3).mapM fun i =>
    let x := T i
    let u := T (i + 1)
    let v := T (i + 2)
    if P.length ≤ u ∨ P.length ≤ v then .ok (mkEdge u v, false)
    else (readAt P x).map fun _ =>
      if x < P.length ∧ inDisk P x u v = true then (mkEdge u v, false) else (mkEdge u v, true)

end Verif.TriEdges
