import Mathlib.Data.List.GetD
import Mathlib.Logic.Function.Basic
import Verif.Outcome

set_option linter.unusedSectionVars false
set_option linter.unusedVariables false

/-!
Model of the facet linking functions of `include/convexHull3d/hullTopology.h`. Facets live in a heap indexed by numbers
(addresses); vertices are compared by coordinates, so they are values of any type with decidable equality.
-/

namespace Verif.Hull3d

open Verif

variable {V : Type} [DecidableEq V]

/-- `include/convexHull3d/serialQuickHull/linkedFacet.h:40-47` (fields `a, b, c, abFacet, bcFacet, caFacet`; the remaining
fields are not used by linking). -/
structure Facet (V : Type) where
  a : V
  b : V
  c : V
  ab : Option ℕ
  bc : Option ℕ
  ca : Option ℕ

/-- The facets in memory. Serves
`include/convexHull3d/hullTopology.h` lines 213-215. -/
abbrev Heap (V : Type) := ℕ → Facet V

/-- `include/convexHull3d/hullTopology.h:213-215`: the test of `findFacet`. -/
def hasEdge (g : Facet V) (v1 v2 : V) : Bool :=
  (decide (g.a = v1) && decide (g.b = v2)) || (decide (g.b = v1) && decide (g.a = v2)) ||
    (decide (g.b = v1) && decide (g.c = v2)) || (decide (g.c = v1) && decide (g.b = v2)) ||
    (decide (g.c = v1) && decide (g.a = v2)) || (decide (g.a = v1) && decide (g.c = v2))

/-- `include/convexHull3d/hullTopology.h:211-220` (`findFacet`). -/
def findFacet (h : Heap V) (F : List ℕ) (v1 v2 : V) : Except Err ℕ :=
  match F.find? fun i => hasEdge (h i) v1 v2 with
  | some i => .ok i
  | none => .error .throws

/-- `include/convexHull3d/hullTopology.h:222-232` (`linkEdge`). -/
def linkEdge (h : Heap V) (f1 f2 : ℕ) (v1 v2 : V) : Except Err (Heap V) :=
  let g := h f2
  if (g.a = v1 ∧ g.b = v2) ∨ (g.a = v2 ∧ g.b = v1) then .ok (Function.update h f2 { g with ab := some f1 })
  else if (g.b = v1 ∧ g.c = v2) ∨ (g.b = v2 ∧ g.c = v1) then .ok (Function.update h f2 { g with bc := some f1 })
  else if (g.c = v1 ∧ g.a = v2) ∨ (g.c = v2 ∧ g.a = v1) then .ok (Function.update h f2 { g with ca := some f1 })
  else .error .throws

/-- `include/convexHull3d/hullTopology.h:207-240` (`linkFacet` with three neighbours). -/
def linkFacet (h : Heap V) (f ab bc ca : ℕ) : Except Err (Heap V) :=
  let F := [ab, bc, ca]
  (findFacet h F (h f).a (h f).b).bind fun x =>
  (linkEdge (Function.update h f { h f with ab := some x }) f x (h f).a (h f).b).bind fun h1 =>
  (findFacet h1 F (h1 f).b (h1 f).c).bind fun y =>
  (linkEdge (Function.update h1 f { h1 f with bc := some y }) f y (h1 f).b (h1 f).c).bind fun h2 =>
  (findFacet h2 F (h2 f).c (h2 f).a).bind fun z =>
  linkEdge (Function.update h2 f { h2 f with ca := some z }) f z (h2 f).c (h2 f).a

/-- `include/convexHull3d/hullTopology.h:171-181` (`match`). -/
def matchEdge (p1 p2 q1 q2 : V) : Bool :=
  (decide (p1 = q1) && decide (p2 = q2)) || (decide (p1 = q2) && decide (p2 = q1))

/-- `include/convexHull3d/hullTopology.h:166-205` (`linkFacet` with two facets). -/
def linkPair (h : Heap V) (f1 f2 : ℕ) : Bool × Heap V :=
  let p := h f1
  let q := h f2
  let set (u v : Facet V) : Bool × Heap V := (true, Function.update (Function.update h f1 u) f2 v)
  if matchEdge p.a p.b q.a q.b then set { p with ab := some f2 } { q with ab := some f1 }
  else if matchEdge p.b p.c q.a q.b then set { p with bc := some f2 } { q with ab := some f1 }
  else if matchEdge p.c p.a q.a q.b then set { p with ca := some f2 } { q with ab := some f1 }
  else if matchEdge p.a p.b q.b q.c then set { p with ab := some f2 } { q with bc := some f1 }
  else if matchEdge p.b p.c q.b q.c then set { p with bc := some f2 } { q with bc := some f1 }
  else if matchEdge p.c p.a q.b q.c then set { p with ca := some f2 } { q with bc := some f1 }
  else if matchEdge p.a p.b q.c q.a then set { p with ab := some f2 } { q with ca := some f1 }
  else if matchEdge p.b p.c q.c q.a then set { p with bc := some f2 } { q with bc := some f1 }
  else if matchEdge p.c p.a q.c q.a then set { p with ca := some f2 } { q with ca := some f1 }
  else (false, h)

end Verif.Hull3d
