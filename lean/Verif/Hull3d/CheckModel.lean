import Verif.Hull3d.LinkModel

set_option linter.unusedSectionVars false
set_option linter.unusedVariables false

/-!
Model of the integrity checkers and traversals of `include/convexHull3d/hullTopology.h`: `dfsFacet`, `hullSizeDfs`, `printHull`,
`checkHull` and `getHullPts`, on any memory of facets, linked correctly or not. `live` are the facets that are allocated; following
a pointer to any other cell, or a null pointer, is undefined behaviour. What is printed is the list of the facets and their
numbers of points; the format is not modelled.
-/

namespace Verif.Hull3d

open Verif

variable {V : Type} [DecidableEq V]

/-- A hull object: `include/convexHull3d/hullTopology.h:63-70` and the memory it points to; `pts f` are `f->pts(0..numPts())`
(`serialQuickHull/linkedFacet.h:57-69`). -/
structure Topo (V : Type) where
  heap : Heap V
  live : List ℕ
  pts : ℕ → List V
  H : ℕ

/-- Following a pointer, as in `include/convexHull3d/hullTopology.h:86-97`. -/
def Topo.deref (t : Topo V) (p : Option ℕ) : Except Err ℕ :=
  match p with
  | none => .error .ub
  | some i => if i ∈ t.live then .ok i else .error .ub

/-- `include/convexHull3d/hullTopology.h:78-101` (`dfsFacet`) with visitors that accept every facet and never stop: `fDo` may throw.
The stack holds the pointers `e.ff`, the last one pushed first; `seen` are the marked facets (a hash table used as a set; that it
has room, `hSize` being the number of facets, is assumed). -/
def dfs {σ : Type} (t : Topo V) (fDo : σ → ℕ → Except Err σ) : ℕ → List (Option ℕ) → List ℕ → σ → Except Err σ
  | 0, _, _, _ => .error .fuel
  | _ + 1, [], _, s => .ok s
  | fuel + 1, p :: S, seen, s =>
    (t.deref p).bind fun i =>
      if i ∈ seen then dfs t fDo fuel S seen s
      else (fDo s i).bind fun s' =>
        dfs t fDo fuel ((t.heap i).bc :: (t.heap i).ca :: (t.heap i).ab :: S) (i :: seen) s'

/-- `include/convexHull3d/hullTopology.h:327-335` (`hullSizeDfs`); the caller has replaced a null `start` by `H`. -/
def hullSizeDfs (fuel : ℕ) (t : Topo V) (start : ℕ) : Except Err ℕ :=
  dfs t (fun s _ => .ok (s + 1)) fuel [some start] [] 0

/-- `include/convexHull3d/hullTopology.h:337-356` (`printHull` with `checker = false`): the number and the list it prints. -/
def printPlain (fuel : ℕ) (t : Topo V) (start : ℕ) : Except Err (ℕ × List (ℕ × ℕ)) :=
  (hullSizeDfs fuel t t.H).bind fun hs =>
    (dfs t (fun (out : List (ℕ × ℕ)) f => .ok (out ++ [(f, (t.pts f).length)])) fuel [some start] [] []).map fun out => (hs, out)

/-- `include/convexHull3d/hullTopology.h:337-356` (`printHull`, `checker = true`). -/
def printHull (fuel : ℕ) (t : Topo V) (start : ℕ) : Except Err (ℕ × List (ℕ × ℕ)) :=
  (printPlain fuel t start).bind fun out =>
    (hullSizeDfs fuel t t.H).bind fun hs =>
      (dfs t (fun (_ : Unit) f => (hullSizeDfs fuel t f).bind fun s => if s ≠ hs then .error .throws else .ok ())
        fuel [some start] [] ()).map fun _ => out

/-- `include/convexHull3d/hullTopology.h:364-366`: the three comparisons of an edge with those of `g`. -/
def touches (g : Facet V) (v1 v2 : V) : Bool :=
  ((decide (g.a = v1) && decide (g.b = v2)) || (decide (g.a = v2) && decide (g.b = v1))) ||
    ((decide (g.b = v1) && decide (g.c = v2)) || (decide (g.b = v2) && decide (g.c = v1))) ||
    ((decide (g.c = v1) && decide (g.a = v2)) || (decide (g.c = v2) && decide (g.a = v1)))

/-- `include/convexHull3d/hullTopology.h:360-369` (`isAdjacent`); the array `V` is `f1->a, f2->b, f2->c`, as in the source. -/
def isAdjacent (f1 f2 : Facet V) : Bool :=
  touches f2 f1.a f2.b || touches f2 f2.b f2.c || touches f2 f2.c f1.a

/-- `include/convexHull3d/hullTopology.h:374-376`: the two tests for one link of `f`, evaluated from left to right. -/
def adjBoth (t : Topo V) (f : ℕ) (p : Option ℕ) : Except Err Bool :=
  (t.deref p).map fun j => isAdjacent (t.heap f) (t.heap j) && isAdjacent (t.heap j) (t.heap f)

/-- `include/convexHull3d/hullTopology.h:374-376`: the condition, with `&&` not evaluating what follows a false test. -/
def adjAll (t : Topo V) (f : ℕ) : Except Err Bool :=
  (adjBoth t f (t.heap f).ab).bind fun x => if !x then .ok false else
    (adjBoth t f (t.heap f).bc).bind fun y => if !y then .ok false else adjBoth t f (t.heap f).ca

/-- `include/convexHull3d/hullTopology.h:358-386` (`checkHull`). -/
def checkHull (fuel : ℕ) (t : Topo V) (start : ℕ) : Except Err Unit :=
  dfs t (fun (_ : Unit) f => (adjAll t f).bind fun ok =>
    if ok then .ok () else (printHull fuel t t.H).bind fun _ => .error .throws) fuel [some start] [] ()

/-- `parlay::unique` (external), after an element `prev`: an element is kept if it differs from its predecessor in the input. Used
at `include/convexHull3d/hullTopology.h:441`. -/
def dropRepeats (prev : V) : List V → List V
  | [] => []
  | q :: l => if q = prev then dropRepeats q l else q :: dropRepeats q l

/-- `parlay::unique` (external), used at `include/convexHull3d/hullTopology.h:441`. -/
def uniqueL : List V → List V
  | [] => []
  | p :: l => p :: dropRepeats p l

/-- `include/convexHull3d/hullTopology.h:429-442` (`getHullPts`); `add` adds `interiorPt`, `sort` is `parlay::sort_inplace`. -/
def getHullPts (fuel : ℕ) (t : Topo V) (add : V → V) (sort : List V → List V) : Except Err (List V) :=
  (dfs t (fun (out : List V) f => .ok (out ++ (t.pts f).map add)) fuel [some t.H] [] []).map fun out => uniqueL (sort out)

end Verif.Hull3d
