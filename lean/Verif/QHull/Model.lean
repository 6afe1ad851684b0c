import Mathlib.Algebra.Order.Group.Abs
import Verif.Hull3d.BruteModel
import Verif.Hull3d.LinkModel

set_option linter.unusedSectionVars false
set_option linter.unusedVariables false

/-!
Model of the sequential quickhull in space: `include/convexHull3d/serialQuickHull/*.h`,
`include/convexHull3d/initialize.h` (`initSerial`), the traversals of `include/convexHull3d/hullTopology.h` and
`src/convexHull3d/serialQuickHull/hull.cpp`.

Facets live in a heap of numbered cells (`Verif.Hull3d.Heap`); `live` are the cells that are allocated and not deleted.
Following a pointer to any other cell, or one that was never set, is undefined behaviour. `eps` is `pointT::eps`.
-/

namespace Verif.QHull

open Verif Verif.Hull3d

variable {K : Type} [Field K] [LinearOrder K]

/-- Points of space. Serves
`include/convexHull3d/hullTopology.h` lines 72-74. -/
abbrev P3 (K : Type) := Point K 3

/-- `include/convexHull3d/hullTopology.h:72-74`, `serialQuickHull/linkedFacet.h:77, 105`: `(f->a - p).dot(f->area)`, with
`area = crossProduct3d(b-a, c-a)`. -/
def sv (a b c p : P3 K) : K :=
  dot (fun i => a i - p i) (cross3 (fun i => b i - a i) fun i => c i - a i)

/-- A vertex with its `seeFacet` pointer (`include/convexHull3d/vertex.h:19`). -/
abbrev Vtx (K : Type) := P3 K × ℕ

/-- The object `hullTopology` (`include/convexHull3d/hullTopology.h:63-70`) together with the memory it uses: the facets, which of
them are allocated, their `seeList` (`serialQuickHull/linkedFacet.h:57`) and the next free cell. -/
structure Hull (K : Type) where
  heap : Heap (P3 K)
  live : List ℕ
  pts : ℕ → List (Vtx K)
  next : ℕ
  H : ℕ
  hSize : ℕ

/-- Follow a pointer to a facet. Serves
`include/convexHull3d/serialQuickHull/linkedFacet.h` lines 99-108. -/
def deref (st : Hull K) (p : Option ℕ) : Except Err (ℕ × Facet (P3 K)) :=
  match p with
  | none => .error .ub
  | some i => if i ∈ st.live then .ok (i, st.heap i) else .error .ub

/-- `include/convexHull3d/serialQuickHull/linkedFacet.h:99-108`: the constructor; `b` and `c` are exchanged if the determinant
exceeds `eps`. -/
def mkLinked (eps : K) (a b c : P3 K) : Facet (P3 K) :=
  if eps < det3 a b c then ⟨a, c, b, none, none, none⟩ else ⟨a, b, c, none, none, none⟩

/-- `include/convexHull3d/hullTopology.h:72-74` (`visible`). -/
def visible (eps : K) (f : Facet (P3 K)) (p : P3 K) : Bool := decide (eps < sv f.a f.b f.c p)

/-- `include/convexHull3d/serialQuickHull/hullImpl.h:59-64` (`keep`), also `initialize.h:93-99` (`visible`). -/
def keep (eps : K) (f : Facet (P3 K)) (p : P3 K) : Bool :=
  decide (eps < sv f.a f.b f.c p) && (decide (f.a ≠ p) && decide (f.b ≠ p) && decide (f.c ≠ p))

/-- `include/convexHull3d/serialQuickHull/linkedFacet.h:71-83` (`furthest`): the loop, from the running maximum `m` and the apex so
far. An empty vertex is `none`; a point whose first coordinate is the largest representable number is not modelled. -/
def furthestGo (f : Facet (P3 K)) : List (Vtx K) → K → Option (Vtx K) → Option (Vtx K)
  | [], _, apex => apex
  | v :: l, m, apex =>
    if m < sv f.a f.b f.c v.1 then furthestGo f l (sv f.a f.b f.c v.1) (some v) else furthestGo f l m apex

/-- `include/convexHull3d/serialQuickHull/linkedFacet.h:71-83`. -/
def furthest (eps : K) (f : Facet (P3 K)) (l : List (Vtx K)) : Option (Vtx K) := furthestGo f l eps none

/-- `include/convexHull3d/hullTopology.h:78-101` (`dfsFacet`) for visitors that accept every facet: the stack holds the pointers
`e.ff`, `V` the marked facets (a `parlay::hashtable`, used as a set), `s` the variables captured by the lambdas. -/
def dfsFacet {σ : Type} (st : Hull K) (fDo : σ → ℕ → Facet (P3 K) → σ) (fStop : σ → Bool) :
    ℕ → List (Option ℕ) → List ℕ → σ → Except Err σ
  | 0, _, _, _ => .error .fuel
  | _ + 1, [], _, s => .ok s
  | fuel + 1, p :: S, V, s =>
    (deref st p).bind fun (i, f) =>
      if i ∈ V then
        if fStop s then .ok s else dfsFacet st fDo fStop fuel S V s
      else
        if fStop (fDo s i f) then .ok (fDo s i f)
        else dfsFacet st fDo fStop fuel (f.bc :: f.ca :: f.ab :: S) (i :: V) (fDo s i f)

/-- `include/convexHull3d/serialQuickHull/hullImpl.h:92-106` (`facetWalk`): a facet with the most points. -/
def facetWalk (fuel : ℕ) (st : Hull K) : Except Err ℕ :=
  (deref st (some st.H)).bind fun _ =>
    (dfsFacet st (fun (s : ℕ × ℕ) i _ => if s.2 < (st.pts i).length then (i, (st.pts i).length) else s) (fun _ => false)
      fuel [some st.H] [] (st.H, (st.pts st.H).length)).map Prod.fst

/-- `include/convexHull3d/serialQuickHull/hullImpl.h:108-119` (`furthestApex`). -/
def furthestApex (eps : K) (fuel : ℕ) (st : Hull K) (f : ℕ) : Except Err (Option (Vtx K)) :=
  dfsFacet st (fun (s : Option (Vtx K)) i g => if 0 < (st.pts i).length then furthest eps g (st.pts i) else s)
    (fun s => s.isSome) fuel [some f] [] none

/-- `include/convexHull3d/hullTopology.h:253-263` (`_edge`). -/
structure Edge (K : Type) where
  a : P3 K
  b : P3 K
  ff : Option ℕ
  fb : Option ℕ

/-- `include/convexHull3d/hullTopology.h:139-151`: what `dfsEdge` pushes after visiting `e`, the top of the stack first. -/
def pushEdges (i : ℕ) (f : Facet (P3 K)) (b : P3 K) : List (Edge K) :=
  if f.a = b then [⟨f.b, f.c, f.bc, some i⟩, ⟨f.c, f.a, f.ca, some i⟩, ⟨f.a, f.b, f.ab, some i⟩]
  else if f.b = b then [⟨f.c, f.a, f.ca, some i⟩, ⟨f.a, f.b, f.ab, some i⟩, ⟨f.b, f.c, f.bc, some i⟩]
  else if f.c = b then [⟨f.a, f.b, f.ab, some i⟩, ⟨f.b, f.c, f.bc, some i⟩, ⟨f.c, f.a, f.ca, some i⟩]
  else []

/-- The variables of `computeFrontier`: the frontier edges and the facets to delete. Serves
`include/convexHull3d/hullTopology.h` lines 293-301. -/
abbrev Fr (K : Type) := List (Edge K) × List ℕ

/-- `include/convexHull3d/hullTopology.h:293-301` (`fVisit` of `computeFrontier`). -/
def frVisit (eps : K) (st : Hull K) (apex : P3 K) (e : Edge K) : Except Err Bool :=
  match e.fb with
  | none => .ok true
  | some j => (deref st (some j)).bind fun (_, g) => .ok (visible eps g apex)

/-- `include/convexHull3d/hullTopology.h:303-317` (`fDo` of `computeFrontier`). -/
def frDo (eps : K) (st : Hull K) (apex : P3 K) (s : Fr K) (e : Edge K) : Except Err (Fr K) :=
  (deref st e.ff).bind fun (i, f) =>
    let seeff := visible eps f apex
    let facets := if (seeff || e.fb.isNone) && decide (i ∉ s.2) then s.2 ++ [i] else s.2
    match e.fb with
    | none => .ok (s.1, facets)
    | some j => (deref st (some j)).bind fun (_, g) =>
      .ok (if visible eps g apex && !seeff then s.1 ++ [e] else s.1, facets)

/-- `include/convexHull3d/hullTopology.h:109-154` (`dfsEdge`), with the visitor of `computeFrontier` (281-321). `V` are the visited
edges; edges are compared by their end points (261-262). -/
def dfsEdge (eps : K) (st : Hull K) (apex : P3 K) :
    ℕ → List (Edge K) → List (P3 K × P3 K) → Fr K → Except Err (Fr K)
  | 0, _, _, _ => .error .fuel
  | _ + 1, [], _, s => .ok s
  | fuel + 1, e :: S, V, s =>
    if (e.a, e.b) ∈ V then dfsEdge eps st apex fuel S V s
    else
      (frVisit eps st apex e).bind fun v =>
        if v then
          (frDo eps st apex s e).bind fun s' =>
            (deref st e.ff).bind fun (i, f) =>
              dfsEdge eps st apex fuel (pushEdges i f e.b ++ S) ((e.a, e.b) :: V) s'
        else dfsEdge eps st apex fuel S V s

/-- `include/convexHull3d/hullTopology.h:281-321` (`computeFrontier`). -/
def computeFrontier (eps : K) (fuel : ℕ) (st : Hull K) (apex : Vtx K) : Except Err (Fr K) :=
  (deref st (some apex.2)).bind fun (i, f) =>
    dfsEdge eps st apex.1 fuel [⟨f.b, f.a, some i, none⟩] [] ([], [])

/-- `include/convexHull3d/serialQuickHull/quickHull.h:85-97`: the edges form a closed chain, in this order. -/
def closedChain (fr : List (Edge K)) : Bool :=
  (List.range fr.length).all fun i =>
    match fr[i]?, fr[(i + 1) % fr.length]? with
    | some cv, some nv => decide (cv.b = nv.a)
    | _, _ => true

/-- `include/convexHull3d/serialQuickHull/quickHull.h:99-105`: the new facets, in the cells from `next` on. -/
def allocNew (eps : K) (st : Hull K) (fr : List (Edge K)) (apex : P3 K) : Hull K :=
  { st with
    heap := fun i => if st.next ≤ i ∧ i < st.next + fr.length then
        match fr[i - st.next]? with
        | some e => mkLinked eps e.a e.b apex
        | none => st.heap i
      else st.heap i
    live := List.range' st.next fr.length ++ st.live
    pts := fun i => if st.next ≤ i ∧ i < st.next + fr.length then [] else st.pts i
    next := st.next + fr.length }

/-- `include/convexHull3d/hullTopology.h:207-240` (`linkFacet` with three neighbours) through pointers. -/
def linkAt (st : Hull K) (f ab : ℕ) (bc : Option ℕ) (ca : ℕ) : Except Err (Hull K) :=
  (deref st (some f)).bind fun _ => (deref st (some ab)).bind fun _ => (deref st bc).bind fun (j, _) =>
    (deref st (some ca)).bind fun _ =>
      (linkFacet st.heap f ab j ca).map fun h => { st with heap := h }

/-- `include/convexHull3d/serialQuickHull/quickHull.h:107-114`: link the new facets, which start at the cell `base`. -/
def linkNew (base : ℕ) (fr : List (Edge K)) : List ℕ → Hull K → Except Err (Hull K)
  | [], st => .ok st
  | i :: l, st =>
    match fr[i]? with
    | none => .error .ub
    | some e =>
      (linkAt st (base + i) (base + (i + 1) % fr.length) e.ff (base + (i + fr.length - 1) % fr.length)).bind
        (linkNew base fr l)

/-- `include/convexHull3d/serialQuickHull/hullImpl.h:80-89`: one point of a facet that is deleted goes to the first new facet that
keeps it. -/
def place (eps : K) (heap : Heap (P3 K)) (new : List ℕ) (pts : ℕ → List (Vtx K)) (v : Vtx K) : ℕ → List (Vtx K) :=
  match new.find? fun k => keep eps (heap k) v.1 with
  | some k => Function.update pts k (pts k ++ [(v.1, k)])
  | none => pts

/-- `include/convexHull3d/serialQuickHull/hullImpl.h:66-90` (`redistribute`). -/
def redistribute (eps : K) (st : Hull K) (beneath new : List ℕ) : Hull K :=
  { st with
    hSize := st.hSize + new.length - beneath.length
    pts := beneath.foldl (fun pts i => (st.pts i).foldl (place eps st.heap new) pts) st.pts }

/-- `include/convexHull3d/serialQuickHull/quickHull.h:99-128`: one successful round; with no frontier edge `newFacets[0]` (116) is
out of bounds. -/
def round (eps : K) (st : Hull K) (apex : P3 K) (fr : Fr K) : Except Err (Hull K) :=
  if fr.1 = [] then .error .ub
  else
    (linkNew st.next fr.1 (List.range fr.1.length) (allocNew eps st fr.1 apex)).bind fun st1 =>
      let st2 := redistribute eps { st1 with H := st.next } fr.2 (List.range' st.next fr.1.length)
      .ok { st2 with live := st2.live.filter fun i => decide (i ∉ fr.2) }

/-- `include/convexHull3d/serialQuickHull/quickHull.h:62-129` (`quickHullSerial`), with at most `n` rounds. -/
def quickHull (eps : K) (fuel : ℕ) : ℕ → Hull K → Except Err (Hull K)
  | 0, _ => .error .fuel
  | n + 1, st =>
    (if st.hSize < 512 then facetWalk fuel st else .ok st.H).bind fun f0 =>
      (furthestApex eps fuel st f0).bind fun apex =>
        match apex with
        | none => .ok st
        | some v =>
          (computeFrontier eps fuel st v).bind fun fr =>
            if closedChain fr.1 then (round eps st v.1 fr).bind (quickHull eps fuel n)
            else quickHull eps fuel n { st with pts := Function.update st.pts v.2 [] }

/-- `include/pargeo/parlayAddon.h:26-48` (`min_element_serial`, `max_element_serial`): the first position at which `key` is
largest; `(n, ..)` on an empty sequence is not modelled (the caller indexes with the result). -/
def argmax (key : P3 K → K) : List (P3 K) → Option (P3 K)
  | [] => none
  | p :: l => match argmax key l with
    | none => some p
    | some q => if key p < key q then some q else some p

/-- `include/convexHull3d/initialize.h:40-62`: the two extreme points along the axis of the largest extent (the third axis if no
axis is strictly largest). -/
def extremes (P : List (P3 K)) : Option (P3 K × P3 K) :=
  match argmax (fun p => -p 0) P, argmax (fun p => p 0) P, argmax (fun p => -p 1) P, argmax (fun p => p 1) P,
    argmax (fun p => -p 2) P, argmax (fun p => p 2) P with
  | some x0, some x1, some y0, some y1, some z0, some z1 =>
    let dx := x1 0 - x0 0
    let dy := y1 1 - y0 1
    let dz := z1 2 - z0 2
    if dy < dx ∧ dz < dx then some (x0, x1) else if dx < dy ∧ dz < dy then some (y0, y1) else some (z0, z1)
  | _, _, _, _, _, _ => none

/-- `include/convexHull3d/initialize.h:40-82`: the four corners of the first simplex. Lengths are compared by their squares. -/
def corners (P : List (P3 K)) : Option (P3 K × P3 K × P3 K × P3 K) :=
  (extremes P).bind fun (x1, x2) =>
    (argmax (fun p => dot (cross3 (fun i => x1 i - p i) fun i => x2 i - p i) (cross3 (fun i => x1 i - p i) fun i => x2 i - p i))
      P).bind fun y1 =>
      let area := cross3 (fun i => x1 i - y1 i) fun i => x2 i - y1 i
      (argmax (fun p => |dot (fun i => y1 i - p i) area|) P).map fun z1 => (x1, x2, y1, z1)

/-- `include/convexHull3d/initialize.h:82`: the interior point. -/
def centre (a b c d : P3 K) : P3 K := fun i => (a i + b i + c i + d i) / 4

/-- `include/convexHull3d/initialize.h:31-129` (`initSerial`); also returns the interior point. The translation of 87-89 is applied
to the corners and to all points. -/
def initSerial (eps : K) (P : List (P3 K)) : Except Err (Hull K × P3 K) :=
  match corners P with
  | none => .error .ub
  | some (c1, c2, c3, c4) =>
    let o := centre c1 c2 c3 c4
    let tr (p : P3 K) : P3 K := fun i => p i - o i
    let f0 := mkLinked eps (tr c1) (tr c2) (tr c3)
    let f1 := mkLinked eps (tr c1) (tr c2) (tr c4)
    let f2 := mkLinked eps (tr c3) (tr c4) (tr c2)
    let f3 := mkLinked eps (tr c3) (tr c4) (tr c1)
    let heap : Heap (P3 K) := fun i => if i = 0 then f0 else if i = 1 then f1 else if i = 2 then f2 else f3
    let pts := ((P.map tr).map fun p => (p, 0)).foldl (place eps heap [0, 1, 2, 3]) fun _ => []
    let st : Hull K := ⟨heap, [0, 1, 2, 3], pts, 4, 0, 4⟩
    (linkAt st 0 1 (some 2) 3).bind fun st => (linkAt st 1 0 (some 2) 3).bind fun st =>
      (linkAt st 2 1 (some 0) 3).bind fun st => (linkAt st 3 1 (some 2) 0).map fun st => (st, o)

/-- `include/convexHull3d/hullTopology.h:401-412` (`getFacet`). -/
def getFacet (fuel : ℕ) (st : Hull K) (o : P3 K) : Except Err (List (IFacet K)) :=
  dfsFacet st (fun (out : List (IFacet K)) _ f => out ++
      [mkFacet ⟨fun i => f.a i + o i, fun i => f.b i + o i, fun i => f.c i + o i⟩])
    (fun _ => false) fuel [some st.H] [] []

/-- `src/convexHull3d/serialQuickHull/hull.cpp:40-53` (`compute`). -/
def compute (eps : K) (fuel : ℕ) (P : List (P3 K)) : Except Err (List (IFacet K)) :=
  if P.length ≤ 10 then .ok (brute eps P)
  else
    (initSerial eps P).bind fun (st, o) => (quickHull eps fuel fuel st).bind fun st => getFacet fuel st o

end Verif.QHull
