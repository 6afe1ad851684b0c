import Verif.KdTree.Model

/-!
Model of the bichromatic closest pair in `include/kdTree/bccpImpl.h` and of the node distances in
`include/kdTree/treeImpl.h`. Distances are squared.
-/

namespace Verif.KdTree

variable {α K : Type} {d : ℕ}

section
variable [Field K] [LinearOrder K]

/-- `include/kdTree/treeImpl.h:285-290`: the gap of two boxes in one dimension, at least 0. -/
def gap (b1 b2 : Box K d) (i : Fin d) : K :=
  max (max (b1.lo i - b2.hi i) (b2.lo i - b1.hi i)) 0

/-- `include/kdTree/treeImpl.h:275-297` (`nodeDistance`), squared: at the first dimension `i` in
which the boxes are disjoint the sum of the squared gaps from `i` on; 0 if there is none. -/
def nodeDistSqr (b1 b2 : Box K d) : K :=
  match (List.finRange d).find? fun i => b1.lo i > b2.hi i ∨ b2.lo i > b1.hi i with
  | none => 0
  | some i => (((List.finRange d).filter fun j => i ≤ j).map fun j => gap b1 b2 j * gap b1 b2 j).sum

/-- `include/kdTree/treeImpl.h:299-310` (`nodeFarDistance`), squared. -/
def nodeFarDistSqr (b1 b2 : Box K d) : K :=
  ∑ i, (max (b1.hi i) (b2.hi i) - min (b1.lo i) (b2.lo i)) *
    (max (b1.hi i) (b2.hi i) - min (b1.lo i) (b2.lo i))

/-- `include/kdTree/bccpImpl.h:34-43` (`bcp`): `none` is the initial state with null pointers and
distance `max()`. -/
abbrev Bcp (α K : Type) := Option (α × α × K)

/-- `include/kdTree/bccpImpl.h:45-53` (`update`). -/
def Bcp.update (r : Bcp α K) (u v : α) (dist : K) : Bcp α K :=
  match r with
  | none => some (u, v, dist)
  | some (u', v', dist') => if dist < dist' then some (u, v, dist) else some (u', v', dist')

/-- `include/kdTree/bccpImpl.h:57-69` and `80-88`: the double loop over the items of two nodes. -/
def bcpLoop (pos : α → Point K d) (l1 l2 : List α) (r : Bcp α K) : Bcp α K :=
  l1.foldl (fun r x => l2.foldl (fun r y => r.update x y (distSqr (pos x) (pos y))) r) r

/-- `include/kdTree/bccpImpl.h:56-69` (`bcpBruteforce`). -/
def bcpBruteforce (pos : α → Point K d) (t1 t2 : Tree α K d) : Bcp α K :=
  bcpLoop pos t1.items t2.items none

/-- `include/kdTree/bccpImpl.h:74`: the pruning test; no finite distance exceeds `max()`. -/
def bcpPrune (b1 b2 : Box K d) (r : Bcp α K) : Bool :=
  match r with
  | none => false
  | some (_, _, dist) => decide (nodeDistSqr b1 b2 > dist)

/-- `include/kdTree/bccpImpl.h:91-136`: the pairs of nodes visited next, in the order before
sorting by distance. -/
def bcpChildren : Tree α K d → Tree α K d → List (Tree α K d × Tree α K d)
  | .leaf b1 i1, .leaf b2 i2 => []
  | .leaf b1 i1, .node b2 l r =>
    if nodeDistSqr b1 l.box < nodeDistSqr b1 r.box then
      [(.leaf b1 i1, l), (.leaf b1 i1, r)] else [(.leaf b1 i1, r), (.leaf b1 i1, l)]
  | .node b1 l r, .leaf b2 i2 =>
    if nodeDistSqr b2 l.box < nodeDistSqr b2 r.box then
      [(l, .leaf b2 i2), (r, .leaf b2 i2)] else [(r, .leaf b2 i2), (l, .leaf b2 i2)]
  | .node b1 l1 r1, .node b2 l2 r2 => [(l1, l2), (l1, r2), (r1, l2), (r1, r2)]

/-- `include/kdTree/bccpImpl.h:71-139` (`bcpHelper`). `ord` is the `std::sort` of the four pairs of
children by distance (any tie breaking); it is applied to the two-element lists too, which are
already ordered. -/
def bcpHelper (pos : α → Point K d)
    (ord : List (Tree α K d × Tree α K d) → List (Tree α K d × Tree α K d)) :
    ℕ → Tree α K d → Tree α K d → Bcp α K → Except Err (Bcp α K)
  | 0, _, _, _ => .error .fuel
  | fuel + 1, t1, t2, r =>
    if bcpPrune t1.box t2.box r then .ok r
    else
      match t1, t2 with
      | .leaf _ i1, .leaf _ i2 => .ok (bcpLoop pos i1 i2 r)
      | t1, t2 => (ord (bcpChildren t1 t2)).foldlM (fun r p => bcpHelper pos ord fuel p.1 p.2 r) r

/-- The height of a tree; bounds the recursion depth of `bcpHelper`
(`include/kdTree/bccpImpl.h:71-139`). -/
def Tree.height : Tree α K d → ℕ
  | .leaf _ _ => 0
  | .node _ l r => max l.height r.height + 1

/-- `include/kdTree/bccpImpl.h:143-161` (`bichromaticClosestPair`). -/
def bichromaticClosestPair (pos : α → Point K d)
    (ord : List (Tree α K d × Tree α K d) → List (Tree α K d × Tree α K d))
    (t1 t2 : Tree α K d) : Except Err (Bcp α K) :=
  bcpHelper pos ord (t1.height + t2.height + 1) t1 t2 none

end

end Verif.KdTree
