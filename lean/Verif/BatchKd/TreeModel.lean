import Verif.Outcome
import Verif.KdTree.RangeModel

set_option linter.unusedSectionVars false
set_option linter.unusedVariables false

/-!
Model of the batch kd-tree: nodes (`include/batchKdtree/shared/kdnode.h`), the base tree
(`include/batchKdtree/shared/kdtree.h`), partitioning (`include/batchKdtree/shared/utils.h`) and the
binary-heap-layout tree (`include/batchKdtree/binary-heap-layout/bhlkdtree.h`).

Assertions are not part of the model (release build). Node indices and sizes are natural numbers.
-/

namespace Verif.BatchKd

variable {α K : Type} {d : ℕ}

/-- `include/batchKdtree/shared/kdnode.h:49-60`: a node. `idx` is its place in the node array, `s` and `e`
delimit `subtree_items` inside the item array, `cnt` is `num_points` of a leaf. A null pointer is `nil`.
The children are modelled as subtrees instead of pointers. -/
inductive BT (K : Type) (d : ℕ) where
  | nil
  | leaf (idx s e cnt : ℕ) (box : Box K d)
  | node (idx s e : ℕ) (dim : Fin d) (val : K) (box : Box K d) (l r : BT K d)

namespace BT

/-- Null test of a child pointer (e.g. `include/batchKdtree/shared/kdnode.h:245`). -/
def isNil : BT K d → Bool
  | nil => true
  | _ => false

/-- `include/batchKdtree/shared/kdnode.h:241-242` (`getMin`, `getMax`). -/
def box? : BT K d → Option (Box K d)
  | nil => none
  | leaf _ _ _ _ b => some b
  | node _ _ _ _ _ b _ _ => some b

/-- `include/batchKdtree/shared/kdnode.h:258` (`getStartValue`). -/
def start : BT K d → ℕ
  | nil => 0
  | leaf _ s _ _ _ => s
  | node _ s _ _ _ _ _ _ => s

/-- `include/batchKdtree/shared/kdnode.h:259` (`getEndValue`). -/
def stop : BT K d → ℕ
  | nil => 0
  | leaf _ _ e _ _ => e
  | node _ _ e _ _ _ _ _ => e

/-- Specification: the places of the node array used by a tree. Serves
`include/batchKdtree/shared/kdtree.h` lines 105-117. -/
def indices : BT K d → List ℕ
  | nil => []
  | leaf i _ _ _ _ => [i]
  | node i _ _ _ _ _ l r => i :: (l.indices ++ r.indices)

end BT

/-- `include/batchKdtree/shared/kdtree.h:105-117`: the tree. `root` is `nodes[0]` with everything reachable
from it. -/
structure Tree (α K : Type) (d : ℕ) where
  items : List α
  present : List Bool
  root : BT K d
  curSize : ℕ
  buildSize : ℕ
  maxSize : ℕ

section
variable [Field K] [LinearOrder K]

/-- `include/batchKdtree/shared/kdnode.h:104-107`, 196-199: smallest box of two boxes (`minCoords`,
`maxCoords`). -/
def joinBox (a b : Box K d) : Box K d :=
  ⟨fun i => min (a.lo i) (b.lo i), fun i => max (a.hi i) (b.hi i)⟩

/-- The degenerate box at a point. Serves
`include/batchKdtree/shared/kdnode.h` lines 100-109. -/
def pointBox (p : Point K d) : Box K d := ⟨p, p⟩

/-- `include/batchKdtree/shared/kdnode.h:100-109`: box of the items of a new leaf; `first` is the position of
the item at the start of the slice (read even if the slice is empty). -/
def leafBox (pos : α → Point K d) (first : Point K d) (L : List α) : Box K d :=
  L.foldl (fun b x => joinBox b (pointBox (pos x))) (pointBox first)

/-- The choices of a build: leaf size, partition and the place of the children.
`split dim L` is the rearranged slice, the split value and the number of items on the left. Serves
`include/batchKdtree/binary-heap-layout/bhlkdtree.h` lines 100. -/
structure Cfg (α K : Type) (d : ℕ) where
  leafSize : ℕ
  split : Fin d → List α → List α × K × ℕ
  kids : ℕ → ℕ → ℕ × ℕ

/-- `include/batchKdtree/binary-heap-layout/bhlkdtree.h:100` (`next_split_dim`). -/
def nextDim (i : Fin d) : Fin d := ⟨(i.val + 1) % d, Nat.mod_lt _ (lt_of_le_of_lt (Nat.zero_le _) i.2)⟩

/-- Position of the first item of a slice, or of whatever the array holds there if the slice is empty. Serves
`include/batchKdtree/shared/kdnode.h` lines 193-209. -/
def firstPos (pos : α → Point K d) (stale : Point K d) : List α → Point K d
  | [] => stale
  | x :: _ => pos x

/-- `include/batchKdtree/shared/kdnode.h:193-209` (`recomputeBoundingBox`): new box of a node from the
children that exist. -/
def recomputeBox (old : Box K d) (l r : BT K d) : Box K d :=
  match l.box?, r.box? with
  | some a, some b => joinBox a b
  | some a, none => a
  | none, some b => b
  | none, none => old

/-- `include/batchKdtree/binary-heap-layout/bhlkdtree.h:48-143` (`buildKdtRecursive`): builds the subtree
over the slice `L` that starts at `off`, at place `idx`, and rearranges the slice. A split with an empty
left side would place a node over itself (spatial layout, lines 119-123) and never end: undefined. -/
def buildRec (c : Cfg α K d) (pos : α → Point K d) (stale : Point K d) :
    ℕ → ℕ → ℕ → Fin d → List α → Except Err (BT K d × List α)
  | 0, _, _, _, _ => .error .fuel
  | fuel + 1, idx, off, dim, L =>
    if L.length ≤ c.leafSize then
      .ok (.leaf idx off (off + L.length) L.length (leafBox pos (firstPos pos stale L) L), L)
    else
      let sp := c.split dim L
      let m := sp.2.2
      if m = 0 then .error .ub
      else
        (buildRec c pos stale fuel (c.kids idx m).1 off (nextDim dim) (sp.1.take m)).bind fun a =>
        (buildRec c pos stale fuel (c.kids idx m).2 (off + m) (nextDim dim) (sp.1.drop m)).map fun b =>
          (.node idx off (off + L.length) dim sp.2.1
            (recomputeBox (pointBox (firstPos pos stale L)) a.1 b.1) a.1 b.1, a.2 ++ b.2)

/-- Contract of `std::nth_element` at position `m`. Serves
`include/batchKdtree/shared/utils.h` lines 107-117. -/
def NthItems (nth : Fin d → ℕ → List α → List α) (pos : α → Point K d) : Prop :=
  ∀ dim m L, m < L.length → (nth dim m L).Perm L ∧
    ∀ r, (nth dim m L)[m]? = some r →
      (∀ x ∈ (nth dim m L).take m, pos x dim ≤ pos r dim) ∧
      (∀ y ∈ (nth dim m L).drop m, pos r dim ≤ pos y dim)

/-- Contract of `parlay::sort_inplace` by one coordinate. Serves
`include/batchKdtree/shared/utils.h` lines 107-117. -/
def SortItems (srt : Fin d → List α → List α) (pos : α → Point K d) : Prop :=
  ∀ dim L, (srt dim L).Perm L ∧ (srt dim L).Pairwise fun x y => pos x dim ≤ pos y dim

/-- `include/batchKdtree/shared/utils.h:107-117` (`serialMedianPartition`) with `split_n` (51-54) and
`split_val<objT, true>` (58-59): selection; the split value is the median item. -/
def serialMedian (nth : Fin d → ℕ → List α → List α) (pos : α → Point K d) (dim : Fin d) (L : List α) :
    List α × K × ℕ :=
  let L' := nth dim (L.length / 2) L
  (L', ((L'[L.length / 2]?).map fun x => pos x dim).getD 0, L.length / 2)

/-- `include/batchKdtree/shared/utils.h:96-105` (`parallelMedianPartition`, sorting version) with
`split_val` (61-63): the split value is the middle between the two median items. -/
def parallelMedian (srt : Fin d → List α → List α) (pos : α → Point K d) (dim : Fin d) (L : List α) :
    List α × K × ℕ :=
  let L' := srt dim L
  (L', (((L'[L.length / 2 - 1]?).map fun x => pos x dim).getD 0 +
    ((L'[L.length / 2]?).map fun x => pos x dim).getD 0) / 2, L.length / 2)

/-- `include/batchKdtree/binary-heap-layout/bhlkdtree.h:65-75`, 101-132: object-median build.
`par n` tells whether a slice of `n` items is split in parallel
(`bhlkdtree.h:37`, `62`). -/
def objectCfg (leafSize : ℕ) (par : ℕ → Bool) (nth : Fin d → ℕ → List α → List α)
    (srt : Fin d → List α → List α) (pos : α → Point K d) : Cfg α K d where
  leafSize := leafSize
  split := fun dim L => if par L.length then parallelMedian srt pos dim L else serialMedian nth pos dim L
  kids := fun i _ => (2 * i + 1, 2 * i + 2)

/-- Contract of `std::partition` and of `parlay::internal::split_two`: items with coordinate below the
value first. Serves
`include/batchKdtree/shared/utils.h` lines 186-205. -/
def PartItems (part : Fin d → K → List α → List α) (pos : α → Point K d) : Prop :=
  ∀ dim v L, (part dim v L).Perm L ∧
    (∀ x ∈ (part dim v L).take (L.countP fun x => pos x dim < v), pos x dim < v) ∧
    (∀ x ∈ (part dim v L).drop (L.countP fun x => pos x dim < v), v ≤ pos x dim)

/-- Smallest coordinate of a list of items (0 if empty). Serves
`include/batchKdtree/shared/utils.h` lines 186-205. -/
def minCoord (pos : α → Point K d) (dim : Fin d) : List α → K
  | [] => 0
  | x :: L => L.foldl (fun m y => min m (pos y dim)) (pos x dim)

/-- Largest coordinate of a list of items (0 if empty). Serves
`include/batchKdtree/shared/utils.h` lines 186-205. -/
def maxCoord (pos : α → Point K d) (dim : Fin d) : List α → K
  | [] => 0
  | x :: L => L.foldl (fun m y => max m (pos y dim)) (pos x dim)

/-- `include/batchKdtree/shared/utils.h:186-205` and 207-237 (`parallelSpatialPartition`,
`serialSpatialPartition`): split in the middle of the extent. -/
def spatialSplit (part : Fin d → K → List α → List α) (pos : α → Point K d) (dim : Fin d) (L : List α) :
    List α × K × ℕ :=
  let v := (minCoord pos dim L + maxCoord pos dim L) / 2
  (part dim v L, v, L.countP fun x => pos x dim < v)

/-- `include/batchKdtree/binary-heap-layout/bhlkdtree.h:73-79`, 103-132: spatial-median build. -/
def spatialCfg (leafSize : ℕ) (part : Fin d → K → List α → List α) (pos : α → Point K d) :
    Cfg α K d where
  leafSize := leafSize
  split := spatialSplit part pos
  kids := fun i m => (i + 1, i + 2 * m)

variable (pos : α → Point K d)

/-- Position of the first slot of the item array (any value if there is none). Serves
`include/batchKdtree/shared/kdtree.h` lines 128-155. -/
def stalePos (items : List α) : Point K d := firstPos pos (fun _ => 0) items

/-- `include/batchKdtree/shared/kdtree.h:128-155` and `bhlkdtree.h:171-173`: an empty tree of capacity
`2^log2size`. The `items` are default constructed points (`blank`). -/
def emptyTree (blank : α) (log2size : ℕ) : Tree α K d where
  items := List.replicate (2 ^ log2size) blank
  present := List.replicate (2 ^ log2size) true
  root := .nil
  curSize := 0
  buildSize := 0
  maxSize := 2 ^ log2size

/-- `include/batchKdtree/shared/kdtree.h:167-186` (`clear`). The node array is not reset. -/
def clear (t : Tree α K d) : Tree α K d :=
  { t with
    curSize := 0
    buildSize := 0
    present := List.replicate t.present.length true }

/-- `include/batchKdtree/binary-heap-layout/bhlkdtree.h:146-149` and 158-168 (`buildKdt`, `build`): the
items and sizes have been set before. -/
def buildAll (c : Cfg α K d) (d0 : Fin d) (t : Tree α K d) : Except Err (Tree α K d) :=
  (buildRec c pos (stalePos pos t.items) (t.curSize + 1) 0 0 d0 (t.items.take t.curSize)).map fun r =>
    { t with
      root := r.1
      items := r.2 ++ t.items.drop t.curSize }

/-- `include/batchKdtree/binary-heap-layout/bhlkdtree.h:186-197` (`build_no_bloom`): writing past the end of
`items` is undefined. -/
def buildPoints (c : Cfg α K d) (d0 : Fin d) (t : Tree α K d) (pts : List α) : Except Err (Tree α K d) :=
  if t.items.length < pts.length then .error .ub
  else buildAll pos c d0
    { t with
      curSize := pts.length
      buildSize := pts.length
      items := pts ++ t.items.drop pts.length }

/-- `include/batchKdtree/shared/kdtree.h:192-211` (`moveElementsTo`): the present items in order, and the
cleared tree. -/
def moveElements (t : Tree α K d) : List α × Tree α K d :=
  ((((t.items.zip t.present).take t.buildSize).filter fun x => x.2).map fun x => x.1, clear t)

/-- `include/batchKdtree/binary-heap-layout/bhlkdtree.h:224-264` (`insert`). The vector `gather` has
`cur_size` slots, so moving more items out of the tree would be undefined. -/
def insert (c : Cfg α K d) (d0 : Fin d) (t : Tree α K d) (pts : List α) : Except Err (Tree α K d) :=
  if pts.length = 0 then .ok t
  else if t.curSize = 0 then buildPoints pos c d0 t pts
  else
    let g := moveElements t
    if g.1.length ≠ t.curSize then .error .ub
    else buildPoints pos c d0 g.2 (g.1 ++ pts)

/-- `include/batchKdtree/shared/kdnode.h:258-259` with the flags: the slots of a slice, each with its
presence flag. -/
def slots (items : List α) (present : List Bool) (s e : ℕ) : List (α × Bool) :=
  ((items.zip present).drop s).take (e - s)

/-- The present items of a slice (`include/batchKdtree/shared/kdnode.h:294-309`, `pack_into`). -/
def live (items : List α) (present : List Bool) (s e : ℕ) : List α :=
  ((slots items present s e).filter fun x => x.2).map fun x => x.1

/-- `include/batchKdtree/shared/kdtree.h:221-238` (`contains`): walk down, then look at the leaf. A node
whose children are both null counts as a leaf. -/
def containsAt (items : List α) (present : List Bool) (p : Point K d) : BT K d → Except Err Bool
  | .nil => .error .ub
  | .leaf _ s e _ _ => .ok ((slots items present s e).any fun x => x.2 && decide (pos x.1 = p))
  | .node _ s e dim val _ l r =>
    if l.isNil && r.isNil then
      .ok ((slots items present s e).any fun x => x.2 && decide (pos x.1 = p))
    else if p dim < val then containsAt items present p l
    else containsAt items present p r

/-- `include/batchKdtree/shared/kdtree.h:221-238` (`contains`). -/
def contains (t : Tree α K d) (p : Point K d) : Except Err Bool :=
  if t.curSize = 0 then .ok false else containsAt pos t.items t.present p t.root

/-- `include/batchKdtree/shared/kdtree.h:240-247` (`contains` of a batch). -/
def containsBatch (t : Tree α K d) (ps : List (Point K d)) : Except Err (List Bool) :=
  if t.curSize = 0 then .ok (List.replicate ps.length false) else ps.mapM (contains pos t)

/-- `include/batchKdtree/shared/kdtree.h:54-60` (`FoundPoint`); null or missing ancestors are `none`. -/
structure Found where
  idx : ℕ
  parent : Option ℕ
  gparent : Option ℕ
  point : ℕ
deriving DecidableEq

/-- `include/batchKdtree/shared/kdtree.h:268-276`: first present equal point of the leaf. -/
def findInLeaf (p : Point K d) (sl : List (α × Bool)) : Option ℕ :=
  sl.findIdx? fun x => x.2 && decide (pos x.1 = p)

/-- `include/batchKdtree/shared/kdtree.h:249-280` (`find`). -/
def findAt (items : List α) (present : List Bool) (p : Point K d) :
    Option ℕ → Option ℕ → BT K d → Except Err (Option Found)
  | _, _, .nil => .error .ub
  | par, gpar, .leaf idx s e _ _ =>
    .ok ((findInLeaf pos p (slots items present s e)).map fun j => ⟨idx, par, gpar, j⟩)
  | par, gpar, .node idx s e dim val _ l r =>
    if l.isNil && r.isNil then
      .ok ((findInLeaf pos p (slots items present s e)).map fun j => ⟨idx, par, gpar, j⟩)
    else if p dim < val then findAt items present p (some idx) par l
    else findAt items present p (some idx) par r

/-- `include/batchKdtree/shared/kdtree.h:249-280` (`find`). -/
def find (t : Tree α K d) (p : Point K d) : Except Err (Option Found) :=
  if t.curSize = 0 then .ok none else findAt pos t.items t.present p none none t.root

/-- `include/batchKdtree/shared/box.h:40-46` (`itemInBox`). -/
def itemInBox (q : Box K d) (p : Point K d) : Bool :=
  decide (∀ i, ¬ (q.hi i < p i ∨ q.lo i > p i))

/-- `include/batchKdtree/shared/kdnode.h:286-336` (`orthogonalQuery`): the items appended to `ret`.
`boxCompare` (`box.h:55-74`) is the same function as in `include/kdTree/kdTree.h:343-360`. -/
def orthAt (items : List α) (present : List Bool) (q : Box K d) : BT K d → List α
  | .nil => []
  | .leaf _ s e _ b =>
    match KdTree.boxCompare q b with
    | .excl => []
    | .incl => live items present s e
    | .overlap => (live items present s e).filter fun x => itemInBox q (pos x)
  | .node _ s e _ _ b l r =>
    match KdTree.boxCompare q b with
    | .excl => []
    | .incl => live items present s e
    | .overlap =>
      if l.isNil && r.isNil then (live items present s e).filter fun x => itemInBox q (pos x)
      else orthAt items present q l ++ orthAt items present q r

/-- `include/batchKdtree/shared/kdtree.h:282-288` (`orthogonalQuery`). -/
def orthogonalQuery (t : Tree α K d) (q : Box K d) : List α :=
  if t.curSize = 0 then [] else orthAt pos t.items t.present q t.root

/-- `include/batchKdtree/shared/kdtree.h:643-651`: one listed point removes the first present equal item of
the slice; the number of removals is counted. -/
def eraseOne (items : List α) (s e : ℕ) (p : Point K d) (st : List Bool × ℕ) : List Bool × ℕ :=
  match findInLeaf pos p (slots items st.1 s e) with
  | some j => (st.1.set (s + j) false, st.2 + 1)
  | none => st

/-- `include/batchKdtree/shared/kdnode.h:211-226` (`recomputeBoundingBoxLeaf`). -/
def leafBoxLive (old : Box K d) : List (Point K d) → Box K d
  | [] => old
  | p :: ps => ps.foldl (fun b x => joinBox b (pointBox x)) (pointBox p)

/-- `include/batchKdtree/shared/kdtree.h:637-671` (`bulk_erase_leaf`): new flags, number removed, the leaf
and whether it stays. `num_points` is an `int` that the code only decreases by what it removed. -/
def eraseLeaf (items : List α) (present : List Bool) (pts : List (Point K d)) (idx s e cnt : ℕ)
    (b : Box K d) : List Bool × ℕ × BT K d × Bool :=
  let st := pts.foldl (fun st p => eraseOne pos items s e p st) (present, 0)
  if cnt - st.2 = 0 then (st.1, st.2, .leaf idx s e (cnt - st.2) b, false)
  else if 0 < st.2 then
    (st.1, st.2, .leaf idx s e (cnt - st.2) (leafBoxLive b ((live items st.1 s e).map pos)), true)
  else (st.1, st.2, .leaf idx s e (cnt - st.2) b, true)

/-- `include/batchKdtree/shared/kdtree.h:673-714` (`bulk_erase_helper`) and 716-790 (the parallel version):
returns the new flags, the number removed, the state of the node itself afterwards (it may still be
reachable from the root, whose result is ignored), and the returned pointer (`nil` if all points of the
subtree are gone). `part` is `std::partition` (`utils.h:120-125`) or `parallelPartition` (`utils.h:127-173`).
A node whose children are both null would be treated as a leaf. -/
def eraseAt (part : Fin d → K → List (Point K d) → List (Point K d)) (items : List α) :
    List Bool → List (Point K d) → BT K d → Except Err (List Bool × ℕ × BT K d × BT K d)
  | _, _, .nil => .error .ub
  | present, pts, .leaf idx s e cnt b =>
    let r := eraseLeaf pos items present pts idx s e cnt b
    .ok (r.1, r.2.1, r.2.2.1, if r.2.2.2 then r.2.2.1 else .nil)
  | present, pts, .node idx s e dim val b l r =>
    if l.isNil && r.isNil then .error .ub
    else
      let m := pts.countP fun p => p dim < val
      (eraseAt part items present ((part dim val pts).take m) l).bind fun x =>
      (eraseAt part items x.1 ((part dim val pts).drop m) r).map fun y =>
        if x.2.2.2.isNil = false ∧ y.2.2.2.isNil = false then
          (y.1, x.2.1 + y.2.1,
            .node idx s e dim val (recomputeBox b x.2.2.2 y.2.2.2) x.2.2.2 y.2.2.2,
            .node idx s e dim val (recomputeBox b x.2.2.2 y.2.2.2) x.2.2.2 y.2.2.2)
        else if x.2.2.2.isNil ∧ y.2.2.2.isNil then
          (y.1, x.2.1 + y.2.1, .node idx s e dim val b x.2.2.1 y.2.2.1, .nil)
        else
          (y.1, x.2.1 + y.2.1, .node idx s e dim val b x.2.2.1 y.2.2.1,
            if x.2.2.2.isNil then y.2.2.2 else x.2.2.2)

/-- `include/batchKdtree/shared/kdtree.h:787-817` (`bulk_erase` of the base class): the root stays in
place whatever the helper returns. -/
def bulkErase (part : Fin d → K → List (Point K d) → List (Point K d)) (t : Tree α K d)
    (pts : List (Point K d)) : Except Err (Tree α K d) :=
  if t.curSize = 0 then .ok t
  else
    (eraseAt pos part t.items t.present pts t.root).map fun r =>
      { t with
        present := r.1
        root := r.2.2.1
        curSize := t.curSize - r.2.1 }

/-- `include/batchKdtree/binary-heap-layout/bhlkdtree.h:265-291` (`bulk_erase<true>`): erase, move the
remaining items out, rebuild over them. -/
def bulkEraseRebuild (c : Cfg α K d) (d0 : Fin d)
    (part : Fin d → K → List (Point K d) → List (Point K d)) (t : Tree α K d)
    (pts : List (Point K d)) : Except Err (Tree α K d) :=
  (bulkErase pos part t pts).bind fun t1 =>
    let g := moveElements t1
    if g.1.length ≠ t1.curSize then .error .ub
    else buildPoints pos c d0 g.2 g.1

end

end Verif.BatchKd
