import Verif.BatchKd.TreeModel

set_option linter.unusedSectionVars false
set_option linter.unusedVariables false

/-!
Model of erasing points one at a time from a batch kd-tree (`include/batchKdtree/shared/kdtree.h:515-598`).

`find` (249-280) returns the places of the leaf, of its parent and of its grandparent as differences of
pointers; a missing ancestor is a null pointer, whose difference to `nodes` is turned back into a null
pointer by `erase`. (Taken by the letter of the C++ standard that difference is undefined already.) The
model runs the walk of `find` and the pointer updates of `erase` as one recursion over the tree: the
`FoundPoint` is used at once and never stored.
-/

namespace Verif.BatchKd

variable {α K : Type} {d : ℕ}

section
variable [Field K] [LinearOrder K] (pos : α → Point K d)

/-- Result of the walk in a subtree, seen from the node above it:
`absent`: the point was not found (`kdtree.h:277-280`);
`kept t`: erased, the subtree is now `t` (`kdtree.h:563-566`, or further down);
`emptied t`: the subtree is a leaf without points, `t` (`kdtree.h:536`);
`cut sib isLeft self`: the left or right child of this node is a leaf without points, `sib` is the other
child, `self` the node as it stands (`kdtree.h:538`). -/
inductive Out (K : Type) (d : ℕ) where
  | absent
  | kept (t : BT K d)
  | emptied (t : BT K d)
  | cut (sib : BT K d) (isLeft : Bool) (self : BT K d)

/-- `include/batchKdtree/shared/kdtree.h:527-537` and 563-566: mark the item, count down, and recompute the
box of a leaf that keeps points. -/
def eraseInLeaf (items : List α) (present : List Bool) (p : Point K d) (idx s e cnt : ℕ) (b : Box K d) :
    List Bool × Out K d :=
  match findInLeaf pos p (slots items present s e) with
  | none => (present, .absent)
  | some j =>
    if cnt - 1 = 0 then (present.set (s + j) false, .emptied (.leaf idx s e (cnt - 1) b))
    else (present.set (s + j) false, .kept (.leaf idx s e (cnt - 1)
      (leafBoxLive b ((live items (present.set (s + j) false) s e).map pos))))

/-- `include/batchKdtree/shared/kdtree.h:537-553`, seen from the node above the left child: an emptied leaf
is reported to the grandparent, which takes the sibling in place of the parent and recomputes its own box
(552); boxes further up stay as they are. -/
def upLeft (idx s e : ℕ) (dim : Fin d) (val : K) (b : Box K d) (l r : BT K d) : Out K d → Out K d
  | .absent => .absent
  | .kept c => .kept (.node idx s e dim val b c r)
  | .emptied c => .cut r true (.node idx s e dim val b c r)
  | .cut sib _ _ => .kept (.node idx s e dim val (recomputeBox b sib r) sib r)

/-- `include/batchKdtree/shared/kdtree.h:537-553`, from the node above the right child. -/
def upRight (idx s e : ℕ) (dim : Fin d) (val : K) (b : Box K d) (l r : BT K d) : Out K d → Out K d
  | .absent => .absent
  | .kept c => .kept (.node idx s e dim val b l c)
  | .emptied c => .cut l false (.node idx s e dim val b l c)
  | .cut sib _ _ => .kept (.node idx s e dim val (recomputeBox b l sib) l sib)

/-- `include/batchKdtree/shared/kdtree.h:249-280` (`find`) followed by 515-566 (`erase`): a null child that is
walked into is dereferenced. A node without children (only a root that lost both sides, when the tree is
empty and `find` stops at once) is not walked into. -/
def eraseWalk (items : List α) (present : List Bool) (p : Point K d) :
    BT K d → Except Err (List Bool × Out K d)
  | .nil => .error .ub
  | .leaf idx s e cnt b => .ok (eraseInLeaf pos items present p idx s e cnt b)
  | .node idx s e dim val b l r =>
    if l.isNil && r.isNil then .error .ub
    else if p dim < val then
      (eraseWalk items present p l).map fun x => (x.1, upLeft idx s e dim val b l r x.2)
    else
      (eraseWalk items present p r).map fun x => (x.1, upRight idx s e dim val b l r x.2)

/-- `include/batchKdtree/shared/kdtree.h:558-562`: the root loses a child and recomputes its box. -/
def dropChild (isLeft : Bool) : BT K d → BT K d
  | .node idx s e dim val b l r =>
    if isLeft then .node idx s e dim val (recomputeBox b .nil r) .nil r
    else .node idx s e dim val (recomputeBox b l .nil) l .nil
  | t => t

/-- `include/batchKdtree/shared/kdtree.h:536-566` for a leaf without grandparent. With `log_tree` nothing is
done (555-557). Otherwise the parent is dereferenced (558), which is a null pointer if the leaf is the
root. -/
def finishRoot (logTree : Bool) (root : BT K d) : Out K d → Except Err (BT K d)
  | .absent => .ok root
  | .kept t => .ok t
  | .emptied t => if logTree then .ok t else .error .ub
  | .cut _ isLeft self => if logTree then .ok self else .ok (dropChild isLeft self)

/-- The answer of `erase(point)` (`include/batchKdtree/shared/kdtree.h:575-581`). -/
def Out.found : Out K d → Bool
  | .absent => false
  | _ => true

/-- `include/batchKdtree/shared/kdtree.h:572-582` (`erase` of one point): the answer and the tree. -/
def erasePoint (logTree : Bool) (t : Tree α K d) (p : Point K d) : Except Err (Bool × Tree α K d) :=
  if t.curSize = 0 then .ok (false, t)
  else
    (eraseWalk pos t.items t.present p t.root).bind fun x =>
    (finishRoot logTree t.root x.2).map fun root =>
      (x.2.found,
        { t with
          present := x.1
          root := root
          curSize := if x.2.found then t.curSize - 1 else t.curSize })

/-- `include/batchKdtree/shared/kdtree.h:588-598` (`erase` of a sequence): one point after the other. -/
def erasePoints (logTree : Bool) (t : Tree α K d) : List (Point K d) → Except Err (Tree α K d)
  | [] => .ok t
  | p :: ps => (erasePoint pos logTree t p).bind fun x => erasePoints logTree x.2 ps

end

end Verif.BatchKd
