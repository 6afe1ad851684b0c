import Verif.LogTree.Model

set_option linter.unusedSectionVars false
set_option linter.unusedVariables false

/-!
Model of the dual-tree search over the log-structured tree (`include/batchKdtree/log-tree/logtree.h:1033-1212`, default mode
`DKNN_NONATOMIC_LEAF` of `include/batchKdtree/shared/macro.h:54-56`): the trees are searched one after the other, all with
the same candidate buffers and the same query tree.
-/

namespace Verif.LogTree

open Verif BatchKd

variable {α K : Type} {d : ℕ}

section
variable [Field K] [LinearOrder K] (pos : α → Point K d)
variable (nth : ℕ → List (K × α) → List (K × α)) (dist : Point K d → Point K d → K)

/-- `include/batchKdtree/shared/kdnode.h:125-128`: the loop over the items `i, ..., i + n - 1` of a leaf. -/
def radLoop : ℕ → ℕ → Option K → List (BBuf α K) → Except Err (Option K × List (BBuf α K))
  | 0, _, rad, bufs => .ok (rad, bufs)
  | n + 1, i, rad, bufs =>
    match bufs[i]? with
    | none => .error .ub
    | some b => (b.keepK nth).bind fun r => radLoop n (i + 1) (omax rad (some r.2.1)) (bufs.set i r.1)

/-- `include/batchKdtree/shared/kdnode.h:124-128`, 149-162: a leaf. Without `k` candidates for its first query the radius
stays zero, because a leaf has no children. -/
def updateLeaf (s e : ℕ) (bufs : List (BBuf α K)) : Except Err (Option K × List (BBuf α K)) :=
  match bufs[s]? with
  | none => .error .ub
  | some b => if b.hasK then radLoop nth (e - s) s (some 0) bufs else .ok (some 0, bufs)

/-- `include/batchKdtree/shared/kdnode.h:111-168` (`updateDualDist`). The two children of a `par_do` write to disjoint subtrees
and buffers; they are run one after the other here. -/
def updateDual : QT K d → List (BBuf α K) → Except Err (QT K d × List (BBuf α K))
  | .nil, _ => .error .ub
  | .leaf s e b _, bufs => (updateLeaf nth s e bufs).map fun r => (.leaf s e b r.1, r.2)
  | .node s e b _ .nil .nil, bufs => (updateLeaf nth s e bufs).map fun r => (.node s e b r.1 .nil .nil, r.2)
  | .node s e b _ l .nil, bufs =>
    (updateDual l bufs).map fun x => (.node s e b (omax (some 0) x.1.dd) x.1 .nil, x.2)
  | .node s e b _ .nil r, bufs =>
    (updateDual r bufs).map fun y => (.node s e b (omax (some 0) y.1.dd) .nil y.1, y.2)
  | .node s e b _ l r, bufs =>
    (updateDual l bufs).bind fun x => (updateDual r x.2).map fun y =>
      (.node s e b (omax (omax (some 0) x.1.dd) y.1.dd) x.1 y.1, y.2)

/-- `include/batchKdtree/shared/kdtree.h:330-358` (`knn` into buffers): query `i` works on buffer `i`. -/
def knnInBufs {β : Type} (qp : β → Point K d) (t : Tree α K d) : List β → List (BBuf α K) → Except Err (List (BBuf α K))
  | q :: qs, b :: bs =>
    (knnInto nth dist pos false false t (qp q) b).bind fun b' => (knnInBufs qp t qs bs).map fun bs' => b' :: bs'
  | [], bs => .ok bs
  | _ :: _, [] => .error .ub

/-- `logtree.h:799-810` (`gatherFullTrees`): the trees to search; the flag marks the buffer. -/
def taggedTrees (P : Params α K d) (s : LT α K d) : List (Bool × Tree α K d) :=
  (if s.buf.curSize = 0 then [] else [(true, s.buf)]) ++
    ((List.range P.numTrees).filter fun i => s.mask.testBit i).map fun i => (false, s.trees i)

/-- `logtree.h:1072-1145` (`run_on_tree`): the buffer is searched query by query, then the distances in the query tree are
brought up to date; a static tree is searched by the dual-tree search. -/
def dualStep {β : Type} (boxDist : Box K d → Box K d → K) (qp : β → Point K d) (Q : Tree β K d) (t : Bool × Tree α K d)
    (st : QT K d × List (BBuf α K)) : Except Err (QT K d × List (BBuf α K)) :=
  if t.1 then (knnInBufs pos nth dist qp t.2 (Q.items.take Q.curSize) st.2).bind fun bufs => updateDual nth st.1 bufs
  else dualHelper nth dist pos boxDist (fun i => (Q.items[i]?).map qp) t.2.items t.2.present
    (Q.root.height + t.2.root.height + 1) st.1 t.2.root st.2

/-- `logtree.h:1159-1160`: the trees one after the other. -/
def dualTrees {β : Type} (boxDist : Box K d → Box K d → K) (qp : β → Point K d) (Q : Tree β K d) :
    List (Bool × Tree α K d) → QT K d × List (BBuf α K) → Except Err (QT K d × List (BBuf α K))
  | [], st => .ok st
  | t :: ts, st => (dualStep pos nth dist boxDist qp Q t st).bind (dualTrees boxDist qp Q ts)

/-- `logtree.h:1033-1212` (`dualKnnBase`): the rows, in the order of the items of the query tree. The first `k` places of a
buffer are read without a last `keepK`; a place without an element holds no pointer (`knnRow`). -/
def dualKnn {β : Type} (boxDist : Box K d → Box K d → K) (qp : β → Point K d) (P : Params α K d) (Q : Tree β K d)
    (s : LT α K d) (k : ℕ) : Except Err (List (List α)) :=
  (dualTrees pos nth dist boxDist qp Q (taggedTrees P s)
    (QT.ofBT Q.root, List.replicate Q.curSize (BBuf.new k))).bind fun r => r.2.mapM fun b => knnRow k b.elems

end

end Verif.LogTree
