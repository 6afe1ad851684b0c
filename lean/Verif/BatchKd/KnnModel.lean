import Verif.BatchKd.TreeModel

set_option linter.unusedSectionVars false
set_option linter.unusedVariables false

/-!
Model of the `k` nearest neighbour searches of the batch kd-tree: the buffer
(`include/batchKdtree/shared/knnbuffer.h`), the single-tree search (`include/batchKdtree/shared/kdnode.h`,
default build with `FEWER_SQRT == 0`) and the dual-tree search (`include/batchKdtree/shared/dual.h`, default
mode `DKNN_NONATOMIC_LEAF`). `numeric_limits<double>::max()` is `none`.
-/

namespace Verif.BatchKd

variable {α K : Type} {d : ℕ}

/-- `include/batchKdtree/shared/knnbuffer.h:48-56` (`buffer`): `elems` are the first `ptr` elements of the
slice of size `2k`; the elements after them are never read again. -/
structure BBuf (α K : Type) where
  k : ℕ
  elems : List (K × α)
  cached : Bool
deriving DecidableEq

namespace BBuf

/-- `include/batchKdtree/shared/knnbuffer.h:57`: constructor. -/
def new (k : ℕ) : BBuf α K := ⟨k, [], true⟩

/-- `include/batchKdtree/shared/knnbuffer.h:61` (`hasK`). -/
def hasK (b : BBuf α K) : Bool := decide (b.k ≤ b.elems.length)

/-- `include/batchKdtree/shared/knnbuffer.h:63-71` (`keepK`); `nth m l` is `std::nth_element` at position `m`.
With `k = 0` the slice is read before its start. -/
def keepK (nth : ℕ → List (K × α) → List (K × α)) (b : BBuf α K) : Except Err (BBuf α K × (K × α)) :=
  if b.elems.length < b.k then .error .throws
  else
    let b' : BBuf α K := if b.cached then b else ⟨b.k, (nth (b.k - 1) b.elems).take b.k, true⟩
    if b.k = 0 then .error .ub
    else match b'.elems[b.k - 1]? with
      | some r => .ok (b', r)
      | none => .error .ub

/-- `include/batchKdtree/shared/knnbuffer.h:73-77` (`insert`). -/
def insert (nth : ℕ → List (K × α) → List (K × α)) (x : K × α) (b : BBuf α K) : Except Err (BBuf α K) :=
  if 2 * b.k ≤ b.elems.length then .error .ub
  else
    let b' : BBuf α K := ⟨b.k, b.elems ++ [x], false⟩
    if 2 * b.k ≤ b'.elems.length then (b'.keepK nth).map fun r => r.1 else .ok b'

end BBuf

/-- Contract of `std::nth_element` on elements compared by cost (`knnbuffer.h:41-44`). -/
def NthPairs [LinearOrder K] (nth : ℕ → List (K × α) → List (K × α)) : Prop :=
  ∀ m l, m < l.length → (nth m l).Perm l ∧
    ∀ r, (nth m l)[m]? = some r →
      (∀ x ∈ (nth m l).take m, x.1 ≤ r.1) ∧ (∀ y ∈ (nth m l).drop m, r.1 ≤ y.1)

section
variable [Field K] [LinearOrder K]
variable (nth : ℕ → List (K × α) → List (K × α))
variable (dist : Point K d → Point K d → K) (pos : α → Point K d)

/-- `x <= radius` with `none` for the largest double. Serves
`include/batchKdtree/shared/kdnode.h` lines 481-490. -/
def leRadius (x : K) : Option K → Bool
  | none => true
  | some r => decide (x ≤ r)

/-- `include/batchKdtree/shared/kdnode.h:481-490` (loop of `knnAddToBuffer`) over the present items. -/
def addItems (q : Point K d) (radius : Option K) : List α → BBuf α K → Except Err (BBuf α K)
  | [], b => .ok b
  | x :: L, b =>
    if leRadius (dist q (pos x)) radius then
      (b.insert nth (dist q (pos x), x)).bind (addItems q radius L)
    else addItems q radius L b

/-- `include/batchKdtree/shared/kdnode.h:470-491` (`knnAddToBuffer`). -/
def knnAdd (items : List α) (present : List Bool) (q : Point K d) (radius : Option K) (s e : ℕ)
    (b : BBuf α K) : Except Err (BBuf α K) :=
  addItems nth dist pos q radius (live items present s e) b

/-- The loop variables that `knnPrune` gets by reference: radius, query box (`none` while it is
uninitialised) and buffer. Serves
`include/batchKdtree/shared/kdnode.h` lines 509-511. -/
structure Scan (α K : Type) (d : ℕ) where
  radius : Option K
  box : Option (Box K d)
  buf : BBuf α K

/-- `include/batchKdtree/shared/kdnode.h:509-511`, 569-571: the box around the query. -/
def radiusBox (q : Point K d) (r : K) : Box K d := ⟨fun i => q i - r, fun i => q i + r⟩

/-- `include/batchKdtree/shared/kdnode.h:501-514` and 559-577: get the current radius, shrink the box. -/
def shrink (q : Point K d) (s : Scan α K d) : Except Err (Scan α K d) :=
  (s.buf.keepK nth).map fun r =>
    if leRadius r.2.1 s.radius && !(decide (s.radius = some r.2.1)) then
      ⟨some r.2.1, some (radiusBox q r.2.1), r.1⟩
    else ⟨s.radius, s.box, r.1⟩

/-- `include/batchKdtree/shared/kdnode.h:470-491` applied with the radius at hand. -/
def scanAdd (items : List α) (present : List Bool) (q : Point K d) (s e : ℕ) (st : Scan α K d) :
    Except Err (Scan α K d) :=
  (knnAdd nth dist pos items present q st.radius s e st.buf).map fun b => { st with buf := b }

/-- `include/batchKdtree/shared/kdnode.h:493-537` (`knnPrune`). A call through a null child, and a comparison
with an uninitialised box, are undefined. -/
def knnPrune (update : Bool) (items : List α) (present : List Bool) (q : Point K d) :
    BT K d → Scan α K d → Except Err (Scan α K d)
  | .nil, _ => .error .ub
  | .leaf _ s e _ b, st =>
    (if update then shrink nth q st else .ok st).bind fun st =>
      match st.box with
      | none => .error .ub
      | some qb =>
        match KdTree.boxCompare qb b with
        | .excl => .ok st
        | .incl => scanAdd nth dist pos items present q s e st
        | .overlap => scanAdd nth dist pos items present q s e st
  | .node _ s e _ _ b l r, st =>
    (if update then shrink nth q st else .ok st).bind fun st =>
      match st.box with
      | none => .error .ub
      | some qb =>
        match KdTree.boxCompare qb b with
        | .excl => .ok st
        | .incl => scanAdd nth dist pos items present q s e st
        | .overlap =>
          if l.isNil && r.isNil then scanAdd nth dist pos items present q s e st
          else (knnPrune update items present q l st).bind (knnPrune update items present q r)

/-- `include/batchKdtree/shared/kdnode.h:556-581`: the pruned search of the other child. -/
def knnOther (update : Bool) (items : List α) (present : List Bool) (q : Point K d) (other : BT K d)
    (b : BBuf α K) : Except Err (BBuf α K) :=
  ((if update then .ok ⟨none, none, b⟩ else shrink nth q ⟨none, none, b⟩).bind
    (knnPrune nth dist pos update items present q other)).map fun s => s.buf

/-- `include/batchKdtree/shared/kdnode.h:539-583` (`knnHelper`). -/
def knnHelper (update recurse : Bool) (items : List α) (present : List Bool) (q : Point K d) :
    BT K d → BBuf α K → Except Err (BBuf α K)
  | .nil, _ => .error .ub
  | .leaf _ s e _ _, b => knnAdd nth dist pos items present q none s e b
  | .node _ s e dim val _ l r, b =>
    if l.isNil && r.isNil then knnAdd nth dist pos items present q none s e b
    else if q dim < val then
      (if l.isNil then .ok b else knnHelper update recurse items present q l b).bind fun b =>
        if b.hasK then knnOther nth dist pos update items present q r b
        else if recurse then knnHelper update recurse items present q r b
        else if r.isNil then .error .ub
        else knnAdd nth dist pos items present q none r.start r.stop b
    else
      (if r.isNil then .ok b else knnHelper update recurse items present q r b).bind fun b =>
        if b.hasK then knnOther nth dist pos update items present q l b
        else if recurse then knnHelper update recurse items present q l b
        else if l.isNil then .error .ub
        else knnAdd nth dist pos items present q none l.start l.stop b

/-- `include/batchKdtree/shared/kdtree.h:303-309` (`knnSinglePoint` on a buffer). -/
def knnInto (update recurse : Bool) (t : Tree α K d) (q : Point K d) (b : BBuf α K) :
    Except Err (BBuf α K) :=
  ((knnHelper nth dist pos update recurse t.items t.present q t.root b).bind fun b => b.keepK nth).map
    fun r => r.1

/-- `include/batchKdtree/shared/kdtree.h:311-328` (`knnSinglePoint` with a fresh buffer, `preload` false). -/
def knnSingle (update recurse : Bool) (t : Tree α K d) (k : ℕ) (q : Point K d) : Except Err (List α) :=
  (knnInto nth dist pos update recurse t q (BBuf.new k)).map fun b => (b.elems.take k).map fun x => x.2

/-- `include/batchKdtree/shared/kdtree.h:404-414` (`knn`): the rows of the result. Every query works on its own
part of `out` and `res`, so the parallel loop is a map. -/
def knn (update recurse : Bool) (t : Tree α K d) (k : ℕ) (qs : List (Point K d)) :
    Except Err (List (List α)) :=
  qs.mapM (knnSingle nth dist pos update recurse t k)

/-! ### Dual-tree search -/

/-- `include/batchKdtree/shared/kdnode.h:49-68`: a node of the query tree, with `dualKnnDist`. -/
inductive QT (K : Type) (d : ℕ) where
  | nil
  | leaf (s e : ℕ) (box : Box K d) (dd : Option K)
  | node (s e : ℕ) (box : Box K d) (dd : Option K) (l r : QT K d)

namespace QT

/-- `include/batchKdtree/shared/kdnode.h:85-95`: a freshly built node has the largest double as
`dualKnnDist`. -/
def ofBT : BT K d → QT K d
  | .nil => .nil
  | .leaf _ s e _ b => .leaf s e b none
  | .node _ s e _ _ b l r => .node s e b none (ofBT l) (ofBT r)

/-- Null test of a pointer. Serves
`include/batchKdtree/shared/kdnode.h` lines 241-242. -/
def isNil : QT K d → Bool
  | nil => true
  | _ => false

/-- `include/batchKdtree/shared/kdnode.h:241-242`. -/
def box? : QT K d → Option (Box K d)
  | nil => none
  | leaf _ _ b _ => some b
  | node _ _ b _ _ _ => some b

/-- `include/batchKdtree/shared/kdnode.h:67` (`dualKnnDist`). -/
def dd : QT K d → Option K
  | nil => none
  | leaf _ _ _ x => x
  | node _ _ _ x _ _ => x

/-- `include/batchKdtree/shared/kdnode.h:258`. -/
def start : QT K d → ℕ
  | nil => 0
  | leaf s _ _ _ => s
  | node s _ _ _ _ _ => s

/-- `include/batchKdtree/shared/kdnode.h:259`. -/
def stop : QT K d → ℕ
  | nil => 0
  | leaf _ e _ _ => e
  | node _ e _ _ _ _ => e

/-- Height (for the recursion bound). Serves
`include/batchKdtree/shared/dual.h` lines 134-135. -/
def height : QT K d → ℕ
  | nil => 0
  | leaf _ _ _ _ => 1
  | node _ _ _ _ l r => max l.height r.height + 1

end QT

/-- Height (for the recursion bound). Serves
`include/batchKdtree/shared/dual.h` lines 134-135. -/
def BT.height : BT K d → ℕ
  | .nil => 0
  | .leaf _ _ _ _ _ => 1
  | .node _ _ _ _ _ _ l r => max l.height r.height + 1

/-- `std::max` of two doubles of which one may be the largest. Serves
`include/batchKdtree/shared/dual.h` lines 134-135. -/
def omax : Option K → Option K → Option K
  | some a, some b => some (max a b)
  | _, _ => none

/-- `include/batchKdtree/shared/dual.h:134-135`, 154, 204-212: distance of the boxes of two nodes. -/
def nodeDist (boxDist : Box K d → Box K d → K) (Q : QT K d) (R : BT K d) : K :=
  match Q.box?, R.box? with
  | some a, some b => boxDist a b
  | _, _ => 0

/-- `include/batchKdtree/shared/dual.h:156`: the comparison with `dualKnnDist`. -/
def prunes (x : K) : Option K → Bool
  | none => false
  | some r => decide (r < x)

/-- `include/batchKdtree/shared/dual.h:176`, 182: the radius of a query (`none` if it has no `k` candidates
yet), with the buffer after the call. -/
def qRadius (b : BBuf α K) : Except Err (BBuf α K × Option K) :=
  if b.hasK then (b.keepK nth).map fun r => (r.1, some r.2.1) else .ok (b, none)

/-- `include/batchKdtree/shared/dual.h:175-183`: one query against a leaf. -/
def dualOne (items : List α) (present : List Bool) (s e : ℕ) (q : Point K d) (b : BBuf α K) :
    Except Err (BBuf α K × Option K) :=
  (qRadius nth b).bind fun r =>
    (knnAdd nth dist pos items present q r.2 s e r.1).bind fun b => qRadius nth b

/-- `include/batchKdtree/shared/dual.h:171-184`: the queries `i, ..., i + n - 1` against a leaf. -/
def dualLeaf (qpos : ℕ → Option (Point K d)) (items : List α) (present : List Bool) (s e : ℕ) :
    ℕ → ℕ → Option K → List (BBuf α K) → Except Err (Option K × List (BBuf α K))
  | 0, _, rad, bufs => .ok (rad, bufs)
  | n + 1, i, rad, bufs =>
    match qpos i, bufs[i]? with
    | some q, some b =>
      (dualOne nth dist pos items present s e q b).bind fun r =>
        dualLeaf qpos items present s e n (i + 1) (omax rad r.2) (bufs.set i r.1)
    | _, _ => .error .ub

/-- `Q->update_dual_knn_dist` (`include/batchKdtree/shared/dual.h:189`, 201, 231). -/
def QT.setDd (x : Option K) : QT K d → QT K d
  | .nil => .nil
  | .leaf s e b _ => .leaf s e b x
  | .node s e b _ l r => .node s e b x l r

/-- `include/batchKdtree/shared/dual.h:83-234` (`DualKnnHelper`): the new query node and the buffers. The two
recursive calls of a `par_do` write to disjoint subtrees of `Q` and to disjoint buffers; they are run one
after the other here. A null node is undefined. -/
def dualHelper (boxDist : Box K d → Box K d → K) (qpos : ℕ → Option (Point K d)) (items : List α)
    (present : List Bool) :
    ℕ → QT K d → BT K d → List (BBuf α K) → Except Err (QT K d × List (BBuf α K))
  | 0, _, _, _ => .error .fuel
  | fuel + 1, Q, R, bufs =>
    let rec' := dualHelper boxDist qpos items present fuel
    match Q, R with
    | .nil, _ => .error .ub
    | _, .nil => .error .ub
    | .leaf qs qe qb dd, .leaf _ rs re _ rb =>
      if prunes (boxDist qb rb) dd then .ok (Q, bufs)
      else (dualLeaf nth dist pos qpos items present rs re (qe - qs) qs (some 0) bufs).map fun r =>
        (.leaf qs qe qb r.1, r.2)
    | .leaf qs qe qb dd, .node _ rs re _ _ rb rl rr =>
      if !rl.isNil && rr.isNil then rec' Q rl bufs
      else if rl.isNil && !rr.isNil then rec' Q rr bufs
      else if prunes (boxDist qb rb) dd then .ok (Q, bufs)
      else if rl.isNil && rr.isNil then
        (dualLeaf nth dist pos qpos items present rs re (qe - qs) qs (some 0) bufs).map fun r =>
          (.leaf qs qe qb r.1, r.2)
      else if nodeDist boxDist Q rl < nodeDist boxDist Q rr then
        (rec' Q rl bufs).bind fun x => rec' x.1 rr x.2
      else (rec' Q rr bufs).bind fun x => rec' x.1 rl x.2
    | .node qs qe qb dd ql qr, R =>
      if !ql.isNil && qr.isNil then
        (rec' ql R bufs).map fun x => (.node qs qe qb dd x.1 qr, x.2)
      else if ql.isNil && !qr.isNil then
        (rec' qr R bufs).map fun x => (.node qs qe qb dd ql x.1, x.2)
      else if ql.isNil && qr.isNil then .error .ub
      else
        match R with
        | .nil => .error .ub
        | .leaf _ rs re _ rb =>
          if prunes (boxDist qb rb) dd then .ok (Q, bufs)
          else if nodeDist boxDist ql R < nodeDist boxDist qr R then
            (rec' ql R bufs).bind fun x => (rec' qr R x.2).map fun y =>
              (.node qs qe qb (omax x.1.dd y.1.dd) x.1 y.1, y.2)
          else
            (rec' qr R bufs).bind fun y => (rec' ql R y.2).map fun x =>
              (.node qs qe qb (omax x.1.dd y.1.dd) x.1 y.1, x.2)
        | .node _ rs re _ _ rb rl rr =>
          if !rl.isNil && rr.isNil then rec' Q rl bufs
          else if rl.isNil && !rr.isNil then rec' Q rr bufs
          else if prunes (boxDist qb rb) dd then .ok (Q, bufs)
          else if rl.isNil && rr.isNil then .error .ub
          else
            let lr := if nodeDist boxDist ql rl < nodeDist boxDist ql rr then (rl, rr) else (rr, rl)
            let rr' := if nodeDist boxDist qr rl < nodeDist boxDist qr rr then (rl, rr) else (rr, rl)
            (rec' ql lr.1 bufs).bind fun x1 => (rec' qr rr'.1 x1.2).bind fun y1 =>
            (rec' x1.1 lr.2 y1.2).bind fun x2 => (rec' y1.1 rr'.2 x2.2).map fun y2 =>
              (.node qs qe qb (omax x2.1.dd y2.1.dd) x2.1 y2.1, y2.2)

/-- `include/batchKdtree/shared/kdtree.h:483-497`: finish the buffer of one query. -/
def dualRow (k : ℕ) (b : BBuf α K) : Except Err (List α) :=
  (b.keepK nth).map fun r => (r.1.elems.take k).map fun x => x.2

/-- `include/batchKdtree/shared/kdtree.h:456-500` (`dualKnnBase`): the rows, in the order of the items of the
query tree. -/
def dualKnnBase (boxDist : Box K d → Box K d → K) {β : Type} (qp : β → Point K d) (Q : Tree β K d)
    (t : Tree α K d) (k : ℕ) : Except Err (List (List α)) :=
  (dualHelper nth dist pos boxDist (fun i => (Q.items[i]?).map qp) t.items t.present
    (Q.root.height + t.root.height + 1) (QT.ofBT Q.root) t.root
    (List.replicate Q.curSize (BBuf.new k))).bind fun r => r.2.mapM (dualRow nth k)

end

end Verif.BatchKd
