import Verif.Geom
import Verif.Outcome
import Verif.Par.SplitModel

/-!
Model of the kd-tree construction in `include/kdTree/kdTree.h` and `include/kdTree/treeImpl.h`.

Items are elements of an arbitrary type `α` with a position function; this models the `_objT*`
pointers of the code. The in-place permuted slice of a node is modelled by the list of its items
after construction.
-/

namespace Verif.KdTree

variable {α K : Type} {d : ℕ}

/-- `include/kdTree/kdTree.h:186-211` (`class node`): box, items and children. The item slice of an
internal node is the concatenation of the slices of its children (`treeImpl.h:187-188`), so only
leaves store it. `id` and `sib` are modelled where they are used. -/
inductive Tree (α K : Type) (d : ℕ) where
  | leaf (box : Box K d) (items : List α)
  | node (box : Box K d) (left right : Tree α K d)

namespace Tree

/-- `include/kdTree/kdTree.h:203` (`pMin`, `pMax`). -/
def box : Tree α K d → Box K d
  | leaf b _ => b
  | node b _ _ => b

/-- `include/kdTree/kdTree.h:211` (`items`), after construction. -/
def items : Tree α K d → List α
  | leaf _ l => l
  | node _ l r => l.items ++ r.items

/-- `include/kdTree/kdTree.h:270` (`size`). -/
def size (t : Tree α K d) : ℕ := t.items.length

end Tree

section
variable [Field K] [LinearOrder K]

/-- `include/kdTree/kdTree.h:213-223` (`minCoords`, `maxCoords`) applied to both corners. -/
def Box.extend (b : Box K d) (p : Point K d) : Box K d :=
  ⟨fun i => min (b.lo i) (p i), fun i => max (b.hi i) (p i)⟩

/-- `include/kdTree/treeImpl.h:81-90` (`boundingBoxSerial`). Reading `items[0]` of an empty slice is
undefined. -/
def boxSerial (pos : α → Point K d) : List α → Except Err (Box K d)
  | [] => .error .ub
  | a :: l => .ok ((a :: l).foldl (fun b x => Box.extend b (pos x)) ⟨pos a, pos a⟩)

/-- `include/kdTree/treeImpl.h:93-122` (`boundingBoxParallel`) with `w` workers: `P = 8w` blocks,
each folded from `items[0]`, then all block boxes folded. The blocks write to different entries of
`localMin`/`localMax`, so their order does not matter. -/
def boxParallel (w : ℕ) (pos : α → Point K d) : List α → Except Err (Box K d)
  | [] => .error .ub
  | a :: l =>
    let items := a :: l
    let P := w * 8
    let blockSize := (items.length + P - 1) / P
    let locals := (List.range P).map fun p =>
      let s := p * blockSize
      let e := min ((p + 1) * blockSize) items.length
      ((items.drop s).take (e - s)).foldl (fun b x => Box.extend b (pos x)) ⟨pos a, pos a⟩
    .ok (locals.foldl (fun b x => ⟨fun i => min (b.lo i) (x.lo i), fun i => max (b.hi i) (x.hi i)⟩)
      ⟨pos a, pos a⟩)

/-- `include/kdTree/kdTree.h:241-253` (`findWidest`): the first dimension of largest extent; the
member `k` is uninitialised when the loop body never runs. -/
def findWidest (b : Box K d) : Except Err (Fin d) :=
  match ((List.finRange d).foldl (fun (s : K × Option (Fin d)) kk =>
      if b.hi kk - b.lo kk > s.1 then (b.hi kk - b.lo kk, some kk) else s) (-1, none)).2 with
  | some k => .ok k
  | none => .error .ub

/-- `include/kdTree/treeImpl.h:138-141`: the inner loop of `splitItemSerial` moving `rPt` down. -/
def scanRight (ge : α → Bool) (a : List α) (l : ℕ) : ℕ → Except Err ℕ
  | 0 => match a[0]? with
    | none => .error .ub
    | some _ => .ok 0
  | r + 1 => match a[r + 1]? with
    | none => .error .ub
    | some x => if ge x ∧ l < r + 1 then scanRight ge a l r else .ok (r + 1)

/-- `include/kdTree/treeImpl.h:134-153`: the outer loop of `splitItemSerial`. Returns the permuted
items and `lPt`. -/
def splitLoop (ge : α → Bool) : ℕ → List α → ℕ → ℕ → Except Err (List α × ℕ)
  | 0, _, _, _ => .error .fuel
  | fuel + 1, a, l, r =>
    if l < r then
      match a[l]? with
      | none => .error .ub
      | some x =>
        if ge x then
          match scanRight ge a l r with
          | .error e => .error e
          | .ok r' =>
            if l < r' then
              match a[r']? with
              | none => .error .ub
              | some y => splitLoop ge fuel ((a.set l y).set r' x) (l + 1) (r' - 1)
            else .ok (a, l)
        else splitLoop ge fuel a (l + 1) r
    else .ok (a, l)

/-- `include/kdTree/treeImpl.h:126-157` (`splitItemSerial`): two-pointer partition by
`at(k) < xM`. Returns the permuted items and the number of items on the left side. -/
def splitItemSerial (key : α → K) (xM : K) (items : List α) : Except Err (List α × ℕ) :=
  if items.length < 2 then .error .throws
  else
    match splitLoop (fun x => decide (key x ≥ xM)) (items.length + 1) items 0 (items.length - 1) with
    | .error e => .error e
    | .ok (a, l) =>
      match a[l]? with
      | none => .error .ub
      | some x => .ok (a, if key x < xM then l + 1 else l)

/-- `include/kdTree/treeImpl.h:213-225`: the flags and `split_two`, then the copy back. Flag 1 is
`at(k) < xM`, and `split_two` moves the elements with flag 0 to the front. The parallel writes are
run in the order listed by the model of `split_two`; `Par.c11_split_two` shows that the order does
not matter. A position of `Out` that was never written would be an uninitialised read. -/
def splitParallel (bs : ℕ) (key : α → K) (xM : K) (items : List α) : Except Err (List α × ℕ) :=
  let res := Par.splitTwo bs items (items.map fun x => decide (key x < xM))
  match Par.runWrites items.length res.1 with
  | none => .error .ub
  | some out =>
    match out.mapM id with
    | none => .error .ub
    | some l => .ok (l, res.2)

/-- `include/kdTree/treeImpl.h:162, 199`: the box computation of a node. -/
def nodeBox (w : ℕ) (pos : α → Point K d) (usePar : Bool) (items : List α) : Except Err (Box K d) :=
  if usePar then boxParallel w pos items else boxSerial pos items

/-- `include/kdTree/treeImpl.h:175, 213-225`: the split of a node. -/
def nodeSplit (bs : ℕ) (key : α → K) (xM : K) (usePar : Bool) (items : List α) :
    Except Err (List α × ℕ) :=
  if usePar then splitParallel bs key xM items else splitItemSerial key xM items

/-- `include/kdTree/treeImpl.h:177-180, 227-230`: the fallback split position.
`ceil(size/2.0)` and `(intT)(size/2.0)` are written with integer division. -/
def nodeMedian (usePar : Bool) (n m : ℕ) : ℕ :=
  if m = 0 ∨ m = n then (if usePar then n / 2 else (n + 1) / 2) else m

/-- `include/kdTree/treeImpl.h:160-273` (`constructSerial`, `constructParallel` and the two node
constructors). `par` says that the constructor with flags is used; it runs the parallel version
iff the node has more than 2000 items. `w` is the number of workers, `bs` the block size of
`split_two`. -/
def construct (w bs : ℕ) (pos : α → Point K d) (leafSize : ℕ) :
    ℕ → Bool → List α → Except Err (Tree α K d)
  | 0, _, _ => .error .fuel
  | fuel + 1, par, items => do
    let usePar : Bool := par && decide (items.length > 2000)
    let box ← nodeBox w pos usePar items
    if items.length ≤ leafSize then
      return .leaf box items
    else
      let k ← findWidest box
      let xM := (box.hi k + box.lo k) / 2
      let sp ← nodeSplit bs (fun x => pos x k) xM usePar items
      let median := nodeMedian usePar items.length sp.2
      let l ← construct w bs pos leafSize fuel usePar (sp.1.take median)
      let r ← construct w bs pos leafSize fuel usePar (sp.1.drop median)
      return .node box l r

/-- `include/kdTree/treeImpl.h:312-338` (`build`) and `include/kdTree/kdTree.h:127-177` (`tree`
constructors). -/
def build (w bs : ℕ) (pos : α → Point K d) (leafSize : ℕ) (parallel : Bool) (items : List α) :
    Except Err (Tree α K d) :=
  construct w bs pos leafSize (items.length + 1) parallel items

end

/-- `include/kdTree/treeImpl.h:187-188, 238-240`: the slots of the node array used below a node
whose `space` pointer is `base`: the left child is written at `space[0]` with space `space + 1`, the
right child at `space[2*median-1]` with space `space + 2*median`, `median` being the size of the
left child. -/
def slots (base : ℕ) : Tree α K d → List ℕ
  | .leaf _ _ => []
  | .node _ l r =>
    let median := l.size
    base :: (base + (2 * median - 1)) :: (slots (base + 1) l ++ slots (base + 2 * median) r)

end Verif.KdTree
