import Verif.KdTree.Model

/-!
Model of the range searches in `include/kdTree/rangeSearchImpl.h` and of the box comparison in
`include/kdTree/kdTree.h`.

The distance is a parameter `dist`; the theorems assume only that it is symmetric and at least as
large as every coordinate difference, and are instantiated with the Euclidean distance.
-/

namespace Verif.KdTree

variable {α K : Type} {d : ℕ}

/-- `include/kdTree/kdTree.h:312-316`: the three relations. -/
inductive Rel where
  | incl
  | overlap
  | excl
deriving DecidableEq

section
variable [Field K] [LinearOrder K]

/-- `include/kdTree/kdTree.h:343-360` (`boxCompare`): the flags set by the loop are written as
quantifiers over the dimensions. -/
def boxCompare (b1 b2 : Box K d) : Rel :=
  if ∃ i, b1.hi i < b2.lo i ∨ b1.lo i > b2.hi i then .excl
  else if ∀ i, ¬ (b1.hi i < b2.hi i ∨ b1.lo i > b2.lo i) then .incl
  else .overlap

/-- `include/kdTree/rangeSearchImpl.h:79-85`, `169-175` and `knnImpl.h:146-152`: the query box with
`tmp = q[i] - r`, `qMin = tmp`, `qMax = tmp + r * 2`. -/
def queryBox (q : Point K d) (r : K) : Box K d :=
  ⟨fun i => q i - r, fun i => q i - r + r * 2⟩

/-- `include/kdTree/rangeSearchImpl.h:33-70` (`rangeHelper`): the items passed to `func`, in
order. -/
def rangeHelper (dist : Point K d → Point K d → K) (pos : α → Point K d) (q : Point K d)
    (qb : Box K d) (radius : K) : Tree α K d → List α
  | .leaf b items =>
    match boxCompare qb b with
    | .excl => []
    | .incl => items.filter fun p => dist (pos p) q ≤ radius
    | .overlap => items.filter fun p => dist q (pos p) ≤ radius
  | .node b l r =>
    match boxCompare qb b with
    | .excl => []
    | .incl => (l.items ++ r.items).filter fun p => dist (pos p) q ≤ radius
    | .overlap => rangeHelper dist pos q qb radius l ++ rangeHelper dist pos q qb radius r

/-- `include/kdTree/rangeSearchImpl.h:73-101` (`rangeTraverse`, `rangeSearch`). -/
def rangeSearch (dist : Point K d → Point K d → K) (pos : α → Point K d) (t : Tree α K d)
    (q : Point K d) (radius : K) : List α :=
  rangeHelper dist pos q (queryBox q radius) radius t

/-- `include/kdTree/rangeSearchImpl.h:119-161` (`orthRangeHelper`). -/
def orthRangeHelper (pos : α → Point K d) (qb : Box K d) : Tree α K d → List α
  | .leaf b items =>
    match boxCompare qb b with
    | .excl => []
    | .incl => items
    | .overlap => items.filter fun p => ∀ i, ¬ (pos p i > qb.hi i ∨ pos p i < qb.lo i)
  | .node b l r =>
    match boxCompare qb b with
    | .excl => []
    | .incl => l.items ++ r.items
    | .overlap => orthRangeHelper pos qb l ++ orthRangeHelper pos qb r

/-- `include/kdTree/rangeSearchImpl.h:163-189` (`orthogonalRangeTraverse`,
`orthogonalRangeSearch`). -/
def orthogonalRangeSearch (pos : α → Point K d) (t : Tree α K d) (q : Point K d) (halfLen : K) :
    List α :=
  orthRangeHelper pos (queryBox q halfLen) t

/-- `include/kdTree/rangeSearchImpl.h:103-117` (`bruteforceRange`): returns indices; each iteration
writes only its own flag. -/
def bruteforceRange (dist : Point K d → Point K d → K) (elems : List (Point K d)) (q : Point K d)
    (radius : K) : List ℕ :=
  let n := elems.length
  let flag := (List.range n).map fun i =>
    match elems[i]? with
    | some p => if dist p q ≤ radius then i else n
    | none => n
  flag.filter (· < n)

end

end Verif.KdTree
