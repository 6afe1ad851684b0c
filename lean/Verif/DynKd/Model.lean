import Verif.Outcome
import Verif.BatchKd.TreeModel

set_option linter.unusedSectionVars false
set_option linter.unusedVariables false

/-!
Model of the dynamic kd-tree, `include/dynamicKdTree/dynKdTree.h`.

Points are items `α` with a position. Index ranges `[s, e)` of the input container are lists. `std::partition`, `split_two`
(22-55), `std::nth_element` and `parlay::sort_inplace` are given by their contracts (`PartItems`, `NthItems` of the batch
kd-tree model): the serial and the parallel variants (2000 elements) meet the same contract. The two children are visited one
after the other; `par_do` works on disjoint subtrees and ranges except for the sibling pointers, which have a model of their
own (`SiblinModel`). The sibling of a node is the other child of its parent.
-/

namespace Verif.DynKd

open Verif BatchKd

variable {α K : Type} {d : ℕ}

/-- `dynKdTree.h:353-364, 533-549` (`dataNode`, `internalNode`): a leaf has points with presence flags, a box and the counter
`n`; an internal node has split dimension and value, box, counter and two children. Sibling pointers are left out. -/
inductive Node (α K : Type) (d : ℕ) where
  | data (items : List (α × Bool)) (box : Box K d) (n : ℤ)
  | node (dim : Fin d) (split : K) (box : Box K d) (n : ℤ) (left right : Node α K d)

namespace Node

/-- `dynKdTree.h:301` (`getBox`). -/
def box : Node α K d → Box K d
  | .data _ b _ => b
  | .node _ _ b _ _ _ => b

/-- `dynKdTree.h:368, 553` (`size`). -/
def size : Node α K d → ℤ
  | .data _ _ n => n
  | .node _ _ _ n _ _ => n

/-- `dynKdTree.h:473-483, 783-789, 869-875` (`iterate`): the points whose flag is set, from left to right. -/
def live : Node α K d → List α
  | .data items _ _ => (items.filter fun x => x.2).map fun x => x.1
  | .node _ _ _ _ l r => l.live ++ r.live

end Node

/-- The dimension after `i`, `(splitDim + 1) % dim` (`dynKdTree.h:600, 632, 644`). -/
def next (i : Fin d) : Fin d := ⟨(i + 1) % d, Nat.mod_lt _ (lt_of_le_of_lt (Nat.zero_le _) i.2)⟩

section
variable [Field K] [LinearOrder K]

/-- `dynKdTree.h:155-162` (`boundingBox::update`). -/
def update (b : Box K d) (p : Point K d) : Box K d := ⟨fun i => min (p i) (b.lo i), fun i => max (p i) (b.hi i)⟩

/-- `dynKdTree.h:132-153` (`boundingBox` of a range). An empty range leaves the box unset (zero here); it does not occur. -/
def boxOf (pos : α → Point K d) : List α → Box K d
  | [] => ⟨fun _ => 0, fun _ => 0⟩
  | x :: L => (x :: L).foldl (fun b y => update b (pos y)) ⟨pos x, pos x⟩

/-- `dynKdTree.h:164-173` (`contains`). -/
def boxContains (b : Box K d) (p : Point K d) : Bool := decide (∀ i, ¬ p i < b.lo i ∧ ¬ b.hi i < p i)

/-- `dynKdTree.h:376-397` (`dataNode` from a range). -/
def leaf (pos : α → Point K d) (L : List α) : Node α K d :=
  .data (L.map fun x => (x, true)) (boxOf pos L) L.length

/-- `dynKdTree.h:560-652` (constructor of `internalNode`), with `thr` for `threshold` (295, 16 in the code) and `dim` for
`_splitDim`. First the middle of the box is the split value; if one side is empty, the middle element of the next dimension.
`fuel` bounds the depth. -/
def build (pos : α → Point K d) (thr : ℕ) (part : Fin d → K → List α → List α) (nth : Fin d → ℕ → List α → List α) :
    ℕ → Fin d → List α → Except Err (Node α K d)
  | 0, _, _ => .error .fuel
  | fuel + 1, dim, L =>
    if L.length < 2 then .error .throws
    else
      let box := boxOf pos L
      let mid := (box.hi dim + box.lo dim) / 2
      let P := part dim mid L
      let m := L.countP fun x => decide (pos x dim < mid)
      let child (nd : Fin d) (C : List α) : Except Err (Node α K d) :=
        if C.length < thr then .ok (leaf pos C) else build pos thr part nth fuel nd C
      if m = 0 ∨ m = L.length then
        let nd := next dim
        let h := L.length / 2
        let Q := nth nd h P
        match Q[h]? with
        | none => .error .ub
        | some c =>
          (child (next nd) (Q.take h)).bind fun l =>
            (child (next nd) (Q.drop h)).bind fun r => .ok (.node nd (pos c nd) box L.length l r)
      else
        (child (next dim) (P.take m)).bind fun l =>
          (child (next dim) (P.drop m)).bind fun r => .ok (.node dim mid box L.length l r)

/-- `dynKdTree.h:399-436` (`dataNode::insert`) and `654-724` (`internalNode::insert`). A leaf that gets too large is replaced
by an internal node on the new and the present points. They are copied to a container of `e - s + size()` elements: more
points than that are undefined behaviour (fewer would leave default points behind; the counter is never too large). `d0` is
dimension 0. -/
def insert (pos : α → Point K d) (thr : ℕ) (part : Fin d → K → List α → List α) (nth : Fin d → ℕ → List α → List α)
    (d0 : Fin d) : Node α K d → List α → Except Err (Node α K d)
  | .data items box n, L =>
    if (thr : ℤ) ≤ L.length + n then
      let old := (Node.data items box n).live
      if (old.length : ℤ) = n then build pos thr part nth (L ++ old).length d0 (L ++ old) else .error .ub
    else .ok (.data (items ++ L.map fun x => (x, true)) (L.foldl (fun b x => update b (pos x)) box) (n + L.length))
  | .node dim split box n l r, L =>
    let box' := L.foldl (fun b x => update b (pos x)) box
    let P := part dim split L
    let m := L.countP fun x => decide (pos x dim < split)
    (insert pos thr part nth d0 l (P.take m)).bind fun l' =>
      (insert pos thr part nth d0 r (P.drop m)).bind fun r' => .ok (.node dim split box' (n + L.length) l' r')

/-- `dynKdTree.h:438-471` (`dataNode::erase`) and `726-774` (`internalNode::erase`): the new node and the number returned. In a
leaf every pair of a listed and a stored point with equal coordinates counts, also if the flag is already cleared. -/
def erase (pos : α → Point K d) (part : Fin d → K → List α → List α) : Node α K d → List α → Node α K d × ℤ
  | .data items box n, L =>
    if L.length = 0 then (.data items box n, 0)
    else
      let erased : ℤ := ((L.map fun y => items.countP fun x => decide (pos x.1 = pos y)).sum : ℕ)
      (.data (items.map fun x => (x.1, x.2 && !(L.any fun y => decide (pos x.1 = pos y)))) box (n - erased), erased)
  | .node dim split box n l r, L =>
    if L.length = 0 then (.node dim split box n l r, 0)
    else
      let P := part dim split L
      let m := L.countP fun x => decide (pos x dim < split)
      let a := erase pos part l (P.take m)
      let b := erase pos part r (P.drop m)
      (.node dim split box (n - (a.2 + b.2)) a.1 b.1, a.2 + b.2)

/-- `dynKdTree.h:518-528, 836-851` (`check`), without the comparison of the sibling pointers. Of the children's boxes only the
left one is looked at. -/
def check (pos : α → Point K d) : Node α K d → Bool
  | .data items box _ => items.all fun x => boxContains box (pos x.1)
  | .node _ _ box _ l r => boxContains box l.box.lo && boxContains box l.box.hi && check pos l && check pos r

/-! ### Nearest neighbours -/

/-- Contract of `std::priority_queue` of pairs (`dynKdTree.h:201-228`): `pop` gives an element of largest first component and
the rest. Ties are broken by `operator<` of the points in the code, in any way here. -/
def IsQueue (pop : List (K × α) → Option ((K × α) × List (K × α))) : Prop :=
  pop [] = none ∧ ∀ L, L ≠ [] → ∃ m r, pop L = some (m, r) ∧ (m :: r).Perm L ∧ ∀ x ∈ r, x.1 ≤ m.1

/-- `dynKdTree.h:213-219` (`insertK`). -/
def insertK (pop : List (K × α) → Option ((K × α) × List (K × α))) (k : ℕ) (b : List (K × α)) (e : K × α) :
    List (K × α) :=
  let b' := e :: b
  if k < b'.length then
    match pop b' with
    | some (_, r) => r
    | none => b'
  else b'

/-- `buffer.insertK({query.dist(x), x})` for every point of a list (`dynKdTree.h:488, 496, 801`). -/
def insertAll (pos : α → Point K d) (dist : Point K d → Point K d → K)
    (pop : List (K × α) → Option ((K × α) × List (K × α))) (k : ℕ) (q : Point K d) (b : List (K × α)) (L : List α) :
    List (K × α) :=
  L.foldl (fun b x => insertK pop k b (dist q (pos x), x)) b

/-- `dynKdTree.h:502-516, 818-827`: insert the points at distance at most `radius`. -/
def insertNear (pos : α → Point K d) (dist : Point K d → Point K d → K)
    (pop : List (K × α) → Option ((K × α) × List (K × α))) (k : ℕ) (q : Point K d) (radius : K) (b : List (K × α))
    (L : List α) : List (K × α) :=
  L.foldl (fun b x => if dist q (pos x) ≤ radius then insertK pop k b (dist q (pos x), x) else b) b

/-- `dynKdTree.h:113` (`relation`). -/
inductive Rel where
  | exclude
  | include
  | overlap
deriving DecidableEq

/-- `dynKdTree.h:179-198` (`compare`): `a` is this box, `b` the argument. -/
def compare (a b : Box K d) : Rel :=
  if ∃ i, a.hi i < b.lo i ∨ b.hi i < a.lo i then .exclude
  else if ¬ ∃ i, a.hi i < b.hi i ∨ b.lo i < a.lo i then .include
  else .overlap

/-- `dynKdTree.h:502-516, 809-832` (`kNNRangeHelper`). -/
def rangeHelper (pos : α → Point K d) (dist : Point K d → Point K d → K)
    (pop : List (K × α) → Option ((K × α) × List (K × α))) (k : ℕ) (q : Point K d) (radius : K) (bb : Box K d) :
    Node α K d → List (K × α) → List (K × α)
  | .data items box n, b => insertNear pos dist pop k q radius b (Node.data items box n).live
  | .node dim split box n l r, b =>
    match compare bb box with
    | .include => insertNear pos dist pop k q radius b (Node.node dim split box n l r).live
    | .overlap => rangeHelper pos dist pop k q radius bb r (rangeHelper pos dist pop k q radius bb l b)
    | .exclude => b

/-- `dynKdTree.h:330-345` (`kNNRange`). -/
def range (pos : α → Point K d) (dist : Point K d → Point K d → K)
    (pop : List (K × α) → Option ((K × α) × List (K × α))) (k : ℕ) (q : Point K d) (radius : K) (t : Node α K d)
    (b : List (K × α)) : List (K × α) :=
  rangeHelper pos dist pop k q radius ⟨fun i => q i - radius, fun i => q i + radius⟩ t b

/-- `dynKdTree.h:490-498, 797-805`: the visit of the sibling at the end of `kNNHelper`. `getK` on an empty buffer (`k = 0`) is
undefined. -/
def visitSiblin (pos : α → Point K d) (dist : Point K d → Point K d → K)
    (pop : List (K × α) → Option ((K × α) × List (K × α))) (k : ℕ) (q : Point K d) (siblin : Node α K d)
    (b : List (K × α)) : Except Err (List (K × α)) :=
  if k ≤ b.length then
    match pop b with
    | none => .error .ub
    | some (m, _) => .ok (range pos dist pop k q m.1 siblin b)
  else .ok (insertAll pos dist pop k q b siblin.live)

/-- `dynKdTree.h:485-500, 791-807` (`kNNHelper`), with the sibling as argument. -/
def helper (pos : α → Point K d) (dist : Point K d → Point K d → K)
    (pop : List (K × α) → Option ((K × α) × List (K × α))) (k : ℕ) (q : Point K d) :
    Node α K d → Node α K d → List (K × α) → Except Err (List (K × α))
  | .data items box n, siblin, b =>
    visitSiblin pos dist pop k q siblin (insertAll pos dist pop k q b (Node.data items box n).live)
  | .node dim split _ _ l r, siblin, b =>
    (if q dim < split then helper pos dist pop k q l r b else helper pos dist pop k q r l b).bind
      (visitSiblin pos dist pop k q siblin)

/-- `dynKdTree.h:904-913`: pop all elements, the last one popped comes first. `fuel` is the number of elements. -/
def drain (pop : List (K × α) → Option ((K × α) × List (K × α))) : ℕ → List (K × α) → List (K × α)
  | 0, _ => []
  | fuel + 1, b =>
    match pop b with
    | none => []
    | some (m, r) => drain pop fuel r ++ [m]

/-- `dynKdTree.h:857-917` (`rootNode`): `kNNHelper` (877-886) without a sibling, and `kNN` (890-915). The root is an internal
node. -/
def kNN (pos : α → Point K d) (dist : Point K d → Point K d → K)
    (pop : List (K × α) → Option ((K × α) × List (K × α))) (t : Node α K d) (q : Point K d) (k : ℕ) :
    Except Err (List α) :=
  match t with
  | .data _ _ _ => .error .ub
  | .node dim split _ _ l r =>
    (if q dim < split then helper pos dist pop k q l r [] else helper pos dist pop k q r l []).map fun b =>
      (drain pop b.length b).map fun e => e.2

end

end Verif.DynKd
