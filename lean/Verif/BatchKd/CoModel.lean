import Verif.BatchKd.TreeModel
import Verif.BatchKd.SplitPointsModel

set_option linter.unusedSectionVars false
set_option linter.unusedVariables false

/-!
Model of the cache-oblivious kd-tree (`include/batchKdtree/cache-oblivious/cokdtree.h`, `utils.h`): the node array as a
memory with pointers, the recursive van Emde Boas build (serial and parallel), and the tree that the queries of the base
class see.

Assertions are not part of the model (release build). Machine integers are natural numbers and `std::log2` of a natural
number, rounded up, is exact. The item array is handed through the calls as the slice the call works on: every call
rearranges only its own slice.
-/

namespace Verif.BatchKd

variable {α K : Type} {d : ℕ}

/-- `include/batchKdtree/shared/kdnode.h:49-63`: a node object. `cnt` and `dim` are `none` where the code stores `-1`,
`box` is `none` until it is computed. -/
structure Cell (K : Type) (d : ℕ) where
  s : ℕ
  e : ℕ
  cnt : Option ℕ
  dim : Option (Fin d)
  val : K
  box : Option (Box K d)
  left : Option ℕ
  right : Option ℕ

/-- `include/batchKdtree/shared/kdtree.h:149`: the node array, allocated but not initialised. -/
abbrev Mem (K : Type) (d : ℕ) := ℕ → Option (Cell K d)

/-- Placement `new` on an array of `cap` nodes (e.g. `include/batchKdtree/cache-oblivious/cokdtree.h:250`, 262). -/
def writeCell (cap : ℕ) (mem : Mem K d) (a : ℕ) (c : Cell K d) : Except Err (Mem K d) :=
  if a < cap then .ok (Function.update mem a (some c)) else .error .ub

/-- `include/batchKdtree/shared/kdnode.h:189-190` (`setLeft`, `setRight`) of a node that exists. -/
def setPtr (mem : Mem K d) (a : ℕ) (isLeft : Bool) (p : ℕ) : Except Err (Mem K d) :=
  match mem a with
  | none => .error .ub
  | some c => .ok (Function.update mem a (some (if isLeft then { c with left := some p } else { c with right := some p })))

/-- `include/batchKdtree/cache-oblivious/utils.h:38-42` (`numLevels`). Without coarsening the leaf size is 1. -/
def numLevels (ls n : ℕ) : ℕ := 1 + Nat.clog 2 ((n + (ls - 1)) / ls)

/-- `include/batchKdtree/cache-oblivious/utils.h:55-58` (`hyperCeiling`, `bottomNumLevels`). -/
def bottomNumLevels (levels : ℕ) : ℕ := 2 ^ Nat.clog 2 ((levels + 1) / 2)

/-- `include/batchKdtree/cache-oblivious/utils.h:145-173` (`initializeChildIndices`): the rows `0` to `n + 1` of the table. -/
def childTable : ℕ → Except Err (List (List ℕ))
  | 0 => .ok [[], [0]]
  | n + 1 => (childTable n).bind fun tab =>
    let level := n + 2
    let b := bottomNumLevels level
    let t := level - b
    match tab[b]? with
    | none => .error .ub
    | some row => .ok (tab ++ [(List.range (2 ^ t)).flatMap fun sub => row.map fun x => (2 ^ t - 1) + sub * (2 ^ b - 1) + x])

/-- `include/batchKdtree/cache-oblivious/utils.h:175-182` (`initialize`): the number of levels in the tables. -/
def tableLevels : ℕ := 24

/-- A row of `child_indices` (`include/batchKdtree/cache-oblivious/cokdtree.h:143`, 310); rows beyond the table are
undefined, for this table and for `split_points`. -/
def childRow (t : ℕ) : Except Err (List ℕ) :=
  if tableLevels < t then .error .ub
  else (childTable tableLevels).bind fun tab => match tab[t]? with
    | none => .error .ub
    | some row => .ok row

/-- `(split_dim + top_num_levels) % dim` (`include/batchKdtree/cache-oblivious/cokdtree.h:163`, 168, 326, 331). -/
def dimPlus (i : Fin d) (t : ℕ) : Fin d := ⟨(i.val + t) % d, Nat.mod_lt _ (lt_of_le_of_lt (Nat.zero_le _) i.2)⟩

/-- Consecutive slices of the given sizes. Serves
`include/batchKdtree/cache-oblivious/cokdtree.h` lines 304-334. -/
def cuts : List ℕ → List α → List (List α)
  | [], _ => []
  | n :: ns, L => L.take n :: cuts ns (L.drop n)

/-- `include/batchKdtree/cache-oblivious/cokdtree.h:304-334`: the loop over the subtrees. `cur` is `node_array`, `orig` is
`originalNodeArray`. Returns the memory, the rearranged items and the new `node_array`. -/
def coLoop (build : Mem K d → ℕ → ℕ → List α → Except Err (Mem K d × List α × ℕ)) (orig : ℕ) (ci : List ℕ) :
    ℕ → List (List α) → Mem K d → ℕ → ℕ → Except Err (Mem K d × List α × ℕ)
  | _, [], mem, cur, _ => .ok (mem, [], cur)
  | i, L :: Ls, mem, cur, off =>
    match ci[i / 2]? with
    | none => .error .ub
    | some p =>
      (setPtr mem (orig + p) (i % 2 == 0) cur).bind fun mem1 =>
      (build mem1 cur off L).bind fun r =>
      (coLoop build orig ci (i + 1) Ls r.1 (cur + r.2.2) (off + L.length)).map fun q => (q.1, r.2.1 ++ q.2.1, q.2.2)

section
variable [Field K] [LinearOrder K]

/-- `include/batchKdtree/shared/kdnode.h:85-98` (non-leaf constructor). -/
def splitCell (off len : ℕ) (dim : Fin d) (val : K) : Cell K d := ⟨off, off + len, none, some dim, val, none, none, none⟩

/-- `include/batchKdtree/shared/kdnode.h:99-109` (leaf constructor). -/
def leafCell (pos : α → Point K d) (off : ℕ) (L : List α) : Cell K d :=
  ⟨off, off + L.length, some L.length, none, 0, some (leafBox pos (firstPos pos (fun _ => 0) L) L), none, none⟩

/-- `include/batchKdtree/cache-oblivious/cokdtree.h:232-356` (`buildKdtRecursive<top>`), with `buildKdtTop` (359-364) and
`buildKdtBottom` (366-371) put in place of their calls. Returns the memory, the rearranged slice and the number of nodes
used. `off` is the place of the slice in the item array, `base` is `node_array`. -/
def coRec (cap ls : ℕ) (nth : Fin d → ℕ → List α → List α) (pos : α → Point K d) :
    ℕ → Bool → Mem K d → ℕ → ℕ → Fin d → ℕ → List α → Except Err (Mem K d × List α × ℕ)
  | 0, _, _, _, _, _, _, _ => .error .fuel
  | fuel + 1, top, mem, off, base, dim, levels, L =>
    if levels = 1 then
      if L.length = 0 then .error .ub
      else if top then
        let sp := serialMedian nth pos dim L
        (writeCell cap mem base (splitCell off L.length dim sp.2.1)).map fun m => (m, sp.1, 1)
      else (writeCell cap mem base (leafCell pos off L)).map fun m => (m, L, 1)
    else
      let b := bottomNumLevels levels
      let t := levels - b
      (coRec cap ls nth pos fuel true mem off base dim t L).bind fun r =>
      (childRow t).bind fun ci =>
      (bucketSizes t L.length).bind fun sizes =>
      (coLoop (fun m cur o M =>
          if top then coRec cap ls nth pos fuel true m o cur (dimPlus dim t) b M
          else if M.length = 0 then .error .ub
          else coRec cap ls nth pos fuel false m o cur (dimPlus dim t) (numLevels ls M.length) M)
        base ci 0 (cuts sizes r.2.1) r.1 (base + r.2.2) off).map fun q => (q.1, q.2.1, q.2.2 - base)

/-- `include/batchKdtree/cache-oblivious/cokdtree.h:138-172`: the iterations of the parallel loop, in the order given by the
list; each writes its own part of the memory and one pointer of a node of the top tree. Iterations are not interleaved. -/
def coPLoop (build : Mem K d → ℕ → ℕ → List α → Except Err (Mem K d × List α)) (orig : ℕ) (ci ends bases : List ℕ) (off : ℕ)
    (L : List α) : List ℕ → Mem K d → List (List α) → Except Err (Mem K d × List (List α))
  | [], mem, outs => .ok (mem, outs)
  | i :: rest, mem, outs =>
    match ci[i / 2]?, ends[i]?, ends[i + 1]?, bases[i]? with
    | some p, some lo, some hi, some cur =>
      (setPtr mem (orig + p) (i % 2 == 0) cur).bind fun mem1 =>
      (build mem1 cur (off + lo) ((L.drop lo).take (hi - lo))).bind fun r =>
      coPLoop build orig ci ends bases off L rest r.1 (outs.set i r.2)
    | _, _, _, _ => .error .ub

/-- `include/batchKdtree/cache-oblivious/cokdtree.h:133-137`, 151-152 with `utils.h:125-141` (`computeBottomChildSizes`): where the
subtrees of the parallel build start. -/
def coBases (top : Bool) (start t b : ℕ) (sizes : List ℕ) : List ℕ :=
  if top then (List.range (2 ^ t)).map fun i => start + i * (2 ^ b - 1)
  else inclusiveScan start (0 :: sizes.map fun s => 2 * s - 1)

/-- `include/batchKdtree/cache-oblivious/cokdtree.h:55-200` (`buildKdtRecursiveParallel<top>`), with `buildKdtTopParallel`
(203-213) and `buildKdtBottomParallel` (215-227) put in place of their calls; `thr` is the bound of `utils.h:46-53`.
`ord base levels top` is the order in which the iterations of a loop take place. `med` is `parallelMedianPartition`. -/
def coParWith (cap ls thr : ℕ) (nth : Fin d → ℕ → List α → List α) (med : Fin d → List α → List α × K × ℕ)
    (pos : α → Point K d) (ord : ℕ → ℕ → Bool → List ℕ) :
    ℕ → Bool → Mem K d → ℕ → ℕ → Fin d → ℕ → List α → Except Err (Mem K d × List α)
  | 0, _, _, _, _, _, _, _ => .error .fuel
  | fuel + 1, top, mem, off, base, dim, levels, L =>
    if L.length < thr then (coRec cap ls nth pos (fuel + 1) top mem off base dim levels L).map fun r => (r.1, r.2.1)
    else if top ∧ levels = 1 then
      if L.length < 2 then .error .ub
      else
        let sp := med dim L
        (writeCell cap mem base (splitCell off L.length dim sp.2.1)).map fun m => (m, sp.1)
    else
      let b := bottomNumLevels levels
      let t := levels - b
      (coParWith cap ls thr nth med pos ord fuel true mem off base dim t L).bind fun r =>
      (childRow t).bind fun ci =>
      (bucketSizes t L.length).bind fun sizes =>
      (leftEndpoints t L.length).bind fun ends =>
      (coPLoop (fun m cur o M =>
          if top then coParWith cap ls thr nth med pos ord fuel true m o cur (dimPlus dim t) b M
          else if M.length = 0 then .error .ub
          else coParWith cap ls thr nth med pos ord fuel false m o cur (dimPlus dim t) (numLevels ls M.length) M)
        base ci ends (coBases top (base + (2 ^ t - 1)) t b sizes) off r.2 (ord base levels top) r.1
        (List.replicate (2 ^ t) [])).map fun q => (q.1, q.2.flatten)

/-- A call on a pointer that may be null (`include/batchKdtree/shared/kdnode.h:234-235`). -/
def optRun {β : Type} (dflt : β) (f : ℕ → Except Err β) : Option ℕ → Except Err β
  | none => .ok dflt
  | some a => f a

/-- `include/batchKdtree/shared/kdnode.h:193-209` and 229-238 (`recomputeBoundingBox`, `recomputeBoundingBoxSubtree`) on the
memory. Reading a box that has not been set is undefined. The parallel calls touch different nodes. -/
def fixBoxes : ℕ → Mem K d → ℕ → Except Err (Mem K d)
  | 0, _, _ => .error .fuel
  | fuel + 1, mem, a =>
    match mem a with
    | none => .error .ub
    | some c =>
      (optRun mem (fixBoxes fuel mem) c.left).bind fun m1 =>
      (optRun m1 (fixBoxes fuel m1) c.right).bind fun m2 =>
      match c.left.map m2, c.right.map m2 with
      | none, none => .ok m2
      | some (some x), none => .ok (Function.update m2 a (some { c with box := x.box }))
      | none, some (some y) => .ok (Function.update m2 a (some { c with box := y.box }))
      | some (some x), some (some y) =>
        match x.box, y.box with
        | some bx, some by' => .ok (Function.update m2 a (some { c with box := some (joinBox bx by') }))
        | _, _ => .error .ub
      | _, _ => .error .ub

/-- The tree that the queries of the base class (`include/batchKdtree/shared/kdtree.h`, `kdnode.h`) reach from a node. -/
def view : ℕ → Mem K d → ℕ → Except Err (BT K d)
  | 0, _, _ => .error .fuel
  | fuel + 1, mem, a =>
    match mem a with
    | none => .error .ub
    | some c =>
      match c.left, c.right with
      | none, none =>
        match c.cnt, c.box with
        | some n, some b => .ok (.leaf a c.s c.e n b)
        | _, _ => .error .ub
      | l?, r? =>
        (optRun .nil (view fuel mem) l?).bind fun l =>
        (optRun .nil (view fuel mem) r?).bind fun r =>
        match c.dim, c.box with
        | some dim, some b => .ok (.node a c.s c.e dim c.val b l r)
        | _, _ => .error .ub

/-- `include/batchKdtree/cache-oblivious/cokdtree.h:374-386` and 424-466 (`buildKdt`, `build`) on an empty tree `t` (with the
node array of `kdtree.h:149`): `parallel` is the template argument, `med` is `parallelMedianPartition`. -/
def coBuildWith (parallel : Bool) (ls thr : ℕ) (nth : Fin d → ℕ → List α → List α) (med : Fin d → List α → List α × K × ℕ)
    (pos : α → Point K d) (ord : ℕ → ℕ → Bool → List ℕ) (d0 : Fin d) (mem0 : Mem K d) (t : Tree α K d) (pts : List α) :
    Except Err (Tree α K d) :=
  if pts.length = 0 then .ok { t with items := pts, curSize := 0, buildSize := 0 }
  else
    let cap := 2 * t.maxSize - 1
    let levels := numLevels ls pts.length
    ((if parallel then coParWith cap ls thr nth med pos ord levels false mem0 0 0 d0 levels pts
      else (coRec cap ls nth pos levels false mem0 0 0 d0 levels pts).map fun r => (r.1, r.2.1))).bind fun r =>
    (fixBoxes (pts.length + 1) r.1 0).bind fun m =>
    (view (pts.length + 1) m 0).map fun root =>
      { t with items := r.2, curSize := pts.length, buildSize := pts.length, root := root }

/-- `include/batchKdtree/cache-oblivious/cokdtree.h:374-386` and 424-466 (`buildKdt`, `build`) in exact arithmetic. -/
def coBuild (parallel : Bool) (ls thr : ℕ) (nth : Fin d → ℕ → List α → List α) (srt : Fin d → List α → List α)
    (pos : α → Point K d) (ord : ℕ → ℕ → Bool → List ℕ) (d0 : Fin d) (mem0 : Mem K d) (t : Tree α K d) (pts : List α) :
    Except Err (Tree α K d) :=
  coBuildWith parallel ls thr nth (parallelMedian srt pos) pos ord d0 mem0 t pts

end

end Verif.BatchKd
