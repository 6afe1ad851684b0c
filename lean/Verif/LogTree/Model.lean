import Verif.BatchKd.TreeModel
import Verif.BatchKd.EraseOneModel
import Verif.BatchKd.KnnModel

set_option linter.unusedSectionVars false
set_option linter.unusedVariables false

/-!
Model of the log-structured tree, `include/batchKdtree/log-tree/logtree.h`, with the default buffer (a tree in binary-heap
layout, `include/batchKdtree/shared/macro.h:58-61`).

The static trees are instances of the batch tree of `BatchKd/TreeModel` for an arbitrary build configuration. Simplifications:
`int` and `size_t` are unbounded; a static tree keeps an item array of its capacity (the code replaces the array by one of
the exact size; the entries behind the build size are never read).
-/

namespace Verif.LogTree

open Verif BatchKd

variable {α K : Type} {d : ℕ}

/-- `include/batchKdtree/log-tree/logtree.h:88-100`: the state. Only the static trees below `NUM_TREES` are used. -/
structure LT (α K : Type) (d : ℕ) where
  mask : ℕ
  buf : Tree α K d
  trees : ℕ → Tree α K d

/-- The parameters: template arguments (`logtree.h:67-72`), build configurations of the static trees and of the buffer,
first split dimension. -/
structure Params (α K : Type) (d : ℕ) where
  numTrees : ℕ
  log2 : ℕ
  cs : Cfg α K d
  cb : Cfg α K d
  d0 : Fin d

/-- `logtree.h:88` (`BUFFER_SIZE`). -/
def Params.B (P : Params α K d) : ℕ := 2 ^ P.log2

/-- `logtree.h:102-107` (`nth_tree_log2size`, `nth_tree_size`), for the buffer size `2^l`. -/
def treeSize (l n : ℕ) : ℕ := 2 ^ (n + l)

/-- `logtree.h:119-146` (constructor). -/
def newTree [Field K] [LinearOrder K] (P : Params α K d) (blank : α) : LT α K d where
  mask := 0
  buf := emptyTree blank P.log2
  trees := fun i => emptyTree blank (i + P.log2)

/-- `logtree.h:192-193`: one entry of `moves`. -/
structure Move where
  usesBuffer : Bool
  start : ℤ
  stop : ℤ
  trees : List ℕ
  target : ℕ

/-- `logtree.h:205-227`: the loop over `j`, which starts at `j`: the argument is `j + 1`, the result is `to_gather`,
`size_gathered`, and the final `j + 1`. `w` is `new_tree_mask`, `o` is `tree_mask`. -/
def gather (l w o : ℕ) : ℕ → List ℕ × ℕ × ℕ
  | 0 => ([], 0, 0)
  | j + 1 =>
    if w.testBit j then
      if o.testBit j then gather l w o j
      else ([], 0, j + 1)
    else
      if o.testBit j then
        (j :: (gather l w o j).1, treeSize l j + (gather l w o j).2.1, (gather l w o j).2.2)
      else gather l w o j

/-- The variables changed by the simulation (`logtree.h:176`, 193-195). -/
structure Sim where
  moves : List Move
  fullBuffers : ℤ
  pointsEnd : ℤ
  haveUsed : Bool

/-- `logtree.h:200-256`: the loop over `i`. The argument is `i + 1`; `fuel` bounds the number of rounds. `b` is
`buffer_tree.size()`. -/
def simulate (l w o b : ℕ) (useBuffer : Bool) : ℕ → ℕ → Sim → Sim
  | 0, _, s => s
  | _, 0, s => s
  | fuel + 1, i + 1, s =>
    if w.testBit i && !o.testBit i then
      let g := gather l w o i
      let num : ℤ := (treeSize l i : ℤ) - g.2.1
      let full := s.fullBuffers - num / (2 ^ l : ℕ)
      let cur := useBuffer && decide (full = 0)
      let num' := if cur then num - b else num
      simulate l w o b useBuffer fuel g.2.2
        { moves := s.moves ++ [⟨cur, s.pointsEnd - num', s.pointsEnd, g.1, i⟩]
          fullBuffers := full
          pointsEnd := s.pointsEnd - num'
          haveUsed := s.haveUsed || cur }
    else simulate l w o b useBuffer fuel i s

section
variable [Field K] [LinearOrder K] (pos : α → Point K d)

/-- `include/batchKdtree/shared/kdtree.h:192-211` (`moveElementsTo`) into a slice of `size()` places: other numbers of items
would leave places unset or write outside. -/
def takeOut (t : Tree α K d) : Except Err (List α × Tree α K d) :=
  if (moveElements t).1.length = t.curSize then .ok (moveElements t) else .error .ub

/-- `logtree.h:296-358`, the trees: items moved out of the trees of a move, in order. -/
def takeOutAll (trees : ℕ → Tree α K d) : List ℕ → Except Err (List α × (ℕ → Tree α K d))
  | [] => .ok ([], trees)
  | j :: js =>
    (takeOut (trees j)).bind fun r =>
      (takeOutAll (Function.update trees j r.2) js).map fun r' => (r.1 ++ r'.1, r'.2)

/-- `points[start..stop)`; reading outside is undefined. Serves
`logtree.h` lines 290-388. -/
def slicePts (pts : List α) (s e : ℤ) : Except Err (List α) :=
  if 0 ≤ s ∧ s ≤ e ∧ e ≤ pts.length then .ok ((pts.drop s.toNat).take (e - s).toNat) else .error .ub

/-- `logtree.h:290-388` (`rebuild_static_f`): gathers the items of one move and builds the new tree. -/
def doMove (P : Params α K d) (pts bufPts : List α) (trees : ℕ → Tree α K d) (m : Move) :
    Except Err (ℕ → Tree α K d) :=
  (takeOutAll trees m.trees).bind fun r =>
  (slicePts pts m.start m.stop).bind fun q =>
  (buildPoints pos P.cs P.d0 (r.2 m.target) (r.1 ++ q ++ if m.usesBuffer then bufPts else [])).map fun t =>
    Function.update r.2 m.target t

/-- `logtree.h:391-408`: all moves. -/
def doMoves (P : Params α K d) (pts bufPts : List α) :
    List Move → (ℕ → Tree α K d) → Except Err (ℕ → Tree α K d)
  | [], trees => .ok trees
  | m :: ms, trees => (doMove pos P pts bufPts trees m).bind (doMoves P pts bufPts ms)

/-- `logtree.h:175-185`: number of buffers that move, points left for the buffer, and whether the buffer is emptied. -/
def plan (B n b : ℕ) : ℕ × ℕ × Bool :=
  if B < n % B + b then (n / B + 1, n % B + b - B, true) else (n / B, n % B, false)

/-- `logtree.h:192-256`: the simulation for a batch of `n` points. -/
def simulation (P : Params α K d) (mask n b : ℕ) : Sim :=
  let p := plan P.B n b
  simulate P.log2 (mask + p.1) mask b p.2.2 (P.numTrees + 1) P.numTrees ⟨[], p.1, n, false⟩

/-- `logtree.h:171-418` (`insert`). `ord` is the order in which the parallel loop (391-401) carries out the moves. The
exception (260-262) leaves the structure as it was: all changes come later. -/
def insert (P : Params α K d) (ord : List Move → List Move) (s : LT α K d) (pts : List α) : Except Err (LT α K d) :=
  let p := plan P.B pts.length s.buf.curSize
  let r := simulation P s.mask pts.length s.buf.curSize
  if r.fullBuffers ≠ 0 then .error .throws
  else
    (if r.haveUsed then takeOut s.buf else .ok ([], s.buf)).bind fun bb =>
    (BatchKd.insert pos P.cb P.d0 bb.2 (pts.take p.2.1)).bind fun buf' =>
    (doMoves pos P pts bb.1 (ord r.moves) s.trees).map fun trees' =>
      ⟨s.mask + p.1, buf', trees'⟩

/-- `logtree.h:450-469`: erase the points from one tree, as a batch without rebuilding or one after the other. -/
def eraseTree (bulk : Bool) (part : Fin d → K → List (Point K d) → List (Point K d)) (t : Tree α K d)
    (pts : List (Point K d)) : Except Err (Tree α K d) :=
  if bulk then BatchKd.bulkErase pos part t pts else erasePoints pos true t pts

/-- `logtree.h:422-481`, phase 1: erase the points from every full tree, without rebuilding. -/
def eraseTrees (bulk : Bool) (part : Fin d → K → List (Point K d) → List (Point K d)) (mask : ℕ) (pts : List (Point K d)) :
    List ℕ → (ℕ → Tree α K d) → Except Err (ℕ → Tree α K d)
  | [], trees => .ok trees
  | i :: is, trees =>
    (if mask.testBit i then eraseTree pos bulk part (trees i) pts else .ok (trees i)).bind fun t =>
      eraseTrees bulk part mask pts is (Function.update trees i t)

/-- `logtree.h:489-496`: the trees that are at most half full. -/
def depleted (P : Params α K d) (trees : ℕ → Tree α K d) : List ℕ :=
  (List.range P.numTrees).filter fun i => decide ((trees i).curSize ≤ treeSize P.log2 i / 2)

/-- `logtree.h:110` (`unset_nth_bit`). -/
def unsetBit (m i : ℕ) : ℕ := if m.testBit i then m ^^^ 2 ^ i else m

/-- `logtree.h:420-516` (`erase<bulk>`; `erase<true>` is `bulk_erase`, 518-521). -/
def erase (bulk : Bool) (P : Params α K d) (ord : List Move → List Move)
    (part : Fin d → K → List (Point K d) → List (Point K d)) (s : LT α K d) (pts : List (Point K d)) :
    Except Err (LT α K d) :=
  (if s.buf.curSize = 0 then .ok s.buf else eraseTree pos bulk part s.buf pts).bind fun buf' =>
  (eraseTrees pos bulk part s.mask pts (List.range P.numTrees) s.trees).bind fun trees' =>
  (takeOutAll trees' (depleted P trees')).bind fun r =>
    insert pos P ord ⟨(depleted P trees').foldl unsetBit s.mask, buf', r.2⟩ r.1

/-- `logtree.h:739-760` (`contains`). -/
def contains (P : Params α K d) (s : LT α K d) (p : Point K d) : Except Err Bool :=
  (BatchKd.contains pos s.buf p).bind fun b =>
    ((List.range P.numTrees).mapM fun i => BatchKd.contains pos (s.trees i) p).map fun bs =>
      b || bs.any id

/-- `logtree.h:762-797` (`orthogonalQuery`), serial version; the parallel version has the buffer last. -/
def orthogonalQuery (P : Params α K d) (s : LT α K d) (q : Box K d) : List α :=
  BatchKd.orthogonalQuery pos s.buf q ++
    (List.range P.numTrees).flatMap fun i => BatchKd.orthogonalQuery pos (s.trees i) q

/-- `logtree.h:762-782` (`orthogonalQuery`), parallel version. -/
def orthogonalQueryPar (P : Params α K d) (s : LT α K d) (q : Box K d) : List α :=
  (((List.range P.numTrees).map fun i => BatchKd.orthogonalQuery pos (s.trees i) q) ++
    [BatchKd.orthogonalQuery pos s.buf q]).flatten

/-- `logtree.h:1218-1225` (`size`). -/
def size (P : Params α K d) (s : LT α K d) : ℕ :=
  s.buf.curSize + (((List.range P.numTrees).filter fun i => s.mask.testBit i).map fun i => (s.trees i).curSize).sum

/-! ### `k` nearest neighbours -/

variable (nth : ℕ → List (K × α) → List (K × α)) (dist : Point K d → Point K d → K)

/-- `logtree.h:799-810` (`gatherFullTrees`): the buffer if it is not empty, then the trees of the mask. -/
def fullTrees (P : Params α K d) (s : LT α K d) : List (Tree α K d) :=
  (if s.buf.curSize = 0 then [] else [s.buf]) ++
    ((List.range P.numTrees).filter fun i => s.mask.testBit i).map s.trees

/-- `include/batchKdtree/shared/kdtree.h:311-322` (`knnSinglePoint`) for one query of the serial search: `o` is the part of
`out` with `2k` places that belongs to the query (what the last tree left there); with `preload` the first `k` of them are
taken as they are. -/
def knnStep (update recurse : Bool) (k : ℕ) (q : Point K d) (preload : Bool) (o : List (K × α)) (t : Tree α K d) :
    Except Err (List (K × α)) :=
  (knnInto nth dist pos update recurse t q ⟨k, if preload then o.take k else [], true⟩).map fun b => b.elems

/-- `logtree.h:993-996` (trees in the order of `tree_ids`), 863-865 (`knn3`, the other way round): the trees one after the
other, for one query. -/
def knnTrees (update recurse : Bool) (k : ℕ) (q : Point K d) : Bool → List (K × α) → List (Tree α K d) →
    Except Err (List (K × α))
  | _, o, [] => .ok o
  | preload, o, t :: ts =>
    (knnStep pos nth dist update recurse k q preload o t).bind fun o' => knnTrees update recurse k q true o' ts

/-- `logtree.h:1018-1022`, 869-874, 921-924: the first `k` places of the query's part of `out`. Places that were never written hold
no pointer; they are an error here. -/
def knnRow (k : ℕ) (o : List (K × α)) : Except Err (List α) :=
  if k ≤ o.length then .ok ((o.take k).map fun x => x.2) else .error .ub

/-- `logtree.h:938-1031` (`knn`, not parallel) and 884-936 (`knn2`: the same steps, query by query). -/
def knn (P : Params α K d) (update recurse : Bool) (s : LT α K d) (k : ℕ) (qs : List (Point K d)) :
    Except Err (List (List α)) :=
  qs.mapM fun q => (knnTrees pos nth dist update recurse k q false [] (fullTrees P s)).bind (knnRow k)

/-- `logtree.h:812-882` (`knn3`): the trees from the largest down to the buffer. -/
def knn3 (P : Params α K d) (update recurse : Bool) (s : LT α K d) (k : ℕ) (qs : List (Point K d)) :
    Except Err (List (List α)) :=
  qs.mapM fun q => (knnTrees pos nth dist update recurse k q false [] (fullTrees P s).reverse).bind (knnRow k)

/-- `logtree.h:1009-1012`: the `k` results of the other trees are inserted into the buffer. -/
def insertAll : List (K × α) → BBuf α K → Except Err (BBuf α K)
  | [], b => .ok b
  | x :: L, b => (b.insert nth x).bind (insertAll L)

/-- `logtree.h:1003-1016`: combine the results of the trees for one query. The first `k` places are read without a last
`keepK`. -/
def combine (k : ℕ) : List (List (K × α)) → Except Err (List α)
  | [] => .error .ub
  | o :: os => (insertAll nth (os.flatMap fun o => o.take k) ⟨k, o.take k, true⟩).bind fun b => knnRow k b.elems

/-- `logtree.h:938-1031` (`knn`, parallel): every tree has its own part of `out`. -/
def knnPar (P : Params α K d) (update recurse : Bool) (s : LT α K d) (k : ℕ) (qs : List (Point K d)) :
    Except Err (List (List α)) :=
  qs.mapM fun q =>
    ((fullTrees P s).mapM (knnStep pos nth dist update recurse k q false [])).bind (combine nth k)

end

end Verif.LogTree
