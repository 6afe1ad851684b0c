import Verif.BatchKd.TreeModel
import Verif.BatchKd.KnnModel

set_option linter.unusedSectionVars false
set_option linter.unusedVariables false

/-!
Model of the array buffer of the log-structured tree, `include/batchKdtree/log-tree/buffer.h` (`LogTreeBuffer`), which
`logtree.h:74-78` takes in place of the tree when `LOGTREE_BUFFER` is `ARR_BUFFER` (`shared/macro.h:58-61`).

The arrays `items` and `present` are one list of pairs (they are always used at the same index). Each parallel loop has a
parameter for the order of its iterations; an iteration is one step. The iterations of `contains` and of `bulk_erase` that
race write the same value.
-/

namespace Verif.LogTree.Arr

open Verif BatchKd

variable {α K : Type} {d : ℕ}

/-- `buffer.h:37-40`: `items` with `present`, `cur_size`, `insert_size`. -/
structure AB (α : Type) where
  cells : List (α × Bool)
  curSize : ℕ
  insertSize : ℕ

/-- `items.size() - insert_size` (`buffer.h:59`, 89, 118, 136, 143, 171): the places that were written. -/
def AB.used (b : AB α) : ℕ := b.cells.length - b.insertSize

/-- `buffer.h:44-48`: the constructor; `blank` is the default object. -/
def new (blank : α) (log2size : ℕ) : AB α :=
  ⟨List.replicate (2 ^ log2size) (blank, false), 0, 2 ^ log2size⟩

/-- `buffer.h:52-56` (`clear`): the items stay, nothing is present. -/
def clear (b : AB α) : AB α := ⟨b.cells.map fun c => (c.1, false), 0, b.cells.length⟩

/-- The present items of the places that were written, in order (`buffer.h:62-72`, both branches). -/
def packed (b : AB α) : List α := ((b.cells.take b.used).filter fun c => c.2).map fun c => c.1

/-- `buffer.h:58-76` (`moveElementsTo`): the first places of `dest` are overwritten; more items than places would be written
outside. Returns `dest` and the emptied buffer. -/
def moveElementsTo (b : AB α) (dest : List α) : Except Err (List α × AB α) :=
  if (packed b).length ≤ dest.length then .ok (packed b ++ dest.drop (packed b).length, clear b) else .error .ub

/-- One iteration of `buffer.h:89-92`: item and flag `i` of the batch are written behind place `start`; outside of the
arrays this is undefined. -/
def putOne (start : ℕ) (pts : List α) (cells : List (α × Bool)) (i : ℕ) : Except Err (List (α × Bool)) :=
  match pts[i]? with
  | none => .error .ub
  | some x => if start + i < cells.length then .ok (cells.set (start + i) (x, true)) else .error .ub

/-- `buffer.h:89-92`: the loop. -/
def putAll (start : ℕ) (pts : List α) : List ℕ → List (α × Bool) → Except Err (List (α × Bool))
  | [], cells => .ok cells
  | i :: is, cells => (putOne start pts cells i).bind (putAll start pts is)

/-- One iteration of `buffer.h:102-107`: an item is written, its flag is not. -/
def backOne (all : List α) (cells : List (α × Bool)) (i : ℕ) : Except Err (List (α × Bool)) :=
  match all[i]?, cells[i]? with
  | some x, some c => .ok (cells.set i (x, c.2))
  | _, _ => .error .ub

/-- `buffer.h:102-107`: the loop. -/
def backAll (all : List α) : List ℕ → List (α × Bool) → Except Err (List (α × Bool))
  | [], cells => .ok cells
  | i :: is, cells => (backOne all cells i).bind (backAll all is)

/-- `buffer.h:78-112` (`insert`). `debug` is a build without `NDEBUG` (81-85); `ord n` is the order of a loop of `n`
iterations; `blank` fills the vector `gather` (98). The subtraction (110) is modulo the word size in the code; it is reached
only if everything before it is in bounds. -/
def insert (debug : Bool) (ord : ℕ → List ℕ) (blank : α) (b : AB α) (pts : List α) : Except Err (AB α) :=
  if pts.length = 0 then .ok b
  else if debug && decide (b.cells.length < pts.length + b.curSize) then .error .throws
  else if pts.length ≤ b.insertSize then
    (putAll b.used pts (ord pts.length) b.cells).map fun cells =>
      ⟨cells, b.curSize + pts.length, b.insertSize - pts.length⟩
  else
    (moveElementsTo b (List.replicate b.curSize blank)).bind fun r =>
      (backAll (r.1 ++ pts) (ord (r.1.length + pts.length)) r.2.cells).map fun cells =>
        ⟨cells, r.1.length + pts.length, r.2.insertSize - (r.1.length + pts.length)⟩

section
variable [DecidableEq K] (pos : α → Point K d)

/-- One iteration of `buffer.h:115-121`: listed point `ij.1` against place `ij.2`. -/
def eraseOne (pts : List α) (cells : List (α × Bool)) (ij : ℕ × ℕ) : List (α × Bool) :=
  match pts[ij.1]?, cells[ij.2]? with
  | some p, some c => if c.2 && decide (pos p = pos c.1) then cells.set ij.2 (c.1, false) else cells
  | _, _ => cells

/-- `buffer.h:114-127` (`bulk_erase`, `erase`); `ord2 n m` is the order of the two nested loops. The sizes are not
changed. -/
def erase (ord2 : ℕ → ℕ → List (ℕ × ℕ)) (b : AB α) (pts : List α) : AB α :=
  { b with cells := (ord2 pts.length b.used).foldl (eraseOne pos pts) b.cells }

/-- One iteration of `buffer.h:133-135`. -/
def look (p : Point K d) (cells : List (α × Bool)) (ret : Bool) (i : ℕ) : Bool :=
  match cells[i]? with
  | some c => if c.2 && decide (p = pos c.1) then true else ret
  | none => ret

/-- `buffer.h:130-137` (`contains`). -/
def contains (ord : ℕ → List ℕ) (b : AB α) (p : Point K d) : Bool :=
  (ord b.used).foldl (look pos p b.cells) false

end

section
variable [Field K] [LinearOrder K] (pos : α → Point K d)

/-- `buffer.h:138-161` (`orthogonalQuery`): a place is reported if it is present and `boxCompare` of the query with the box of
that single point (`boxCompare` as in `KdTree/RangeModel`) answers "include"; the places are packed in order. -/
def orthogonalQuery (b : AB α) (q : Box K d) : List α :=
  ((b.cells.take b.used).filter fun c =>
    c.2 && decide (KdTree.boxCompare q ⟨pos c.1, pos c.1⟩ = .incl)).map fun c => c.1

variable (nth : ℕ → List (K × α) → List (K × α)) (dist : Point K d → Point K d → K)

/-- `buffer.h:163-174` (`knnSinglePoint` into a buffer): every present item is inserted (no radius). -/
def knnInto (b : AB α) (q : Point K d) (buf : BBuf α K) : Except Err (BBuf α K) :=
  addItems nth dist pos q none (packed b) buf

/-- `buffer.h:176-194` (`knnSinglePoint` with results): `o` is the query's part of `out`; `preload` keeps its first `k`
places. The first `k` places are read as they are, without a last `keepK`; a place without an element holds no pointer. -/
def knnSingle (b : AB α) (k : ℕ) (preload : Bool) (o : List (K × α)) (q : Point K d) : Except Err (List α) :=
  (knnInto pos nth dist b q ⟨k, if preload then o.take k else [], true⟩).bind fun r =>
    if k ≤ r.elems.length then .ok ((r.elems.take k).map fun x => x.2) else .error .ub

/-- `buffer.h:196-256` (`knn`): the queries are independent. -/
def knn (b : AB α) (k : ℕ) (qs : List (Point K d)) : Except Err (List (List α)) :=
  qs.mapM (knnSingle pos nth dist b k false [])

/-- The operations of a user of the buffer. `drain` is `logtree.h:270-273`: a vector of `size()` default objects is made and
the buffer moved into it. -/
inductive Op (α K : Type) (d : ℕ) where
  | insert (pts : List α)
  | erase (pts : List α)
  | clear
  | drain
  | contains (p : Point K d)
  | query (q : Box K d)
  | size

/-- What an operation returns. Serves
`buffer.h` lines 50-161. -/
inductive Out (α : Type) where
  | unit
  | bool (b : Bool)
  | items (l : List α)
  | num (n : ℕ)

/-- One call (`buffer.h:50-161`; `size` is line 50). -/
def step (debug : Bool) (ord : ℕ → List ℕ) (ord2 : ℕ → ℕ → List (ℕ × ℕ)) (blank : α) (b : AB α) :
    Op α K d → Except Err (AB α × Out α)
  | .insert pts => (insert debug ord blank b pts).map fun b' => (b', .unit)
  | .erase pts => .ok (erase pos ord2 b pts, .unit)
  | .clear => .ok (clear b, .unit)
  | .drain => (moveElementsTo b (List.replicate b.curSize blank)).map fun r => (r.2, .items r.1)
  | .contains p => .ok (b, .bool (contains pos ord b p))
  | .query q => .ok (b, .items (orthogonalQuery pos b q))
  | .size => .ok (b, .num b.curSize)

/-- A sequence of calls (`buffer.h:34-258`). -/
def run (debug : Bool) (ord : ℕ → List ℕ) (ord2 : ℕ → ℕ → List (ℕ × ℕ)) (blank : α) :
    AB α → List (Op α K d) → Except Err (AB α × List (Out α))
  | b, [] => .ok (b, [])
  | b, o :: os =>
    (step pos debug ord ord2 blank b o).bind fun r =>
      (run debug ord ord2 blank r.1 os).map fun r' => (r'.1, r.2 :: r'.2)

end

end Verif.LogTree.Arr
