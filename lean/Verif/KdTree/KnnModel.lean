import Verif.KdTree.RangeModel
import Verif.KdTree.KnnBufModel

/-!
Model of the k-nearest-neighbour search in `include/kdTree/knnImpl.h:102-260`.
-/

namespace Verif.KdTree

open Verif.KnnBuf

variable {α K : Type} {d : ℕ} [Field K] [LinearOrder K]

/-- `std::nth_element` on a slice of the kNN buffer, see `KnnBuf.NthSpec`
(`include/kdTree/knnImpl.h:75`). -/
abbrev Nth (α K : Type) := ℕ → List (Slot α K) → List (Slot α K)

/-- `include/kdTree/knnImpl.h:115-118, 175-179, 190-194`: a loop inserting `elem(q.dist(*p), p)` for
the items `p` of a list. -/
def insertItems (nth : Nth α K) (dist : Point K d → Point K d → K) (pos : α → Point K d)
    (q : Point K d) : List α → Buf α K → Except Err (Buf α K)
  | [], b => .ok b
  | p :: l, b => (b.insert nth (dist q (pos p), p)).bind (insertItems nth dist pos q l)

/-- `include/kdTree/knnImpl.h:103-141` (`knnRangeHelper`). -/
def knnRangeHelper (nth : Nth α K) (dist : Point K d → Point K d → K) (pos : α → Point K d)
    (q : Point K d) (qb : Box K d) (radius : K) : Tree α K d → Buf α K → Except Err (Buf α K)
  | .leaf box items, b =>
    match boxCompare qb box with
    | .excl => .ok b
    | .incl => insertItems nth dist pos q items b
    | .overlap => insertItems nth dist pos q (items.filter fun p => dist q (pos p) ≤ radius) b
  | .node box l r, b =>
    match boxCompare qb box with
    | .excl => .ok b
    | .incl => insertItems nth dist pos q (l.items ++ r.items) b
    | .overlap =>
      (knnRangeHelper nth dist pos q qb radius l b).bind
        (knnRangeHelper nth dist pos q qb radius r)

/-- `include/kdTree/knnImpl.h:143-154` (`knnRange`). The radius is the cost of a buffer element; if
that is a default element (cost `max()`) the box is not representable, which is not modelled. -/
def knnRange (nth : Nth α K) (dist : Point K d → Point K d → K) (pos : α → Point K d)
    (q : Point K d) (s : Slot α K) (t : Tree α K d) (b : Buf α K) : Except Err (Buf α K) :=
  match s with
  | none => .error .ub
  | some e => knnRangeHelper nth dist pos q (queryBox q e.1) e.1 t b

/-- `include/kdTree/knnImpl.h:184-204`: the part of `knnHelper` after the node was searched; `sib`
is the sibling (`tree->siblin()`), `none` at the root. -/
def knnSibling (nth : Nth α K) (dist : Point K d → Point K d → K) (pos : α → Point K d)
    (q : Point K d) (sib : Option (Tree α K d)) (b : Buf α K) : Except Err (Buf α K) :=
  if b.hasK then
    match sib with
    | none => .ok b
    | some s => (b.keepK nth).bind fun r => knnRange nth dist pos q r.2 s r.1
  else
    match sib with
    | none => .error .throws
    | some s => insertItems nth dist pos q s.items b

/-- `include/kdTree/knnImpl.h:156-205` (`knnHelper`). -/
def knnHelper (nth : Nth α K) (dist : Point K d → Point K d → K) (pos : α → Point K d)
    (q : Point K d) : Tree α K d → Option (Tree α K d) → Buf α K → Except Err (Buf α K)
  | .leaf box items, sib, b =>
    match boxCompare box ⟨q, q⟩ with
    | .excl => .ok b
    | _ => (insertItems nth dist pos q items b).bind (knnSibling nth dist pos q sib)
  | .node box l r, sib, b =>
    match boxCompare box ⟨q, q⟩ with
    | .excl => .ok b
    | _ => ((knnHelper nth dist pos q l (some r) b).bind
        (knnHelper nth dist pos q r (some l))).bind (knnSibling nth dist pos q sib)

/-- `include/kdTree/knnImpl.h:230-233`: reading `buf[j].entry`; the entry of a default element is
indeterminate. -/
def readEntry (b : Buf α K) (j : ℕ) : Except Err α :=
  match b.get j with
  | .error e => .error e
  | .ok none => .error .ub
  | .ok (some e) => .ok e.2

/-- `include/kdTree/knnImpl.h:230-233`: the entries `j, j+1, ..., j+n-1`. -/
def readEntries (b : Buf α K) : ℕ → ℕ → Except Err (List α)
  | _, 0 => .ok []
  | j, n + 1 => (readEntry b j).bind fun x => (readEntries b (j + 1) n).map (x :: ·)

/-- `include/kdTree/knnImpl.h:228-229`: the optional sort. -/
def maybeSort (srt : List (Slot α K) → List (Slot α K)) (sorted : Bool) (b : Buf α K) :
    Except Err (Buf α K) :=
  if sorted then b.sort srt else .ok b

/-- `include/kdTree/knnImpl.h:224-234`: the work of `batchKnn` for one query. -/
def knnQuery (nth : Nth α K) (srt : List (Slot α K) → List (Slot α K))
    (dist : Point K d → Point K d → K) (pos : α → Point K d) (k : ℕ) (sorted : Bool)
    (t : Tree α K d) (q : Point K d) : Except Err (List α) :=
  (knnHelper nth dist pos q t none (Buf.new k)).bind fun b =>
    (b.keepK nth).bind fun r =>
      (maybeSort srt sorted r.1).bind fun b' => readEntries b' 0 k

/-- A list of computations, stopping at the first error. Serves
`include/kdTree/knnImpl.h` lines 207-237. -/
def collect {β : Type} : List (Except Err β) → Except Err (List β)
  | [] => .ok []
  | x :: l => x.bind fun y => (collect l).map (y :: ·)

/-- `include/kdTree/knnImpl.h:207-237` (`batchKnn`) with a given tree over the positions of
`queries`: the items of the tree are the indices `0 .. n-1` (the pointer difference
`entry - queries.data()`). Row `i` of the result is `idx[i*k .. i*k+k-1]`. Each iteration of the
parallel loop uses its own part of `out` and `idx`. -/
def batchKnn {n : ℕ} (nth : Nth (Fin n) K)
    (srt : List (Slot (Fin n) K) → List (Slot (Fin n) K))
    (dist : Point K d → Point K d → K) (queries : Fin n → Point K d) (k : ℕ)
    (t : Tree (Fin n) K d) (sorted : Bool) : Except Err (List (List (Fin n))) :=
  collect ((List.finRange n).map fun i => knnQuery nth srt dist queries k sorted t (queries i))

/-- `include/kdTree/knnImpl.h:239-260` (`bruteforceKnn`), one query. -/
def bruteQuery (nth : Nth α K) (dist : Point K d → Point K d → K) (pos : α → Point K d) (k : ℕ)
    (items : List α) (q : Point K d) : Except Err (List α) :=
  (insertItems nth dist pos q items (Buf.new k)).bind fun b =>
    (b.keepK nth).bind fun r => readEntries r.1 0 k

end Verif.KdTree
