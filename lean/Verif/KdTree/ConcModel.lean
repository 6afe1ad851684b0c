import Verif.KdTree.Model
import Verif.Par.Local

set_option linter.unusedSectionVars false
set_option linter.unusedVariables false

/-!
The kd-tree construction of `include/kdTree/kdTree.h` and `include/kdTree/treeImpl.h` on the memory it works on: the array of item
pointers that is permuted in place, the array of flags and the array of nodes with their pointers. The branches of
`parlay::par_do` and the iterations of `parlay::parallel_for` run in parallel.
-/

namespace Verif.KdTree

open Verif.ForkJoin

variable {α K : Type} {d : ℕ}

/-- `include/kdTree/kdTree.h:196-211` (the members of `class node`): the corners `pMin`, `pMax`, the slice `items` as offset and
length in `allItems`, and the pointers `left`, `right`, `sib` as indices of the node array, `none` for `NULL`. `id` is reset by the
constructors and not used here; `k` is written and read by one call of the construction only. -/
structure NRec (K : Type) (d : ℕ) where
  box : Box K d
  off : ℕ
  len : ℕ
  left : Option ℕ
  right : Option ℕ
  sib : Option ℕ

/-- `include/kdTree/kdTree.h:123-124,143-148,159-165` and `include/kdTree/treeImpl.h:321-322`: entry `i` of `allItems`, of `flags`
and of `space`. -/
inductive Loc
  | item (i : ℕ)
  | flag (i : ℕ)
  | node (i : ℕ)
  deriving DecidableEq

/-- `include/kdTree/kdTree.h:123-124,157-165`: what the entries hold; `none` is a null item pointer, memory not yet written, or an
entry outside the array. -/
@[reducible] def Cell (α K : Type) (d : ℕ) : Loc → Type
  | .item _ => Option α
  | .flag _ => Option Bool
  | .node _ => Option (NRec K d)

/-- `include/kdTree/kdTree.h:123-124,157-165`: the memory of a construction. -/
abbrev KMem (α K : Type) (d : ℕ) : Type := ∀ l : Loc, Cell α K d l

/-- What an access returns (`include/kdTree/treeImpl.h:162,175,199,213-225`): nothing, an exception or undefined behaviour, a box, a
number of items, or the result of `split_two`. -/
inductive KVal (α K : Type) (d : ℕ)
  | unit
  | bad (e : Err)
  | box (b : Box K d)
  | cut (m : ℕ)
  | split (l : List α) (m : ℕ)

/-- Programs of the construction (`include/kdTree/treeImpl.h:160-273`); the constructor of a node returns the node. -/
abbrev KProg (α K : Type) (d : ℕ) : Type := FJ (KMem α K d) (KVal α K d) (Option (NRec K d))

/-- `include/kdTree/kdTree.h:211` (`items`): the contents of the slice of `n` items at `off`. -/
def readItems (s : KMem α K d) (off n : ℕ) : Option (List α) := (List.range n).mapM fun i => s (.item (off + i))

/-- `include/kdTree/treeImpl.h:209-213` (`flags`): the contents of the slice of `n` flags at `off`. -/
def readFlags (s : KMem α K d) (off n : ℕ) : Option (List Bool) := (List.range n).mapM fun i => s (.flag (off + i))

/-- The slice at `off` is overwritten with `l` (`include/kdTree/treeImpl.h:143-145`: the exchanges of a serial split). -/
def writeItems (s : KMem α K d) (off : ℕ) (l : List α) : KMem α K d
  | .item i => if off ≤ i ∧ i < off + l.length then l[i - off]? else s (.item i)
  | .flag i => s (.flag i)
  | .node i => s (.node i)

/-- `include/kdTree/treeImpl.h:35-77,222-223` (`split_two` on given flags). -/
def splitFlags (bs : ℕ) (items : List α) (fl : List Bool) : Except Err (List α × ℕ) :=
  let res := Par.splitTwo bs items fl
  match Par.runWrites items.length res.1 with
  | none => .error .ub
  | some out =>
    match out.mapM id with
    | none => .error .ub
    | some l => .ok (l, res.2)

/-- `include/kdTree/treeImpl.h:224-225`, `include/kdTree/kdTree.h:144-145,164-165`: `items[i] = x` in an array of `n` items. -/
def aItem (n i : ℕ) (x : Option α) (s : KMem α K d) : KVal α K d × KMem α K d :=
  if i < n then (.unit, Function.update s (.item i) x) else (.bad .ub, s)

/-- `include/kdTree/treeImpl.h:187,238-240`: `space[slot] = ...` in an array of `cap` nodes. -/
def aNode (cap slot : ℕ) (r : NRec K d) (s : KMem α K d) : KVal α K d × KMem α K d :=
  if slot < cap then (.unit, Function.update s (.node slot) (some r)) else (.bad .ub, s)

/-- `include/kdTree/treeImpl.h:191-192,244-245`: `space[slot].sib = v`. -/
def aSib (slot v : ℕ) (s : KMem α K d) : KVal α K d × KMem α K d :=
  match s (.node slot) with
  | some r => (.unit, Function.update s (.node slot) (some { r with sib := some v }))
  | none => (.bad .ub, s)

/-- One access that returns nothing, then the rest (`include/kdTree/treeImpl.h:187-192`). -/
def thenP (f : KMem α K d → KVal α K d × KMem α K d) (p : KProg α K d) : KProg α K d :=
  .act f fun v => match v with
    | .unit => p
    | .bad e => .err e
    | _ => .err .ub

section
variable [Field K] [LinearOrder K]

/-- `include/kdTree/treeImpl.h:81-122` (`boundingBoxSerial`, `boundingBoxParallel`): reads the slice. The slice is not written while
it is read, so the reads are one access. -/
def aBox (w : ℕ) (pos : α → Point K d) (usePar : Bool) (off n : ℕ) (s : KMem α K d) : KVal α K d × KMem α K d :=
  match readItems s off n with
  | none => (.bad .ub, s)
  | some l =>
    match nodeBox w pos usePar l with
    | .error e => (.bad e, s)
    | .ok b => (.box b, s)

/-- `include/kdTree/treeImpl.h:213-220`: one iteration of the loop that sets the flags, on arrays of `n` entries. -/
def aFlag (n i : ℕ) (key : α → K) (xM : K) (s : KMem α K d) : KVal α K d × KMem α K d :=
  match s (.item i) with
  | none => (.bad .ub, s)
  | some x => if i < n then (.unit, Function.update s (.flag i) (some (decide (key x < xM)))) else (.bad .ub, s)

/-- `include/kdTree/treeImpl.h:221` (`split_two(items, flags)`): reads both slices and returns a new sequence. `Out` belongs to the
call; that its parallel blocks may run in any order is `Par.c11_split_two`. -/
def aSplit (bs off n : ℕ) (s : KMem α K d) : KVal α K d × KMem α K d :=
  match readItems s off n, readFlags s off n with
  | some l, some fl =>
    match splitFlags bs l fl with
    | .error e => (.bad e, s)
    | .ok res => (.split res.1 res.2, s)
  | _, _ => (.bad .ub, s)

/-- `include/kdTree/treeImpl.h:126-157,175` (`splitItemSerial`) on the slice. No other thread works on the slice, so the call is one
access. -/
def aCut (off n : ℕ) (key : α → K) (xM : K) (s : KMem α K d) : KVal α K d × KMem α K d :=
  match readItems s off n with
  | none => (.bad .ub, s)
  | some l =>
    match splitItemSerial key xM l with
    | .error e => (.bad e, s)
    | .ok res => (.cut res.2, writeItems s off res.1)

/-- `include/kdTree/treeImpl.h:171-175,207-225`: the items of a node are split at `xM`; `k` gets the number of items on the left.
`N` is the number of all items. -/
def splitP (bs N : ℕ) (usePar : Bool) (off n : ℕ) (key : α → K) (xM : K) (k : ℕ → KProg α K d) : KProg α K d :=
  if usePar then
    (FJ.parFor none (fun i => thenP (aFlag N i key xM) (.ret none)) off n).bind fun _ =>
      .act (aSplit bs off n) fun v => match v with
        | .split l m => (FJ.parFor none (fun i => thenP (aItem N i l[i - off]?) (.ret none)) off n).bind fun _ => k m
        | .bad e => .err e
        | _ => .err .ub
  else
    .act (aCut off n key xM) fun v => match v with
      | .cut m => k m
      | .bad e => .err e
      | _ => .err .ub

/-- `include/kdTree/treeImpl.h:187-188,238-240`: `space[slot] = nodeT(...)`, the node being constructed by `p`. -/
def childP (cap slot : ℕ) (p : KProg α K d) : KProg α K d :=
  p.bind fun r => match r with
    | some r => thenP (aNode cap slot r) (.ret none)
    | none => .err .ub

/-- `include/kdTree/treeImpl.h:187-188,237-240`: the two children, in parallel or one after the other, then `k`. -/
def bothP (usePar : Bool) (p q k : KProg α K d) : KProg α K d :=
  if usePar then .par p q fun _ _ => k else p.bind fun _ => q.bind fun _ => k

/-- `include/kdTree/treeImpl.h:160-273` (`constructSerial`, `constructParallel` and the node constructors) on the memory: the node
over the `n` items at `off`, its descendants in the node array from `base` on. `N` is the number of all items, so the node array
has `2N - 1` entries. -/
def constructP (w bs N : ℕ) (pos : α → Point K d) (leafSize : ℕ) : ℕ → Bool → ℕ → ℕ → ℕ → KProg α K d
  | 0, _, _, _, _ => .err .fuel
  | fuel + 1, par, off, n, base =>
    let usePar : Bool := par && decide (n > 2000)
    .act (aBox w pos usePar off n) fun v => match v with
      | .box b =>
        if n ≤ leafSize then .ret (some ⟨b, off, n, none, none, none⟩)
        else
          match findWidest b with
          | .error e => .err e
          | .ok k =>
            splitP bs N usePar off n (fun x => pos x k) ((b.hi k + b.lo k) / 2) fun m =>
              let median := nodeMedian usePar n m
              bothP usePar
                (childP (2 * N - 1) base (constructP w bs N pos leafSize fuel usePar off median (base + 1)))
                (childP (2 * N - 1) (base + (2 * median - 1))
                  (constructP w bs N pos leafSize fuel usePar (off + median) (n - median) (base + 2 * median)))
                (thenP (aSib base (base + (2 * median - 1))) (thenP (aSib (base + (2 * median - 1)) base)
                  (.ret (some ⟨b, off, n, some base, some (base + (2 * median - 1)), none⟩))))
      | .bad e => .err e
      | _ => .err .ub

/-- `include/kdTree/kdTree.h:144-145`: the loop of the serial constructor that fills the item array, from entry `i` on. -/
def fillP (items : List α) : ℕ → ℕ → KProg α K d
  | _, 0 => .ret none
  | i, n + 1 => thenP (aItem items.length i items[i]?) (fillP items (i + 1) n)

/-- `include/kdTree/kdTree.h:126-177` (the constructors of `tree`): the item array is filled, in parallel or serially, then the root
is constructed; the root is stored in the tree object. -/
def buildP (w bs : ℕ) (pos : α → Point K d) (leafSize : ℕ) (parallel : Bool) (items : List α) : KProg α K d :=
  let fill : KProg α K d :=
    if parallel then FJ.parFor none (fun i => thenP (aItem items.length i items[i]?) (.ret none)) 0 items.length
    else fillP items 0 items.length
  fill.bind fun _ => constructP w bs items.length pos leafSize (items.length + 1) parallel 0 items.length 0

/-- `include/kdTree/kdTree.h:141-145,159-165`, `include/kdTree/treeImpl.h:321-322`: the memory when the constructor of `tree` starts:
null item pointers, flags `false`, node memory not written. -/
def mem0 (n : ℕ) : KMem α K d
  | .item _ => none
  | .flag i => if i < n then some false else none
  | .node _ => none

/-- `include/kdTree/treeImpl.h:312-338` (`build`) under the schedule `w`: the root and the memory. -/
def buildC (sched : ℕ → List Bool) (w bs : ℕ) (pos : α → Point K d) (leafSize : ℕ) (parallel : Bool) (items : List α) :
    Except Err (Option (NRec K d) × KMem α K d) :=
  FJ.run sched 0 (buildP w bs pos leafSize parallel items) (mem0 items.length)

end

end Verif.KdTree
