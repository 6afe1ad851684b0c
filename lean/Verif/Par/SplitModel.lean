import Mathlib.Data.List.Basic
import Mathlib.Data.List.Count
import Mathlib.Data.Nat.Basic

/-!
Model of the parallel stable partition routines `split_two` and `split_k`.

The parallel loops write into an uninitialised output array. A run is modelled by the list of
single writes (position, value); the writes of different loop iterations may be executed in any
order, so the theorems quantify over all permutations of this list.
-/

namespace Verif.Par

variable {T : Type*}

/-- `parlay::internal::num_blocks` as used in `include/kdTree/treeImpl.h:47`: the number of blocks
of size `bs` that cover `n` elements. -/
def numBlocks (n bs : ℕ) : ℕ := (n + bs - 1) / bs

/-- The elements `s ≤ j < e` of block `i` handed to the body by `sliced_for`
(`include/kdTree/treeImpl.h:49-51`). -/
def block (bs : ℕ) (l : List T) (i : ℕ) : List T := (l.drop (i * bs)).take bs

/-- `include/kdTree/treeImpl.h:53-56`: the number of false flags in block `i`. -/
def sumOf (bs : ℕ) (fl : List Bool) (i : ℕ) : ℕ := (block bs fl i).count false

/-- `include/kdTree/treeImpl.h:59`: exclusive scan of `Sums` (entry `i`). -/
def scanOf (bs : ℕ) (fl : List Bool) (i : ℕ) : ℕ := ((List.range i).map (sumOf bs fl)).sum

/-- `include/kdTree/treeImpl.h:67-73`: the writes made by the inner loop of one block, with the two
running counters. -/
def blockWrites (c0 c1 : ℕ) : List (T × Bool) → List (ℕ × T)
  | [] => []
  | (x, false) :: r => (c0, x) :: blockWrites (c0 + 1) c1 r
  | (x, true) :: r => (c1, x) :: blockWrites c0 (c1 + 1) r

/-- `include/kdTree/treeImpl.h:35-77` (`split_two`, same code in
`include/dynamicKdTree/dynKdTree.h:22-64`): all writes to `Out` and the returned `m`.
Block `i` starts with `c0 = Sums[i]` and `c1 = s + (m - c0)`, `s = i * bs`. -/
def splitTwo (bs : ℕ) (inp : List T) (fl : List Bool) : List (ℕ × T) × ℕ :=
  let n := inp.length
  let l := numBlocks n bs
  let m := scanOf bs fl l
  ((List.range l).flatMap fun i =>
    let c0 := scanOf bs fl i
    let c1 := i * bs + (m - c0)
    blockWrites c0 c1 (block bs (inp.zip fl) i), m)

/-- Executing a list of writes on an uninitialised array of size `n`; a write outside the array is
undefined behaviour (`none`). Serves
`include/pargeo/parlayAddon.h` lines 62-75. -/
def runWrites (n : ℕ) (ws : List (ℕ × T)) : Option (List (Option T)) :=
  ws.foldl (fun acc w => acc.bind fun out =>
    if w.1 < out.length then some (out.set w.1 (some w.2)) else none)
    (some (List.replicate n none))

/-- `include/pargeo/parlayAddon.h:62-75`: per-block count of flag `x`. -/
def sumOfK (bs : ℕ) (fl : List ℕ) (x i : ℕ) : ℕ := (block bs fl i).count x

/-- `include/pargeo/parlayAddon.h:80`: exclusive scan for flag `x`. -/
def scanOfK (bs : ℕ) (fl : List ℕ) (x i : ℕ) : ℕ := ((List.range i).map (sumOfK bs fl x)).sum

/-- `include/pargeo/parlayAddon.h:89-96`: the writes one block makes to chunk `x`; `c` is the
running counter `c[x]`, `base` is `Sums[x].at(i)`. -/
def chunkWrites (base : ℕ) (x : ℕ) : ℕ → List (T × ℕ) → List (ℕ × T)
  | _, [] => []
  | c, (v, f) :: r =>
    if f = x then (base + c, v) :: chunkWrites base x (c + 1) r else chunkWrites base x c r

/-- `include/pargeo/parlayAddon.h:52-101` (`split_k`), seen from chunk `x`: the list of writes to
`chunks[x]` and the size of `chunks[x]`. Writes to different chunks touch different arrays, so
each chunk is looked at separately. -/
def splitK (bs : ℕ) (inp : List T) (fl : List ℕ) (x : ℕ) : List (ℕ × T) × ℕ :=
  let n := inp.length
  let l := numBlocks n bs
  ((List.range l).flatMap fun i =>
    chunkWrites (scanOfK bs fl x i) x 0 (block bs (inp.zip fl) i), scanOfK bs fl x l)

end Verif.Par
