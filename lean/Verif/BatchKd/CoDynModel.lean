import Verif.BatchKd.CoModel

set_option linter.unusedSectionVars false
set_option linter.unusedVariables false

/-!
Model of the operations that change a cache-oblivious kd-tree (`include/batchKdtree/cache-oblivious/cokdtree.h`). Assertions and the
bound check of `insert` (471-479) are not part of the model (release build).
-/

namespace Verif.BatchKd

variable {α K : Type} {d : ℕ} [Field K] [LinearOrder K]

/-- `include/batchKdtree/cache-oblivious/cokdtree.h:395` with `include/batchKdtree/shared/kdtree.h:128-155`: an empty tree of
capacity `2^log2size`; `items` is an empty sequence. -/
def coNew (log2size : ℕ) : Tree α K d where
  items := []
  present := List.replicate (2 ^ log2size) true
  root := .nil
  curSize := 0
  buildSize := 0
  maxSize := 2 ^ log2size

/-- The template arguments and the library functions of a tree (`include/batchKdtree/cache-oblivious/cokdtree.h:47-52`): parallel or not,
size of a leaf, bound for parallel splits, `nth_element` and `sort`. -/
structure CoCfg (α K : Type) (d : ℕ) where
  parallel : Bool
  ls : ℕ
  thr : ℕ
  nth : Fin d → ℕ → List α → List α
  srt : Fin d → List α → List α
  d0 : Fin d

/-- What a build does not determine: the contents of the node array before it, and the order in which the iterations of the parallel
loops take place (`include/batchKdtree/cache-oblivious/cokdtree.h:138-171`). -/
structure CoEnv (K : Type) (d : ℕ) where
  mem : Mem K d
  ord : ℕ → ℕ → Bool → List ℕ

/-- `include/batchKdtree/cache-oblivious/cokdtree.h:424-466` (`build`). -/
def coBuildE (c : CoCfg α K d) (pos : α → Point K d) (e : CoEnv K d) (t : Tree α K d) (pts : List α) : Except Err (Tree α K d) :=
  coBuild c.parallel c.ls c.thr c.nth c.srt pos e.ord c.d0 e.mem t pts

/-- `include/batchKdtree/cache-oblivious/cokdtree.h:468-496` (`insert`). `gather` has `cur_size` places, so moving another number of
items out of the tree is undefined. -/
def coInsert (c : CoCfg α K d) (pos : α → Point K d) (e : CoEnv K d) (t : Tree α K d) (pts : List α) : Except Err (Tree α K d) :=
  if pts.length = 0 then .ok t
  else if t.curSize = 0 then coBuildE c pos e t pts
  else
    let g := moveElements t
    if g.1.length ≠ t.curSize then .error .ub
    else coBuildE c pos e g.2 (g.1 ++ pts)

/-- `include/batchKdtree/cache-oblivious/cokdtree.h:498-521` (`bulk_erase<true>`): erase, move the remaining items out, build over
them. (`bulk_erase<false>` is `bulkErase`.) -/
def coErase (c : CoCfg α K d) (pos : α → Point K d) (part : Fin d → K → List (Point K d) → List (Point K d)) (e : CoEnv K d)
    (t : Tree α K d) (pts : List (Point K d)) : Except Err (Tree α K d) :=
  (bulkErase pos part t pts).bind fun t1 =>
    let g := moveElements t1
    if g.1.length ≠ t1.curSize then .error .ub
    else coBuildE c pos e g.2 g.1

end Verif.BatchKd
