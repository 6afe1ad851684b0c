import Verif.BatchKd.CoModel
import Verif.BatchKd.SplitFloatModel

set_option linter.unusedSectionVars false
set_option linter.unusedVariables false

/-!
The build of the cache-oblivious kd-tree in rounded arithmetic. As in `Verif.BatchKd.SplitFloatModel`, the only
arithmetic of the build is the middle of two coordinates in a parallel split.
-/

namespace Verif.BatchKd

variable {α : Type} {d : ℕ}

/-- `include/batchKdtree/cache-oblivious/cokdtree.h:374-386` and 424-466 (`buildKdt`, `build`), with
`split_val` of `include/batchKdtree/shared/utils.h:61-63` in rounded arithmetic. -/
noncomputable def coBuildFl (fl : ℝ → ℝ) (parallel : Bool) (ls thr : ℕ) (nth : Fin d → ℕ → List α → List α)
    (srt : Fin d → List α → List α) (pos : α → Point ℝ d) (ord : ℕ → ℕ → Bool → List ℕ) (d0 : Fin d) (mem0 : Mem ℝ d)
    (t : Tree α ℝ d) (pts : List α) : Except Err (Tree α ℝ d) :=
  coBuildWith parallel ls thr nth (parallelMedianFl fl srt pos) pos ord d0 mem0 t pts

end Verif.BatchKd
