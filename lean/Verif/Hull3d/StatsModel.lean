import Verif.Hull3d.CheckModel

set_option linter.unusedSectionVars false
set_option linter.unusedVariables false

/-!
Model of `checkReset` and `stats` of `include/convexHull3d/parallelQuickHull/hullImpl.h`, on any memory of facets. The counters of
`stats`, of type `double`, are natural numbers here (they are exact below `2 ^ 53`).
-/

namespace Verif.Hull3d

open Verif

variable {V : Type} [DecidableEq V]

/-- `include/convexHull3d/parallelQuickHull/linkedFacet.h:64,130`: `reservation` has type `size_t`, in which `-1` is the largest number. -/
def unreserved : ℕ := 2 ^ 64 - 1

/-- `include/convexHull3d/parallelQuickHull/hullImpl.h:546-555` (`checkReset`); `res f` is `f->reservation`. -/
def checkReset (fuel : ℕ) (t : Topo V) (res : ℕ → ℕ) : Except Err Bool :=
  dfs t (fun ok f => .ok (if res f ≠ unreserved then false else ok)) fuel [some t.H] [] true

/-- `include/convexHull3d/parallelQuickHull/hullImpl.h:558-562`: the counters of `stats`. `none` stands for the first values of
`minPts` and `maxPts`, the largest and the lowest number. -/
structure Stats where
  numFacet : ℕ
  nonEmpty : ℕ
  totalPts : ℕ
  minPts : Option ℕ
  maxPts : Option ℕ
deriving DecidableEq

/-- `include/convexHull3d/parallelQuickHull/hullImpl.h:566-574`: the effect of a facet with `n` points on the counters. -/
def Stats.count (s : Stats) (n : ℕ) : Stats where
  numFacet := s.numFacet + 1
  totalPts := s.totalPts + n
  nonEmpty := if 0 < n then s.nonEmpty + 1 else s.nonEmpty
  minPts := if 0 < n then some (s.minPts.elim n fun m => min m n) else s.minPts
  maxPts := if 0 < n then some (s.maxPts.elim n fun m => max m n) else s.maxPts

/-- `include/convexHull3d/parallelQuickHull/hullImpl.h:557-587` (`stats`): what it prints. -/
def stats (fuel : ℕ) (t : Topo V) : Except Err Stats :=
  dfs t (fun s f => .ok (s.count (t.pts f).length)) fuel [some t.H] [] ⟨0, 0, 0, none, none⟩

end Verif.Hull3d
