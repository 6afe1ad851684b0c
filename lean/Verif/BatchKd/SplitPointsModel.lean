import Mathlib.Data.List.Basic
import Mathlib.Data.Nat.Log
import Verif.Outcome

set_option linter.unusedSectionVars false
set_option linter.unusedVariables false

/-!
Model of the tables of `include/batchKdtree/cache-oblivious/utils.h` that tell the cache-oblivious tree
how many items go into each subtree. Machine integers are natural numbers.
-/

namespace Verif.BatchKd

/-- One entry computed in `include/batchKdtree/cache-oblivious/utils.h:100-101`; reading outside the previous
row is undefined. -/
def splitPointAt (prev : List ℕ) (level leaf : ℕ) : Except Err ℕ :=
  match prev[leaf / 2]? with
  | none => .error .ub
  | some p => .ok (p + if leaf % 2 = 0 then 2 ^ level else 0)

/-- `include/batchKdtree/cache-oblivious/utils.h:82-104` (`initializeSplitPoints`): row `level` of the
memoised table `split_points`. -/
def splitPoints : ℕ → Except Err (List ℕ)
  | 0 => .ok [1]
  | l + 1 => (splitPoints l).bind fun prev =>
      (List.range (2 ^ (l + 1))).mapM (splitPointAt prev l)

/-- `include/batchKdtree/cache-oblivious/utils.h:113-115` and
`include/batchKdtree/cache-oblivious/cokdtree.h:317`: the number of items of a subtree with split point
`s`. -/
def bucketSize (perLeaf remainder s : ℕ) : ℕ := perLeaf + if s ≤ remainder then 1 else 0

/-- `include/batchKdtree/cache-oblivious/cokdtree.h:299-317`: the sizes of the `2 ^ l` subtrees of a set of `n`
items. -/
def bucketSizes (l n : ℕ) : Except Err (List ℕ) :=
  (splitPoints l).map fun sp => sp.map (bucketSize (n / 2 ^ l) (n % 2 ^ l))

/-- Inclusive prefix sums (`parlay::scan_inclusive`), starting with `acc`. Serves
`include/batchKdtree/cache-oblivious/utils.h` lines 107-122. -/
def inclusiveScan (acc : ℕ) : List ℕ → List ℕ
  | [] => []
  | x :: l => (acc + x) :: inclusiveScan (acc + x) l

/-- `include/batchKdtree/cache-oblivious/utils.h:107-122` (`computeLeftEndpoints`) with the arguments of
`include/batchKdtree/cache-oblivious/cokdtree.h:129-131`. -/
def leftEndpoints (l n : ℕ) : Except Err (List ℕ) :=
  (bucketSizes l n).map fun sizes => inclusiveScan 0 (0 :: sizes)

end Verif.BatchKd
