import Verif.BatchKd.TreeModel

set_option linter.unusedSectionVars false
set_option linter.unusedVariables false

/-!
The self-check `verify` of the batch kd-trees (`include/batchKdtree/shared/kdnode.h`, `include/batchKdtree/shared/kdtree.h`).
-/

namespace Verif.BatchKd

variable {α K : Type} {d : ℕ}

/-- `include/batchKdtree/shared/kdnode.h:248-251` (`countPoints`). Following a null pointer is undefined. An inner node that lost
both children would count as a leaf with the count it was constructed with; the updates never produce one
(`Good` excludes it), so it is taken as undefined. -/
def countPoints : BT K d → Except Err ℕ
  | .nil => .error .ub
  | .leaf _ _ _ cnt _ => .ok cnt
  | .node _ _ _ _ _ _ l r => (countPoints l).bind fun a => (countPoints r).map fun b => a + b

/-- `include/batchKdtree/shared/kdnode.h:619-631` (`verify` of a node): the number of points, or an exception. -/
def verifyAt : BT K d → Except Err ℕ
  | .nil => .error .ub
  | .leaf i s e cnt b => countPoints (.leaf i s e cnt b)
  | .node _ _ _ _ _ _ l r =>
    (verifyAt l).bind fun a => (verifyAt r).bind fun b =>
      if a = b ∨ a + 1 = b then .ok (a + b) else .error .throws

/-- `include/batchKdtree/shared/kdtree.h:824-827` (`verify` of a tree). -/
def verify (t : Tree α K d) : Except Err Bool := (verifyAt t.root).map fun _ => true

end Verif.BatchKd
