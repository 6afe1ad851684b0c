import Verif.Outcome
import Mathlib.Data.Nat.Notation
import Mathlib.Data.List.Count

set_option linter.unusedVariables false

/-!
Model of the sibling pointers in `internalNode::insert` (`include/dynamicKdTree/dynKdTree.h:687-720`).

When both children are replaced by new nodes, the lambdas `insertLeft` (687-699) and `insertRight` (701-713) delete and
overwrite their own child and then set the sibling pointers of both children. For batches of at least 2000 points they run in
parallel (715-720). Memory is sequentially consistent and each statement from the `delete` on is one step; using a deleted node is undefined.
-/

namespace Verif.DynKd.Siblin

/-- The nodes involved: the old and the new child on each side. Serves
`dynKdTree.h` lines 540-542. -/
inductive Ptr where
  | oldL
  | newL
  | oldR
  | newR
deriving DecidableEq

/-- `left` and `right` of the parent (`dynKdTree.h:540-542`), which nodes are deleted, and the field `siblin` of each node
(358, 538). -/
structure St where
  left : Ptr
  right : Ptr
  deleted : Ptr → Bool
  siblin : Ptr → Option Ptr

/-- Before the assignments: the old children are siblings (`dynKdTree.h:648-650`), the new ones have no sibling yet. -/
def start : St where
  left := .oldL
  right := .oldR
  deleted := fun _ => false
  siblin := fun p => match p with
    | .oldL => some .oldR
    | .oldR => some .oldL
    | _ => none

/-- `p->setSiblin(q)` (`dynKdTree.h:370, 556`). -/
def setSiblin (s : St) (p q : Ptr) : Except Err St :=
  if s.deleted p then .error .ub else .ok { s with siblin := fun x => if x = p then some q else s.siblin x }

/-- The statements of `insertLeft` (`dynKdTree.h:692-696`): `delete left; left = newLeft; left->setSiblin(right);
right->setSiblin(left);`. -/
def stepL (pc : ℕ) (s : St) : Except Err St :=
  match pc with
  | 0 => if s.deleted s.left then .error .ub else .ok { s with deleted := fun x => decide (x = s.left) || s.deleted x }
  | 1 => .ok { s with left := .newL }
  | 2 => setSiblin s s.left s.right
  | 3 => setSiblin s s.right s.left
  | _ => .ok s

/-- The statements of `insertRight` (`dynKdTree.h:706-710`). -/
def stepR (pc : ℕ) (s : St) : Except Err St :=
  match pc with
  | 0 => if s.deleted s.right then .error .ub else .ok { s with deleted := fun x => decide (x = s.right) || s.deleted x }
  | 1 => .ok { s with right := .newR }
  | 2 => setSiblin s s.left s.right
  | 3 => setSiblin s s.right s.left
  | _ => .ok s

/-- An execution: the schedule says which thread makes the next step (`true`: `insertLeft`); `i` and `j` are the program
counters. Serves
`dynKdTree.h` lines 706-710. -/
def run : List Bool → ℕ → ℕ → St → Except Err St
  | [], _, _, s => .ok s
  | true :: sch, i, j, s => (stepL i s).bind (run sch (i + 1) j)
  | false :: sch, i, j, s => (stepR j s).bind (run sch i (j + 1))

end Verif.DynKd.Siblin
