import Verif.KdTree.FloatModel
import Verif.KdTree.KnnModel

set_option linter.unusedSectionVars false
set_option linter.unusedVariables false

/-!
The `k` nearest neighbour search of the kd-tree (`include/kdTree/knnImpl.h`) in rounded arithmetic.
The loops over items and the search with a fixed radius are those of `Verif.KdTree.KnnModel`, with
the computed distance and the computed query box.
-/

namespace Verif.KdTree

open Verif.KnnBuf

variable {α : Type} {d : ℕ}

/-- `include/kdTree/knnImpl.h:143-154` (`knnRange`) in rounded arithmetic. The radius is the cost of
a buffer element; if that is a default element (cost `max()`) the box is not representable, which is
not modelled. -/
noncomputable def knnRangeFl (fl : ℝ → ℝ) (nth : Nth α ℝ) (pos : α → Point ℝ d) (q : Point ℝ d)
    (s : Slot α ℝ) (t : Tree α ℝ d) (b : Buf α ℝ) : Except Err (Buf α ℝ) :=
  match s with
  | none => .error .ub
  | some e => knnRangeHelper nth (distFl fl) pos q (queryBoxFl fl q e.1) e.1 t b

/-- `include/kdTree/knnImpl.h:184-204`: the part of `knnHelper` after the node was searched, in
rounded arithmetic; `sib` is the sibling (`tree->siblin()`), `none` at the root. -/
noncomputable def knnSiblingFl (fl : ℝ → ℝ) (nth : Nth α ℝ) (pos : α → Point ℝ d) (q : Point ℝ d)
    (sib : Option (Tree α ℝ d)) (b : Buf α ℝ) : Except Err (Buf α ℝ) :=
  if b.hasK then
    match sib with
    | none => .ok b
    | some s => (b.keepK nth).bind fun r => knnRangeFl fl nth pos q r.2 s r.1
  else
    match sib with
    | none => .error .throws
    | some s => insertItems nth (distFl fl) pos q s.items b

/-- `include/kdTree/knnImpl.h:156-205` (`knnHelper`) in rounded arithmetic. -/
noncomputable def knnHelperFl (fl : ℝ → ℝ) (nth : Nth α ℝ) (pos : α → Point ℝ d) (q : Point ℝ d) :
    Tree α ℝ d → Option (Tree α ℝ d) → Buf α ℝ → Except Err (Buf α ℝ)
  | .leaf box items, sib, b =>
    match boxCompare box ⟨q, q⟩ with
    | .excl => .ok b
    | _ => (insertItems nth (distFl fl) pos q items b).bind (knnSiblingFl fl nth pos q sib)
  | .node box l r, sib, b =>
    match boxCompare box ⟨q, q⟩ with
    | .excl => .ok b
    | _ => ((knnHelperFl fl nth pos q l (some r) b).bind
        (knnHelperFl fl nth pos q r (some l))).bind (knnSiblingFl fl nth pos q sib)

/-- `include/kdTree/knnImpl.h:224-234`: the work of `batchKnn` for one query, in rounded
arithmetic. -/
noncomputable def knnQueryFl (fl : ℝ → ℝ) (nth : Nth α ℝ)
    (srt : List (Slot α ℝ) → List (Slot α ℝ)) (pos : α → Point ℝ d) (k : ℕ) (sorted : Bool)
    (t : Tree α ℝ d) (q : Point ℝ d) : Except Err (List α) :=
  (knnHelperFl fl nth pos q t none (Buf.new k)).bind fun b =>
    (b.keepK nth).bind fun r =>
      (maybeSort srt sorted r.1).bind fun b' => readEntries b' 0 k

/-- `include/kdTree/knnImpl.h:207-237` (`batchKnn`) in rounded arithmetic, with a given tree over
the positions of `queries`; as `batchKnn` in the exact model. -/
noncomputable def batchKnnFl {n : ℕ} (fl : ℝ → ℝ) (nth : Nth (Fin n) ℝ)
    (srt : List (Slot (Fin n) ℝ) → List (Slot (Fin n) ℝ)) (queries : Fin n → Point ℝ d) (k : ℕ)
    (t : Tree (Fin n) ℝ d) (sorted : Bool) : Except Err (List (List (Fin n))) :=
  collect ((List.finRange n).map fun i => knnQueryFl fl nth srt queries k sorted t (queries i))

end Verif.KdTree
