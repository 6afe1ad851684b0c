import Verif.DynKd.Model
import Verif.BatchKd.SplitFloatModel
import Verif.KdTree.FloatModel

set_option linter.unusedSectionVars false
set_option linter.unusedVariables false

/-!
The dynamic kd-tree in rounded arithmetic. The arithmetic of the tree is the middle of a box (`dynKdTree.h:579-580`), the query
box (`dynKdTree.h:338-339`) and the distance of two points (`include/pargeo/point.h:98-105`); every operation is followed by
a rounding `fl`. Erasing, boxes and the queue only compare and are those of `Verif.DynKd.Model`.
-/

namespace Verif.DynKd

open Verif BatchKd
open Verif.KdTree (distFl)

variable {α : Type} {d : ℕ}

/-- `dynKdTree.h:560-652` (constructor of `internalNode`) as `build`, with the split value in rounded arithmetic. -/
noncomputable def buildFl (fl : ℝ → ℝ) (pos : α → Point ℝ d) (thr : ℕ) (part : Fin d → ℝ → List α → List α)
    (nth : Fin d → ℕ → List α → List α) : ℕ → Fin d → List α → Except Err (Node α ℝ d)
  | 0, _, _ => .error .fuel
  | fuel + 1, dim, L =>
    if L.length < 2 then .error .throws
    else
      let box := boxOf pos L
      let mid := midFl fl (box.lo dim) (box.hi dim)
      let P := part dim mid L
      let m := L.countP fun x => decide (pos x dim < mid)
      let child (nd : Fin d) (C : List α) : Except Err (Node α ℝ d) :=
        if C.length < thr then .ok (leaf pos C) else buildFl fl pos thr part nth fuel nd C
      if m = 0 ∨ m = L.length then
        let nd := next dim
        let h := L.length / 2
        let Q := nth nd h P
        match Q[h]? with
        | none => .error .ub
        | some c =>
          (child (next nd) (Q.take h)).bind fun l =>
            (child (next nd) (Q.drop h)).bind fun r => .ok (.node nd (pos c nd) box L.length l r)
      else
        (child (next dim) (P.take m)).bind fun l =>
          (child (next dim) (P.drop m)).bind fun r => .ok (.node dim mid box L.length l r)

/-- `dynKdTree.h:399-436` (`dataNode::insert`) and `654-724` (`internalNode::insert`) as `insert`, rebuilding leaves in rounded
arithmetic. -/
noncomputable def insertFl (fl : ℝ → ℝ) (pos : α → Point ℝ d) (thr : ℕ) (part : Fin d → ℝ → List α → List α)
    (nth : Fin d → ℕ → List α → List α) (d0 : Fin d) : Node α ℝ d → List α → Except Err (Node α ℝ d)
  | .data items box n, L =>
    if (thr : ℤ) ≤ L.length + n then
      let old := (Node.data items box n).live
      if (old.length : ℤ) = n then buildFl fl pos thr part nth (L ++ old).length d0 (L ++ old) else .error .ub
    else .ok (.data (items ++ L.map fun x => (x, true)) (L.foldl (fun b x => update b (pos x)) box) (n + L.length))
  | .node dim split box n l r, L =>
    let box' := L.foldl (fun b x => update b (pos x)) box
    let P := part dim split L
    let m := L.countP fun x => decide (pos x dim < split)
    (insertFl fl pos thr part nth d0 l (P.take m)).bind fun l' =>
      (insertFl fl pos thr part nth d0 r (P.drop m)).bind fun r' => .ok (.node dim split box' (n + L.length) l' r')

section
variable (fl : ℝ → ℝ) (pos : α → Point ℝ d) (pop : List (ℝ × α) → Option ((ℝ × α) × List (ℝ × α))) (k : ℕ)
  (q : Point ℝ d)

/-- `dynKdTree.h:330-345` (`kNNRange`): the search box with both ends rounded. -/
noncomputable def rangeFl (radius : ℝ) (t : Node α ℝ d) (b : List (ℝ × α)) : List (ℝ × α) :=
  rangeHelper pos (distFl fl) pop k q radius ⟨fun i => fl (q i - radius), fun i => fl (q i + radius)⟩ t b

/-- `dynKdTree.h:490-498, 797-805`: the visit of the sibling at the end of `kNNHelper`, as `visitSiblin`. -/
noncomputable def visitSiblinFl (siblin : Node α ℝ d) (b : List (ℝ × α)) : Except Err (List (ℝ × α)) :=
  if k ≤ b.length then
    match pop b with
    | none => .error .ub
    | some (m, _) => .ok (rangeFl fl pos pop k q m.1 siblin b)
  else .ok (insertAll pos (distFl fl) pop k q b siblin.live)

/-- `dynKdTree.h:485-500, 791-807` (`kNNHelper`) as `helper`. -/
noncomputable def helperFl : Node α ℝ d → Node α ℝ d → List (ℝ × α) → Except Err (List (ℝ × α))
  | .data items box n, siblin, b =>
    visitSiblinFl fl pos pop k q siblin (insertAll pos (distFl fl) pop k q b (Node.data items box n).live)
  | .node dim split _ _ l r, siblin, b =>
    (if q dim < split then helperFl l r b else helperFl r l b).bind (visitSiblinFl fl pos pop k q siblin)

end

/-- `dynKdTree.h:857-917` (`rootNode`, `kNN`) as `kNN`, in rounded arithmetic. -/
noncomputable def kNNFl (fl : ℝ → ℝ) (pos : α → Point ℝ d) (pop : List (ℝ × α) → Option ((ℝ × α) × List (ℝ × α)))
    (t : Node α ℝ d) (q : Point ℝ d) (k : ℕ) : Except Err (List α) :=
  match t with
  | .data _ _ _ => .error .ub
  | .node dim split _ _ l r =>
    (if q dim < split then helperFl fl pos pop k q l r [] else helperFl fl pos pop k q r l []).map fun b =>
      (drain pop b.length b).map fun e => e.2

end Verif.DynKd
