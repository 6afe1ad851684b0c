import Verif.LogTree.DualModel
import Verif.BatchKd.DualConcModel

set_option linter.unusedSectionVars false
set_option linter.unusedVariables false

/-!
The dual-tree search over the log-structured tree as a fork-join program, and its top-level function
(`include/batchKdtree/shared/dual.h:57-79`). Default mode `DKNN_NONATOMIC_LEAF`: the trees are searched one after the other; inside
the search of one tree the branches of `parlay::par_do` and the iterations of `parlay::parallel_for` run concurrently.
-/

namespace Verif.LogTree

open Verif BatchKd ForkJoin

variable {α K : Type} {d : ℕ}

section
variable [Field K] [LinearOrder K] (pos : α → Point K d)
variable (nth : ℕ → List (K × α) → List (K × α)) (dist : Point K d → Point K d → K)

/-- `include/batchKdtree/shared/kdnode.h:125-128`: the loop over the items `i, ..., i + n - 1` of a leaf. -/
def radLoopP (k : Option K → DProg α K) : ℕ → ℕ → Option K → DProg α K
  | 0, _, rad => k rad
  | n + 1, i, rad => onBuf i (fun b => (b.keepK nth).map fun r => (r.1, .rad (some r.2.1))) fun x =>
      radLoopP k n (i + 1) (omax rad x)

/-- `include/batchKdtree/shared/kdnode.h:124-128`, 162-165: a leaf at place `i`; without `k` candidates for its first query the radius
is zero. -/
def updateLeafP (i s e : ℕ) : DProg α K :=
  .act (atBuf s fun b => .ok (b, .flag b.hasK)) fun v => match v with
    | .flag true => radLoopP nth (fun x => writeDd i x) (e - s) s (some 0)
    | .flag false => writeDd i (some 0)
    | .rad _ => .err .ub
    | .bad e => .err e

/-- `include/batchKdtree/shared/kdnode.h:111-168` (`updateDualDist`) as a program; `thr` is `BOUNDINGBOX_BASE_CASE`
(`computeBoundingBoxInParallel`, lines 75-78). -/
def updateDualP (parallel : Bool) (thr : ℕ) : BT K d → DProg α K
  | .nil => .err .ub
  | .leaf i s e _ _ => updateLeafP nth i s e
  | .node i s e _ _ _ l r =>
    if l.isNil && r.isNil then updateLeafP nth i s e
    else if parallel && (!l.isNil && !r.isNil && decide (thr ≤ e - s)) then
      (fork true (updateDualP parallel thr l) (updateDualP parallel thr r)).bind fun _ =>
        readDd l.place fun x => readDd r.place fun y => writeDd i (omax x y)
    else if r.isNil then (updateDualP parallel thr l).bind fun _ => readDd l.place fun x => writeDd i (omax (some 0) x)
    else if l.isNil then (updateDualP parallel thr r).bind fun _ => readDd r.place fun y => writeDd i (omax (some 0) y)
    else (updateDualP parallel thr l).bind fun _ => readDd l.place fun x =>
      (updateDualP parallel thr r).bind fun _ => readDd r.place fun y => writeDd i (omax (omax (some 0) x) y)

/-- `include/batchKdtree/shared/kdtree.h:350-357` (`knn` into buffers): the queries concurrently or one after the other; the one at
place `i` works on buffer `i`. The reference tree is not written, so one query is one step. -/
def knnInBufsP (parallel : Bool) {β : Type} (qp : β → Point K d) (t : Tree α K d) : List β → ℕ → DProg α K
  | [], _ => .ret ()
  | q :: qs, i =>
    fork parallel (onBuf i (fun b => (knnInto nth dist pos false false t (qp q) b).map fun b' => (b', .rad none)) fun _ => .ret ())
      (knnInBufsP parallel qp t qs (i + 1))

/-- `logtree.h:1072-1145` (`run_on_tree`). -/
def dualStepP (parallel : Bool) (thrB thr : ℕ) {β : Type} (boxDist : Box K d → Box K d → K) (qp : β → Point K d) (Q : Tree β K d)
    (t : Bool × Tree α K d) : DProg α K :=
  if t.1 then (knnInBufsP pos nth dist parallel qp t.2 (Q.items.take Q.curSize) 0).bind fun _ => updateDualP nth parallel thrB Q.root
  else dualHelperP nth dist pos parallel thr boxDist (fun i => (Q.items[i]?).map qp) t.2.items t.2.present
    (Q.root.height + t.2.root.height + 1) Q.root t.2.root

/-- `logtree.h:1159-1160`: the trees one after the other. -/
def dualTreesP (parallel : Bool) (thrB thr : ℕ) {β : Type} (boxDist : Box K d → Box K d → K) (qp : β → Point K d) (Q : Tree β K d) :
    List (Bool × Tree α K d) → DProg α K
  | [] => .ret ()
  | t :: ts => (dualStepP pos nth dist parallel thrB thr boxDist qp Q t).bind fun _ => dualTreesP parallel thrB thr boxDist qp Q ts

/-- `logtree.h:1033-1212` (`dualKnnBase`) under the schedule `w`. The iterations of the loops that set up the buffers and copy the
rows work on one buffer each. -/
def dualKnnBaseC (parallel : Bool) (thrB thr : ℕ) (w : ℕ → List Bool) {β : Type} (boxDist : Box K d → Box K d → K)
    (qp : β → Point K d) (P : Params α K d) (Q : Tree β K d) (s : LT α K d) (k : ℕ) : Except Err (List (List α)) :=
  ((dualTreesP pos nth dist parallel thrB thr boxDist qp Q (taggedTrees P s)).run w 0
    ⟨fun _ => none, List.replicate Q.curSize (BBuf.new k)⟩).bind fun r => r.2.bufs.mapM fun b => knnRow k b.elems

/-- `include/batchKdtree/shared/dual.h:57-79` (`dualKnn` on the log tree) under the schedule `w`: the rows and the new value of
`queries`. -/
def dualKnnC {β : Type} (c : CoCfg β K d) (qp : β → Point K d) (e : CoEnv K d) (thrB thr : ℕ) (w : ℕ → List Bool)
    (boxDist : Box K d → Box K d → K) (P : Params α K d) (s : LT α K d) (k : ℕ) (queries : List β) :
    Except Err (List (List α) × List β) :=
  (queryTreeC c qp e queries).bind fun Q =>
    (dualKnnBaseC pos nth dist c.parallel thrB thr w boxDist qp P Q s k).map fun rows => (rows, Q.items)

end

end Verif.LogTree
