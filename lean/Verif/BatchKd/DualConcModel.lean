import Verif.BatchKd.KnnModel
import Verif.BatchKd.CoDynModel
import Verif.Par.ForkJoin

set_option linter.unusedSectionVars false
set_option linter.unusedVariables false

/-!
The dual-tree search as a fork-join program: the branches of `parlay::par_do` run concurrently and share the field `dualKnnDist` of the
nodes of the query tree and the candidate buffers. Also the top-level functions `dualKnn` of `include/batchKdtree/shared/dual.h`.
-/

namespace Verif.BatchKd

open Verif.ForkJoin

variable {α K : Type} {d : ℕ}

/-- What the threads share: `dualKnnDist` of the nodes of the query tree, by place in the node array
(`include/batchKdtree/shared/kdnode.h:63-68`), and the buffers (`include/batchKdtree/shared/kdtree.h:461-471`). -/
structure DMem (α K : Type) where
  dd : ℕ → Option K
  bufs : List (BBuf α K)

/-- What an access returns: a distance, the answer of `hasK`, or an error (`include/batchKdtree/shared/dual.h:153-190`). -/
inductive DVal (K : Type) where
  | rad (x : Option K)
  | flag (b : Bool)
  | bad (e : Err)

/-- A program on the shared memory (`include/batchKdtree/shared/dual.h:83-234`). -/
abbrev DProg (α K : Type) := FJ (DMem α K) (DVal K) Unit

/-- Read of `dualKnnDist` of node `i` (`include/batchKdtree/shared/dual.h:156`, 201, 231). -/
def getDd (i : ℕ) (s : DMem α K) : DVal K × DMem α K := (.rad (s.dd i), s)

/-- Write of `dualKnnDist` of node `i` (`include/batchKdtree/shared/kdnode.h:178`). -/
def putDd (i : ℕ) (x : Option K) (s : DMem α K) : DVal K × DMem α K :=
  (.rad none, { s with dd := Function.update s.dd i x })

/-- Work on buffer `i` (`include/batchKdtree/shared/dual.h:175-183`); outside of the array this is undefined. The work on one buffer for
one leaf is one step. -/
def atBuf (i : ℕ) (op : BBuf α K → Except Err (BBuf α K × DVal K)) (s : DMem α K) : DVal K × DMem α K :=
  match s.bufs[i]? with
  | none => (.bad .ub, s)
  | some b => match op b with
    | .ok r => (r.2, { s with bufs := s.bufs.set i r.1 })
    | .error e => (.bad e, s)

/-- Read a `dualKnnDist` and go on with it (`include/batchKdtree/shared/dual.h:156`, 201, 231). -/
def readDd (i : ℕ) (k : Option K → DProg α K) : DProg α K :=
  .act (getDd i) fun v => match v with
    | .rad x => k x
    | .flag _ => .err .ub
    | .bad e => .err e

/-- `Q->update_dual_knn_dist` (`include/batchKdtree/shared/kdnode.h:170-180`, default mode). -/
def writeDd (i : ℕ) (x : Option K) : DProg α K := .act (putDd i x) fun _ => .ret ()

/-- Work on a buffer and go on with the distance it gives (`include/batchKdtree/shared/dual.h:175-183`). -/
def onBuf (i : ℕ) (op : BBuf α K → Except Err (BBuf α K × DVal K)) (k : Option K → DProg α K) : DProg α K :=
  .act (atBuf i op) fun v => match v with
    | .rad x => k x
    | .flag _ => .err .ub
    | .bad e => .err e

/-- `include/batchKdtree/shared/dual.h:139-150`, 216-226: two recursive calls, concurrent or one after the other. -/
def fork (b : Bool) (p q : DProg α K) : DProg α K :=
  if b then .par p q fun _ _ => .ret () else p.bind fun _ => q

section
variable [Field K] [LinearOrder K] (nth : ℕ → List (K × α) → List (K × α)) (dist : Point K d → Point K d → K)
  (pos : α → Point K d)

/-- `include/batchKdtree/shared/dual.h:171-184`: the queries `i, ..., i + n - 1` against a leaf. -/
def dualLeafP (qpos : ℕ → Option (Point K d)) (items : List α) (present : List Bool) (s e : ℕ) (k : Option K → DProg α K) :
    ℕ → ℕ → Option K → DProg α K
  | 0, _, rad => k rad
  | n + 1, i, rad =>
    match qpos i with
    | none => .err .ub
    | some q => onBuf i (fun b => (dualOne nth dist pos items present s e q b).map fun r => (r.1, .rad r.2)) fun x =>
        dualLeafP qpos items present s e k n (i + 1) (omax rad x)

/-- `this - nodes` (`include/batchKdtree/shared/kdnode.h:165`): the place of a node. -/
def BT.place : BT K d → ℕ
  | .nil => 0
  | .leaf i _ _ _ _ => i
  | .node i _ _ _ _ _ _ _ => i

/-- `include/batchKdtree/shared/dual.h:134-135`, 154, 204-212: distance of the boxes of two nodes. -/
def boxDistB (boxDist : Box K d → Box K d → K) (Q R : BT K d) : K :=
  match Q.box?, R.box? with
  | some a, some b => boxDist a b
  | _, _ => 0

/-- `include/batchKdtree/shared/kdnode.h:79-82` (`dualKnnRecurseInParallel`); `thr` is `DUALKNN_BASE_CASE`. -/
def forks (thr : ℕ) : BT K d → Bool
  | .node _ s e _ _ _ l r => !l.isNil && !r.isNil && decide (thr ≤ e - s)
  | _ => false

/-- `include/batchKdtree/shared/dual.h:83-234` (`DualKnnHelper`) as a program; `parallel` is the template argument. A null node is
undefined. -/
def dualHelperP (parallel : Bool) (thr : ℕ) (boxDist : Box K d → Box K d → K) (qpos : ℕ → Option (Point K d)) (items : List α)
    (present : List Bool) : ℕ → BT K d → BT K d → DProg α K
  | 0, _, _ => .err .fuel
  | fuel + 1, Q, R =>
    let rec' := dualHelperP parallel thr boxDist qpos items present fuel
    match Q, R with
    | .nil, _ => .err .ub
    | _, .nil => .err .ub
    | .leaf qi qs qe _ qb, .leaf _ rs re _ rb =>
      readDd qi fun dd =>
        if prunes (boxDist qb rb) dd then .ret ()
        else dualLeafP nth dist pos qpos items present rs re (fun x => writeDd qi x) (qe - qs) qs (some 0)
    | .leaf qi qs qe _ qb, .node _ rs re _ _ rb rl rr =>
      if !rl.isNil && rr.isNil then rec' Q rl
      else if rl.isNil && !rr.isNil then rec' Q rr
      else readDd qi fun dd =>
        if prunes (boxDist qb rb) dd then .ret ()
        else if rl.isNil && rr.isNil then
          dualLeafP nth dist pos qpos items present rs re (fun x => writeDd qi x) (qe - qs) qs (some 0)
        else if boxDistB boxDist Q rl < boxDistB boxDist Q rr then (rec' Q rl).bind fun _ => rec' Q rr
        else (rec' Q rr).bind fun _ => rec' Q rl
    | .node qi qs qe _ _ qb ql qr, R =>
      let update : DProg α K := readDd ql.place fun x => readDd qr.place fun y => writeDd qi (omax x y)
      if !ql.isNil && qr.isNil then rec' ql R
      else if ql.isNil && !qr.isNil then rec' qr R
      else if ql.isNil && qr.isNil then .err .ub
      else
        match R with
        | .nil => .err .ub
        | .leaf _ rs re _ rb =>
          readDd qi fun dd =>
            if prunes (boxDist qb rb) dd then .ret ()
            else if boxDistB boxDist ql R < boxDistB boxDist qr R then
              (fork (parallel && forks thr Q) (rec' ql R) (rec' qr R)).bind fun _ => update
            else (fork (parallel && forks thr Q) (rec' qr R) (rec' ql R)).bind fun _ => update
        | .node _ rs re _ _ rb rl rr =>
          if !rl.isNil && rr.isNil then rec' Q rl
          else if rl.isNil && !rr.isNil then rec' Q rr
          else readDd qi fun dd =>
            if prunes (boxDist qb rb) dd then .ret ()
            else if rl.isNil && rr.isNil then .err .ub
            else
              let lr := if boxDistB boxDist ql rl < boxDistB boxDist ql rr then (rl, rr) else (rr, rl)
              let rr' := if boxDistB boxDist qr rl < boxDistB boxDist qr rr then (rl, rr) else (rr, rl)
              let b := parallel && (forks thr Q || forks thr R)
              (fork b (rec' ql lr.1) (rec' qr rr'.1)).bind fun _ =>
                (fork b (rec' ql lr.2) (rec' qr rr'.2)).bind fun _ => update

/-- `include/batchKdtree/shared/kdtree.h:456-500` (`dualKnnBase`) under the schedule `w`: the rows, in the order of the items of the
query tree, whose nodes are fresh. The iterations of the loops that set up and finish the buffers work on one buffer each. -/
def dualKnnBaseC (parallel : Bool) (thr : ℕ) (w : ℕ → List Bool) (boxDist : Box K d → Box K d → K) {β : Type} (qp : β → Point K d)
    (Q : Tree β K d) (t : Tree α K d) (k : ℕ) : Except Err (List (List α)) :=
  ((dualHelperP nth dist pos parallel thr boxDist (fun i => (Q.items[i]?).map qp) t.items t.present
    (Q.root.height + t.root.height + 1) Q.root t.root).run w 0
    ⟨fun _ => none, List.replicate Q.curSize (BBuf.new k)⟩).bind fun r => r.2.bufs.mapM (dualRow nth k)

/-- `include/batchKdtree/shared/dual.h:42-43`, 66-67: the tree over the queries has `2^ceil(log2 n)` places. Without queries the
conversion of minus infinity to `int` is undefined. The logarithm is taken exactly. -/
def queryTreeC {β : Type} (c : CoCfg β K d) (qp : β → Point K d) (e : CoEnv K d) (queries : List β) : Except Err (Tree β K d) :=
  if queries.length = 0 then .error .ub else coBuildE c qp e (coNew (Nat.clog 2 queries.length)) queries

/-- `include/batchKdtree/shared/dual.h:34-53` (`dualKnn` on one tree) under the schedule `w`: the rows and the new value of `queries`. -/
def dualKnnC {β : Type} (c : CoCfg β K d) (qp : β → Point K d) (e : CoEnv K d) (thr : ℕ) (w : ℕ → List Bool)
    (boxDist : Box K d → Box K d → K) (t : Tree α K d) (k : ℕ) (queries : List β) : Except Err (List (List α) × List β) :=
  (queryTreeC c qp e queries).bind fun Q =>
    (dualKnnBaseC nth dist pos c.parallel thr w boxDist qp Q t k).map fun rows => (rows, Q.items)

end

end Verif.BatchKd
