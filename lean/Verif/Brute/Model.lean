import Verif.BatchKd.KnnModel
import Verif.KdTree.RangeModel
import Mathlib.Order.WithBot

set_option linter.unusedSectionVars false
set_option linter.unusedVariables false

/-!
Model of the brute-force routines that have no model elsewhere: `bruteforceOrthRange` (`include/kdTree/rangeSearchImpl.h`),
`bruteforceKnn` of the batch-dynamic trees (`include/batchKdtree/shared/knnbuffer.h`) and `bruteForceParallel`
(`src/closestPair/closestPair.cpp`).
-/

namespace Verif.Brute

open Verif BatchKd

variable {α K : Type} {d : ℕ}

/-! ### `bruteforceOrthRange` -/

/-- `include/kdTree/rangeSearchImpl.h:208-213`: the test of one iteration. -/
def inRange [Field K] [LinearOrder K] (q : Point K d) (h : K) (p : Point K d) : Bool :=
  decide (∀ i, ¬ (p i > (KdTree.queryBox q h).hi i ∨ p i < (KdTree.queryBox q h).lo i))

/-- Where an iteration of `rangeSearchImpl.h:204-216` is: before the test (208-213), before `push_back` (215) reads the size
of the vector, before it writes element `n`, before it stores the size `n + 1`, or at its end. -/
inductive Phase where
  | test
  | read
  | write (n : ℕ)
  | bump (n : ℕ)
  | done
deriving DecidableEq

/-- The vector `out` (`rangeSearchImpl.h:196`) and the iterations. Simplified: the vector never has to be moved to a larger
array. -/
structure PushState where
  cell : ℕ → Option ℕ
  size : ℕ
  phase : ℕ → Phase

/-- Before the loop (`rangeSearchImpl.h:196-203`). -/
def PushState.init : PushState := ⟨fun _ => none, 0, fun _ => .test⟩

/-- The next access of iteration `t` (`rangeSearchImpl.h:204-216`); `ok t` is the outcome of its test. -/
def pushStep (ok : ℕ → Bool) (s : PushState) (t : ℕ) : PushState :=
  match s.phase t with
  | .test => { s with phase := Function.update s.phase t (if ok t then .read else .done) }
  | .read => { s with phase := Function.update s.phase t (.write s.size) }
  | .write n => { s with cell := Function.update s.cell n (some t), phase := Function.update s.phase t (.bump n) }
  | .bump n => { s with size := n + 1, phase := Function.update s.phase t .done }
  | .done => s

/-- The accesses in the order of a schedule (`rangeSearchImpl.h:204-216`). -/
def pushRun (ok : ℕ → Bool) (s : PushState) (sched : List ℕ) : PushState := sched.foldl (pushStep ok) s

/-- `rangeSearchImpl.h:217`: the vector; an element that was never written is `none`. -/
def PushState.out (s : PushState) : List (Option ℕ) := (List.range s.size).map s.cell

/-- `rangeSearchImpl.h:191-218` (`bruteforceOrthRange`) under a schedule of the accesses of its iterations. -/
def orthRange [Field K] [LinearOrder K] (A : List (Point K d)) (q : Point K d) (h : K) (sched : List ℕ) : PushState :=
  pushRun (fun t => (A[t]?).any (inRange q h)) .init sched

/-! ### `bruteforceKnn` -/

section
variable [Field K] [LinearOrder K] (nth : ℕ → List (K × α) → List (K × α)) (dist : Point K d → Point K d → K)
  (pos : α → Point K d)

/-- `include/batchKdtree/shared/knnbuffer.h:91-103`: one query. -/
def knnRow (items : List α) (k : ℕ) (q : Point K d) : Except Err (List α) :=
  (addItems nth dist pos q none items (BBuf.new k)).bind fun b =>
    (b.keepK nth).map fun r => (r.1.elems.take k).map fun x => x.2

/-- `include/batchKdtree/shared/knnbuffer.h:86-106` (`bruteforceKnn`): every point against all points; each iteration has its
own part of `out` and `idx`. -/
def bruteforceKnn (items : List α) (k : ℕ) : Except Err (List (List α)) :=
  items.mapM fun x => knnRow nth dist pos items k (pos x)

end

/-! ### `bruteForceParallel` -/

/-- `src/closestPair/closestPair.cpp:42-56` (`pointPair`): two positions of the array and the distance, `⊤` for `floatMax`. -/
structure Pair (K : Type) where
  u : ℕ
  v : ℕ
  dist : WithTop K

/-- `src/closestPair/closestPair.cpp:96-100`: the distance of the entry for the positions `i`, `j`. -/
def entryDist (dist : Point K d → Point K d → K) (P : List (Point K d)) (i j : ℕ) : WithTop K :=
  if i = j then ⊤ else
    match P[i]?, P[j]? with
    | some p, some q => (dist p q : WithTop K)
    | _, _ => ⊤

/-- `src/closestPair/closestPair.cpp:93-102`: the array `A`, entry `i + j * n` for the positions `i`, `j`. -/
def allPairs (dist : Point K d → Point K d → K) (P : List (Point K d)) : List (Pair K) :=
  (List.range P.length).flatMap fun j => (List.range P.length).map fun i => ⟨i, j, entryDist dist P i j⟩

/-- `src/closestPair/closestPair.cpp:91-105` (`bruteForceParallel`); `pick` is `min_element`, `none` for the end of an empty
range, which is then read. -/
def bruteForceParallel (pick : List (Pair K) → Option (Pair K)) (dist : Point K d → Point K d → K)
    (P : List (Point K d)) : Except Err (Pair K) :=
  match pick (allPairs dist P) with
  | some r => .ok r
  | none => .error .ub

/-- Contract of `parlay::min_element` with the order of distances. Serves
`src/closestPair/closestPair.cpp` lines 91-105. -/
def PickMin [LinearOrder K] (pick : List (Pair K) → Option (Pair K)) : Prop :=
  ∀ l, (l = [] → pick l = none) ∧ (l ≠ [] → ∃ r, pick l = some r ∧ r ∈ l ∧ ∀ x ∈ l, r.dist ≤ x.dist)

end Verif.Brute
