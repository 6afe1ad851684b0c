import Verif.Outcome
import Mathlib.Data.Int.Basic
import Mathlib.Data.List.Basic

/-!
Model of `include/euclideanMst/unionFind.h`. The `parents` array is a list of integers (the code uses
`vertexId = long`); an access outside the array is undefined behaviour.
-/

namespace Verif.UF

/-- `include/euclideanMst/unionFind.h:38,44-45`: the array `parents`, all roots at the beginning. -/
def init (n : ℕ) : List ℤ := List.replicate n (-1)

/-- A read of `parents[i]` in `include/euclideanMst/unionFind.h:40-88`. -/
def get (P : List ℤ) (i : ℤ) : Except Err ℤ :=
  if 0 ≤ i then
    match P[i.toNat]? with
    | some x => .ok x
    | none => .error .ub
  else .error .ub

/-- A write of `parents[i]` in `include/euclideanMst/unionFind.h:40-88`. -/
def put (P : List ℤ) (i x : ℤ) : Except Err (List ℤ) :=
  if 0 ≤ i ∧ i.toNat < P.length then .ok (P.set i.toNat x) else .error .ub

/-- `include/euclideanMst/unionFind.h:54-60`: the loop of `find`, shortcutting on the way. -/
def findLoop : ℕ → List ℤ → ℤ → ℤ → Except Err (ℤ × List ℤ)
  | 0, _, _, _ => .error .fuel
  | k + 1, P, i, p =>
    (get P p).bind fun gp => (put P i gp).bind fun P' => (get P' gp).bind fun r =>
      if r = -1 then .ok (gp, P') else findLoop k P' p gp

/-- `include/euclideanMst/unionFind.h:48-61` (`find`). The fuel is the number of elements. -/
def find (P : List ℤ) (i : ℤ) : Except Err (ℤ × List ℤ) :=
  (get P i).bind fun p =>
    if p = -1 then .ok (i, P) else
      (get P p).bind fun r => if r = -1 then .ok (p, P) else findLoop P.length P i p

/-- `include/euclideanMst/unionFind.h:80-81` (`link`). -/
def link (P : List ℤ) (u v : ℤ) : Except Err (List ℤ) := put P u v

/-- `include/euclideanMst/unionFind.h:84-87` (`tryLink`), executed without interference. -/
def tryLink (P : List ℤ) (u v : ℤ) : Except Err (Bool × List ℤ) :=
  (get P u).bind fun r => if r = -1 then (put P u v).map fun P' => (true, P') else .ok (false, P)

/-- `include/euclideanMst/unionFind.h:69-74` (`union_roots`). -/
def unionRoots (P : List ℤ) (u v : ℤ) : Except Err (List ℤ) :=
  (get P u).bind fun pu => (get P v).bind fun pv =>
    if pv < pu then (put P v (pv + pu)).bind fun P' => put P' u v
    else (put P u (pu + pv)).bind fun P' => put P' v u

/-- The way the callers join two elements: find both roots and link them if they differ
(`include/euclideanMst/kruskal.h:72-95` executed without interference;
`link(v, u)` is the first choice there). -/
def union (P : List ℤ) (a b : ℤ) : Except Err (List ℤ) :=
  (find P a).bind fun (u, P1) => (find P1 b).bind fun (v, P2) =>
    if u ≠ v then link P2 v u else .ok P2

/-- Operations of a history. Serves
`include/euclideanMst/unionFind.h` lines 48-61. -/
inductive Op
  | find (i : ℕ)
  | union (i j : ℕ)

/-- Run a history of operations of `include/euclideanMst/unionFind.h`. -/
def run : List Op → List ℤ → Except Err (List ℤ)
  | [], P => .ok P
  | .find i :: ops, P => (find P i).bind fun r => run ops r.2
  | .union i j :: ops, P => (union P i j).bind fun P' => run ops P'

/-! ### Concurrent finds -/

/-- Program counter of a thread executing `find(i)` (`include/euclideanMst/unionFind.h:48-61`), one
constructor per access to the shared array: `test i` is the check of line 49, `load i` the read of
line 50, `testP i p` the check of line 51, `loadGp i p` the read of line 55, `store i p gp` the write
of line 56, `testGp i p` the loop condition of line 59 (after lines 57-58). -/
inductive Pc
  | test (i : ℤ)
  | load (i : ℤ)
  | testP (i p : ℤ)
  | loadGp (i p : ℤ)
  | store (i p gp : ℤ)
  | testGp (i p : ℤ)
  | done (r : ℤ)

/-- One access of a finding thread, `include/euclideanMst/unionFind.h:48-61`. -/
def pcStep (P : List ℤ) : Pc → Except Err (Pc × List ℤ)
  | .test i => (get P i).map fun r => (if r = -1 then .done i else .load i, P)
  | .load i => (get P i).map fun p => (.testP i p, P)
  | .testP i p => (get P p).map fun r => (if r = -1 then .done p else .loadGp i p, P)
  | .loadGp i p => (get P p).map fun gp => (.store i p gp, P)
  | .store i p gp => (put P i gp).map fun P' => (.testGp p gp, P')
  | .testGp i p => (get P p).map fun r => (if r = -1 then .done p else .loadGp i p, P)
  | .done r => .ok (.done r, P)

/-- Steps of a concurrent execution: thread `t` makes one access of its `find`, or some thread
performs `link(u, v)` (`include/euclideanMst/unionFind.h:80-81`). -/
inductive CStep
  | thread (t : ℕ)
  | link (u v : ℕ)

/-- Shared array and the program counters of the finding threads. Serves
`include/euclideanMst/unionFind.h` lines 80-81. -/
structure CState where
  parents : List ℤ
  pcs : List Pc

/-- One step of a concurrent execution. Serves
`include/euclideanMst/unionFind.h` lines 80-81. -/
def cstep (s : CState) : CStep → Except Err CState
  | .thread t =>
    match s.pcs[t]? with
    | none => .ok s
    | some pc => (pcStep s.parents pc).map fun r => ⟨r.2, s.pcs.set t r.1⟩
  | .link u v => (link s.parents u v).map fun P => ⟨P, s.pcs⟩

/-- A concurrent execution. Serves
`include/euclideanMst/unionFind.h` lines 80-81. -/
def crun : List CStep → CState → Except Err CState
  | [], s => .ok s
  | e :: es, s => (cstep s e).bind (crun es)

end Verif.UF
