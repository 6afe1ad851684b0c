import Verif.Mst.KruskalModel
import Mathlib.Logic.Function.Basic

/-!
The two loops of a round of `speculative_for` with the Kruskal steps of `include/euclideanMst/kruskal.h`, at the
granularity of single accesses to shared memory: every iteration is a machine, and a schedule says which iteration
makes the next access. Accesses are sequentially consistent.
-/

namespace Verif.Mst

open Verif.UF

/-- Program counter of `reserve(i)`, `include/euclideanMst/kruskal.h:72-80` (also `111-119`). `findU`, `findV`: inside
`UF.find` of lines 73 and 74; `loadV`, `casV`: in the loop of `R[v].reserve(i)`, line 76, before the load and before
the compare-and-swap with expected value `c`; `loadU`, `casU`: the same for line 77; `fin b`: returned `b`. -/
inductive RPc
  | start
  | findU (pc : Pc)
  | findV (u : ℤ) (pc : Pc)
  | loadV (u v : ℤ)
  | casV (u v : ℤ) (c : Option ℕ)
  | loadU (u v : ℤ)
  | casU (u v : ℤ) (c : Option ℕ)
  | fin (b : Bool)

/-- `less(i, c)` in `write_min` for a reservation `c` (`none` is `max_idx`),
`include/euclideanMst/speculativeFor.h:38`. -/
def ltOpt (i : ℕ) : Option ℕ → Bool
  | none => true
  | some j => decide (i < j)

/-- Compare-and-swap on a reservation (`parlay::write_min`, used in `include/euclideanMst/speculativeFor.h:38`; the loop
is that of `include/pargeo/atomics.h:60-66`). `spur` is a spurious failure, which a weak compare-and-swap may have.
Returns whether it succeeded. -/
def casR (R : List (Option ℕ)) (x : ℤ) (c : Option ℕ) (i : ℕ) (spur : Bool) : Except Err (Bool × List (Option ℕ)) :=
  (rd R x).bind fun r =>
    if r = c ∧ spur = false then (wr R x (some i)).map fun R' => (true, R') else .ok (false, R)

/-- One access of `reserve(i)`, `include/euclideanMst/kruskal.h:72-80` and `111-119`. The end points of edge `i` are
accessed by iteration `i` only, so reading and overwriting them is joined to the neighbouring step. -/
def rStep {σ : Type} (i : ℕ) (spur : Bool) (s : KSt σ) : RPc → Except Err (RPc × KSt σ)
  | .start => (rd s.eu i).map fun a => (.findU (.test a), s)
  | .findU (.done u) => (wr s.eu i u).bind fun eu => (rd s.ev i).map fun b =>
      (.findV u (.test b), { s with eu := eu })
  | .findU pc => (pcStep s.P pc).map fun r => (.findU r.1, { s with P := r.2 })
  | .findV u (.done v) => (wr s.ev i v).map fun ev =>
      (if u ≠ v then .loadV u v else .fin false, { s with ev := ev })
  | .findV u pc => (pcStep s.P pc).map fun r => (.findV u r.1, { s with P := r.2 })
  | .loadV u v => (rd s.R v).map fun c => (if ltOpt i c then .casV u v c else .loadU u v, s)
  | .casV u v c => (casR s.R v c i spur).map fun r => (if r.1 then .loadU u v else .loadV u v, { s with R := r.2 })
  | .loadU u v => (rd s.R u).map fun c => (if ltOpt i c then .casU u v c else .fin true, s)
  | .casU u v c => (casR s.R u c i spur).map fun r => (if r.1 then .fin true else .loadU u v, { s with R := r.2 })
  | .fin b => .ok (.fin b, s)

/-- Program counter of `commit(i)`, `include/euclideanMst/kruskal.h:82-95` (also `121-134`). `start`: before the check of
`R[v]`; `crLoad`, `crStore`: the load and the store of `R[u].checkReset(i)`
(`include/euclideanMst/speculativeFor.h:43-46`); `checkU`: before the check of `R[u]`; `first`, `second`: before the
first and the second of the two writes that link `x` to `y` and record the edge; `fin b`: returned `b`. -/
inductive CPc
  | start
  | crLoad (u v : ℤ)
  | crStore (u v : ℤ)
  | checkU (u v : ℤ)
  | first (x y : ℤ) (side : Bool)
  | second (x y : ℤ) (side : Bool)
  | fin (b : Bool)

/-- The write to the union-find array (`linkNow`) or the record of the accepted edge. The order is
link, record in `include/euclideanMst/kruskal.h:87-88,91-92` and record, link in
`include/euclideanMst/unionFind.h:128-131`. -/
def cWrite {σ : Type} (rec : Recorder σ) (linkNow : Bool) (i : ℕ) (x y : ℤ) (side : Bool) (s : KSt σ) :
    Except Err (KSt σ) :=
  if linkNow then (link s.P x y).map fun P => { s with P := P }
  else (rec s.out i x side).map fun o => { s with out := o }

/-- One access of `commit(i)`, `include/euclideanMst/kruskal.h:82-95` and `121-134`. -/
def cStep {σ : Type} (rec : Recorder σ) (recFirst : Bool) (i : ℕ) (_spur : Bool) (s : KSt σ) :
    CPc → Except Err (CPc × KSt σ)
  | .start => (rd s.eu i).bind fun u => (rd s.ev i).bind fun v => (rd s.R v).map fun r =>
      (if r = some i then .crLoad u v else .checkU u v, s)
  | .crLoad u v => (rd s.R u).map fun r => (if r = some i then .crStore u v else .first v u true, s)
  | .crStore u v => (wr s.R u none).map fun R => (.first v u true, { s with R := R })
  | .checkU u v => (rd s.R u).map fun r => (if r = some i then .first u v false else .fin false, s)
  | .first x y side => (cWrite rec (!recFirst) i x y side s).map fun s' => (.second x y side, s')
  | .second x y side => (cWrite rec recFirst i x y side s).map fun s' => (.fin true, s')
  | .fin b => .ok (.fin b, s)

/-- `include/euclideanMst/kruskal.h:72-80`: what `reserve` returned. -/
def RPc.res : RPc → Option Bool
  | .fin b => some b
  | _ => none

/-- `include/euclideanMst/kruskal.h:82-95`: what `commit` returned. -/
def CPc.res : CPc → Option Bool
  | .fin b => some b
  | _ => none

/-- State of a parallel loop of `include/euclideanMst/speculativeFor.h:80-97`: where each iteration is, and the memory. -/
structure FSt (π σ : Type) where
  pcs : ℕ → π
  s : KSt σ

/-- The next access, by iteration `e.1`; entries for iterations that are not in the loop are skipped
(`include/euclideanMst/speculativeFor.h:80-97`). -/
def fstep {π σ : Type} (m : ℕ → Bool → KSt σ → π → Except Err (π × KSt σ)) (its : List ℕ) (st : FSt π σ) (e : ℕ × Bool) :
    Except Err (FSt π σ) :=
  if e.1 ∈ its then (m e.1 e.2 st.s (st.pcs e.1)).map fun r => ⟨Function.update st.pcs e.1 r.1, r.2⟩ else .ok st

/-- The accesses of a parallel loop (`include/euclideanMst/speculativeFor.h:80-97`) in the order of a schedule. -/
def frun {π σ : Type} (m : ℕ → Bool → KSt σ → π → Except Err (π × KSt σ)) (its : List ℕ) :
    List (ℕ × Bool) → FSt π σ → Except Err (FSt π σ)
  | [], st => .ok st
  | e :: es, st => (fstep m its st e).bind (frun m its es)

/-- A parallel loop, `include/euclideanMst/speculativeFor.h:80-97`, which ends when all iterations have returned: the
iterations that returned true, and the memory. A schedule that ends before has the outcome `fuel`. -/
def fphase {π σ : Type} (m : ℕ → Bool → KSt σ → π → Except Err (π × KSt σ)) (res : π → Option Bool) (start : π)
    (its : List ℕ) (sched : List (ℕ × Bool)) (s : KSt σ) : Except Err (List ℕ × KSt σ) :=
  (frun m its sched ⟨fun _ => start, s⟩).bind fun st =>
    if its.all fun i => (res (st.pcs i)).isSome then
      .ok (its.filter fun i => res (st.pcs i) = some true, st.s)
    else .error .fuel

/-- The environment of a run: schedules of the two loops of every round, given the number of tries left and the
iterations of the loop (`include/euclideanMst/speculativeFor.h:80-97`), and the outcome of the comparison of floats in
103-108. -/
structure FineEnv where
  schR : ℕ → List ℕ → List (ℕ × Bool)
  schC : ℕ → List ℕ → List (ℕ × Bool)
  adj : ℕ → ℕ → ℕ → Adj

/-- `include/euclideanMst/speculativeFor.h:80-97`, access by access. -/
def fineRound {σ : Type} (rec : Recorder σ) (recFirst : Bool) (env : FineEnv) : Round (KSt σ) :=
  fun fuel its s => (fphase rStep RPc.res .start its (env.schR fuel its) s).bind fun (kept, s1) =>
    (fphase (cStep rec recFirst) CPc.res .start (its.filter (· ∈ kept)) (env.schC fuel (its.filter (· ∈ kept))) s1).map
      fun (committed, s2) => (kept, committed, s2)

/-- `include/euclideanMst/kruskal.h:139-171` (`kruskal`) access by access, for an arbitrary granularity (20 in the
code). -/
def kruskalF {K : Type} [LinearOrder K] (env : FineEnv) (granularity : ℕ) (E : List (WEdge K)) (n : ℕ) :
    Except Err (List ℕ) :=
  let IW := sortEdges E
  (specForR (fineRound (flagRec (IW.map (·.2))) false env) env.adj IW.length granularity
    (kinit IW n (init n) (List.replicate IW.length false))).map fun s => packIndex s.out

/-- `include/euclideanMst/kruskal.h:173-196` (`batchKruskal`) access by access, for an arbitrary granularity (20 in the
code). -/
def batchKruskalF {K : Type} [LinearOrder K] (env : FineEnv) (granularity : ℕ) (E : List (WEdge K)) (n : ℕ)
    (uf : EdgeUF K) : Except Err (EdgeUF K) :=
  let IW := sortEdges E
  (specForR (fineRound (edgeRec IW) true env) env.adj IW.length granularity (kinit IW n uf.P uf.edges)).map fun s =>
    ⟨s.P, s.out⟩

end Verif.Mst
