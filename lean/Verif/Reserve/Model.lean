import Verif.Outcome
import Mathlib.Order.Basic
import Mathlib.Logic.Function.Basic
import Mathlib.Data.Nat.Notation

set_option linter.unusedSectionVars false
set_option linter.unusedVariables false

/-!
Model of the reservation rounds of the parallel incremental algorithms: every contender writes its id with a
priority write into all its cells (vertices or facets), and afterwards checks whether it still owns all of them.
Threads interleave at the granularity of single memory accesses; an interleaving is the list of thread numbers in
the order of their accesses.

The priority write is modelled as `write_max` over a linear order `V`. `write_min` with the largest `size_t` as
neutral value (`src/convexHull2d/randInc/hull.cpp:44-60`,
`include/convexHull3d/parallelQuickHull/linkedFacet.h:63-72`) is the same over the dual order.
-/

namespace Verif.Reserve

variable {V : Type} [LinearOrder V]

/-- A contender of a round: its id (`v->id`, `src/delaunayTriangulation/incremental/delaunay.cpp:126`; the address of
the vertex, `src/convexHull2d/randInc/hull.cpp:54`; the address of the seen facet,
`include/convexHull3d/parallelQuickHull/linkedFacet.h:67`) and the cells it has to own, in the order of the loop. -/
structure Contender (V : Type) where
  /-- priority -/
  id : V
  /-- numbers of the cells -/
  cells : List ℕ

/-! ### Reserve phase -/

/-- Where a thread is in `src/delaunayTriangulation/incremental/delaunay.cpp:124-127`: about to load cell `i` of its
list, or about to compare-and-swap it (`include/pargeo/atomics.h:68-74`). -/
inductive RPc (V : Type)
  | load (i : ℕ)
  | cas (i : ℕ) (seen : V)

/-- Memory cells and program counters of the reserve phase. Serves
`src/delaunayTriangulation/incremental/delaunay.cpp` lines 124-127. -/
structure RState (V : Type) where
  /-- the reservation cells -/
  mem : ℕ → V
  /-- program counter per thread -/
  pc : ℕ → RPc V

/-- One memory access of thread `t` in the loop `src/delaunayTriangulation/incremental/delaunay.cpp:124-127`,
`src/convexHull2d/randInc/hull.cpp:258-264` or `include/convexHull3d/parallelQuickHull/hullImpl.h:499-515`: the load of
`write_max` with the local comparison, or its compare-and-swap, which succeeds iff the cell still has the value seen. -/
def rstep (cs : List (Contender V)) (s : RState V) (t : ℕ) : RState V :=
  match cs[t]? with
  | none => s
  | some k =>
    match s.pc t with
    | .load i =>
      match k.cells[i]? with
      | none => s
      | some c =>
        if s.mem c < k.id then ⟨s.mem, Function.update s.pc t (.cas i (s.mem c))⟩
        else ⟨s.mem, Function.update s.pc t (.load (i + 1))⟩
    | .cas i seen =>
      match k.cells[i]? with
      | none => s
      | some c =>
        if s.mem c = seen then ⟨Function.update s.mem c k.id, Function.update s.pc t (.load (i + 1))⟩
        else ⟨s.mem, Function.update s.pc t (.load i)⟩

/-- The phase `src/delaunayTriangulation/incremental/delaunay.cpp:268-272` along an interleaving. All cells are neutral
at the start. -/
def reserve (neutral : V) (cs : List (Contender V)) (sched : List ℕ) : RState V :=
  sched.foldl (rstep cs) ⟨fun _ => neutral, fun _ => .load 0⟩

/-- Thread `t` is through its list. Serves
`src/delaunayTriangulation/incremental/delaunay.cpp` lines 133-138. -/
def rdone (cs : List (Contender V)) (s : RState V) (t : ℕ) : Prop :=
  ∀ k, cs[t]? = some k → s.pc t = .load k.cells.length

/-! ### Check phase with immediate reset -/

/-- Where a thread is in `src/delaunayTriangulation/incremental/delaunay.cpp:133-138`: about to test cell `i`, or about
to reset it; and its variable `flag` (true: lost). -/
inductive CPc
  | test (i : ℕ) (flag : Bool)
  | reset (i : ℕ) (flag : Bool)

/-- Memory cells and program counters of the check phase. Serves
`src/delaunayTriangulation/incremental/delaunay.cpp` lines 133-138. -/
structure CState (V : Type) where
  /-- the reservation cells -/
  mem : ℕ → V
  /-- program counter per thread -/
  pc : ℕ → CPc

/-- One memory access of thread `t` in `src/delaunayTriangulation/incremental/delaunay.cpp:133-138` or
`src/convexHull2d/randInc/hull.cpp:277-287`: read the cell, or reset it. The plain `int` accesses of the first are taken
as atomic. The changes of the mesh by winners (lines 139-149) do not touch the cells and are left out. -/
def cstep (neutral : V) (cs : List (Contender V)) (s : CState V) (t : ℕ) : CState V :=
  match cs[t]? with
  | none => s
  | some k =>
    match s.pc t with
    | .test i fl =>
      match k.cells[i]? with
      | none => s
      | some c =>
        if s.mem c = k.id then ⟨s.mem, Function.update s.pc t (.reset i fl)⟩
        else ⟨s.mem, Function.update s.pc t (.test (i + 1) true)⟩
    | .reset i fl =>
      match k.cells[i]? with
      | none => s
      | some c => ⟨Function.update s.mem c neutral, Function.update s.pc t (.test (i + 1) fl)⟩

/-- The phase `src/delaunayTriangulation/incremental/delaunay.cpp:276-277` along an interleaving, from the cells the
reserve phase left. -/
def check (neutral : V) (cs : List (Contender V)) (mem : ℕ → V) (sched : List ℕ) : CState V :=
  sched.foldl (cstep neutral cs) ⟨mem, fun _ => .test 0 false⟩

/-- `src/delaunayTriangulation/incremental/delaunay.cpp:133-139`: thread `t` is through its list and `flag` is not set
(`some true`) or set (`some false`). -/
def won (cs : List (Contender V)) (s : CState V) (t : ℕ) : Option Bool :=
  match cs[t]?, s.pc t with
  | some k, .test i fl => if i = k.cells.length then some (!fl) else none
  | _, _ => none

/-! ### Check phase and reset phase apart -/

/-- `include/convexHull3d/parallelQuickHull/hullImpl.h:523-535` (`confirmReservation`): all checked cells have the id.
Nobody writes in this phase (`include/convexHull3d/parallelQuickHull/quickHull.h:188-215`), so the order of reads does
not matter. `k.cells` are here the facets to delete and their three neighbours. -/
def confirm (k : Contender V) (mem : ℕ → V) : Bool := k.cells.all fun c => mem c == k.id

/-- `include/convexHull3d/parallelQuickHull/hullImpl.h:537-544` (`resetReservation`) by all threads
(`quickHull.h:216-218`), along an interleaving given as the list of the cells in the order in which they are reset. -/
def wipe (neutral : V) (mem : ℕ → V) (order : List ℕ) : ℕ → V :=
  order.foldl (fun m c => Function.update m c neutral) mem

/-! ### Cells of the planar incremental hull -/

/-- `src/convexHull2d/randInc/hull.cpp:259-263`: the facets reserved, walking from `start->prev` along `next` until
`end->next`, in a ring of `m` facets numbered in order. `none`: the walk does not end within `fuel` steps. -/
def ringCells (m stop : ℕ) : ℕ → ℕ → Option (List ℕ)
  | 0, _ => none
  | fuel + 1, p =>
    if (p + 1) % m = stop then some [p] else (ringCells m stop fuel ((p + 1) % m)).map (p :: ·)

/-- `src/convexHull2d/randInc/hull.cpp:251-266`: the cells of a point whose visible facets are `start` up to, and not
including, `stop`. -/
def reservedRing (m start stop : ℕ) : Option (List ℕ) :=
  ringCells m ((stop + 1) % m) (m + 1) ((start + m - 1) % m)

/-- `src/convexHull2d/randInc/hull.cpp:360-365`: the facets the point deletes: from `start` up to, and not including,
`stop`. -/
def deletedRing (m start stop : ℕ) : Option (List ℕ) := ringCells m stop (m + 1) start

end Verif.Reserve
