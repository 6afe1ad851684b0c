import Verif.Outcome
import Mathlib.Data.List.Basic
import Mathlib.Logic.Function.Basic

set_option linter.unusedSectionVars false
set_option linter.unusedVariables false

/-!
Model of the concurrent hash table `include/convexHull3d/gift/sparse_table.h` (`insert`, `contains`, `find`,
`insert_seq`). The table has `2 ^ b` slots. A slot holds no key (`none`, the code's `empty_key`) or a key; the
key `empty_key` itself cannot be inserted. The value part of a slot is a separate array, because the code writes
it in a separate step. Every access to the key array is one step; steps of different threads may be interleaved
in any order.
-/

namespace Verif.Hash

variable {K V ι : Type} [DecidableEq K] [DecidableEq ι]

/-- `include/convexHull3d/gift/sparse_table.h:56` (`hashToRange`), `mask = 2 ^ b - 1` (line 128). -/
def hashToRange (b h : ℕ) : ℕ := h &&& (2 ^ b - 1)

/-- `include/convexHull3d/gift/sparse_table.h:57` (`firstIndex`). -/
def firstIndex (b : ℕ) (hash : K → ℕ) (k : K) : ℕ := hashToRange b (hash k)

/-- `include/convexHull3d/gift/sparse_table.h:58` (`incrementIndex`). -/
def incrementIndex (b h : ℕ) : ℕ := hashToRange b (h + 1)

/-- Where a thread is inside `insert` (lines 164-180): before the test for an empty slot (168), before the
compare-and-swap (169), before the write of the value (170), before the comparison with its key (174), or
finished with a result. -/
inductive PC where
  | probe (h : ℕ)
  | cas (h : ℕ)
  | store (h : ℕ)
  | cmp (h : ℕ)
  | done (r : Bool)
deriving DecidableEq

/-- Shared arrays and the positions of all threads. Serves
`include/convexHull3d/gift/sparse_table.h` lines 164-180. -/
structure State (K V ι : Type) where
  tab : ℕ → Option K
  val : ℕ → V
  pc : ι → PC

/-- `include/convexHull3d/gift/sparse_table.h:164-180` (`insert`): one step of thread `t`, which inserts
`(key t, value t)`. -/
def step (b : ℕ) (key : ι → K) (value : ι → V) (t : ι) (s : State K V ι) : State K V ι :=
  match s.pc t with
  | .probe h =>
    if s.tab h = none then { s with pc := Function.update s.pc t (.cas h) }
    else { s with pc := Function.update s.pc t (.cmp h) }
  | .cas h =>
    if s.tab h = none then
      { s with
        tab := Function.update s.tab h (some (key t))
        pc := Function.update s.pc t (.store h) }
    else { s with pc := Function.update s.pc t (.cmp h) }
  | .store h =>
    { s with
      val := Function.update s.val h (value t)
      pc := Function.update s.pc t (.done true) }
  | .cmp h =>
    if s.tab h = some (key t) then { s with pc := Function.update s.pc t (.done false) }
    else { s with pc := Function.update s.pc t (.probe (incrementIndex b h)) }
  | .done _ => s

/-- An execution: the threads that take the steps, in order. Serves
`include/convexHull3d/gift/sparse_table.h` lines 118-133. -/
def run (b : ℕ) (key : ι → K) (value : ι → V) (sched : List ι) (s : State K V ι) : State K V ι :=
  sched.foldl (fun s t => step b key value t s) s

/-- Concurrent insertion of `key t` for all `t` into a table: every thread starts with its first slot
(line 166). -/
def start (b : ℕ) (hash : K → ℕ) (key : ι → K) (tab : ℕ → Option K) (val : ℕ → V) : State K V ι where
  tab := tab
  val := val
  pc := fun t => .probe (firstIndex b hash (key t))

/-- `include/convexHull3d/gift/sparse_table.h:118-133` (constructor): a cleared table. -/
def emptyTab : ℕ → Option K := fun _ => none

/-- The loop of `contains` and `find`; the fuel bounds the number of probes. Serves
`include/convexHull3d/gift/sparse_table.h` lines 258-269. -/
def lookup (b : ℕ) (k : K) (tab : ℕ → Option K) : ℕ → ℕ → Except Err (Option ℕ)
  | 0, _ => .error .fuel
  | fuel + 1, h =>
    if tab h = some k then .ok (some h)
    else if tab h = none then .ok none
    else lookup b k tab fuel (incrementIndex b h)

/-- `include/convexHull3d/gift/sparse_table.h:258-269` (`contains`). -/
def contains (b : ℕ) (hash : K → ℕ) (tab : ℕ → Option K) (fuel : ℕ) (k : K) : Except Err Bool :=
  (lookup b k tab fuel (firstIndex b hash k)).map fun r => r.isSome

/-- `include/convexHull3d/gift/sparse_table.h:271-282` (`find`). -/
def find (b : ℕ) (hash : K → ℕ) (tab : ℕ → Option K) (val : ℕ → V) (fuel : ℕ) (k : K) (dflt : V) :
    Except Err V :=
  (lookup b k tab fuel (firstIndex b hash k)).map fun r => match r with
    | some h => val h
    | none => dflt

end Verif.Hash
