import Mathlib.Data.List.Basic
import Mathlib.Algebra.Group.Defs

/-!
Model of the compare-and-swap loops of `include/pargeo/atomics.h` as threads that interleave at the
granularity of single memory accesses.
-/

namespace Verif.Atomic

variable {α : Type}

/-- What one loop iteration does with the value it read: give up without writing (`none`) or try to
replace it (`some v`). Serves
`include/pargeo/atomics.h` lines 52-58. -/
abbrev Upd (α : Type) := α → Option α

/-- `include/pargeo/atomics.h:52-58` (and the `std::atomic` overload 60-66): `write_min` tries to
write `b` as long as `less(b, c)` for the value `c` just read. -/
def writeMin (less : α → α → Bool) (b : α) : Upd α := fun c => if less b c then some b else none

/-- `include/pargeo/atomics.h:68-74` (and 76-82): `write_max`. -/
def writeMax (less : α → α → Bool) (b : α) : Upd α := fun c => if less c b then some b else none

/-- `include/pargeo/atomics.h:28-34` (`fetch_and_add`) and 36-50 (`write_add`). -/
def addUpd [Add α] (b : α) : Upd α := fun c => some (c + b)

/-- Program counter of a thread inside its loop: about to read, about to compare-and-swap the value
`c` it read by `v`, or finished; `done old ok` records the last value read and whether the
compare-and-swap of this thread succeeded (the variable `r` of `write_min`/`write_max`). Serves
`include/pargeo/atomics.h` lines 28-82. -/
inductive Pc (α : Type)
  | read
  | cas (c v : α)
  | done (old : α) (ok : Bool)

/-- A memory cell shared by threads, each running one loop. Serves
`include/pargeo/atomics.h` lines 28-82. -/
structure Sys (α : Type) where
  mem : α
  pcs : List (Pc α)

/-- One memory access by a thread in the loops `include/pargeo/atomics.h:28-82`: either the load,
directly followed by the local decision, or the compare-and-swap (strong, lines 9-26), which compares
the current value with the one loaded before. -/
def stepPc [DecidableEq α] (f : Upd α) (mem : α) : Pc α → α × Pc α
  | .read => match f mem with
    | none => (mem, .done mem false)
    | some v => (mem, .cas mem v)
  | .cas c v => if mem = c then (v, .done c true) else (mem, .read)
  | .done old ok => (mem, .done old ok)

/-- Thread `t` makes one step of `include/pargeo/atomics.h:28-82`; steps of non-existing threads
do nothing. -/
def step [DecidableEq α] (fs : List (Upd α)) (s : Sys α) (t : ℕ) : Sys α :=
  match fs[t]?, s.pcs[t]? with
  | some f, some pc =>
    let r := stepPc f s.mem pc
    ⟨r.1, s.pcs.set t r.2⟩
  | _, _ => s

/-- All threads before their first access in `include/pargeo/atomics.h:28-82`. -/
def start (fs : List (Upd α)) (init : α) : Sys α := ⟨init, fs.map fun _ => .read⟩

/-- An interleaving: the list of threads in the order of their memory accesses. Serves
`include/pargeo/atomics.h` lines 28-82. -/
def exec [DecidableEq α] (fs : List (Upd α)) (init : α) (sched : List ℕ) : Sys α :=
  sched.foldl (step fs) (start fs init)

end Verif.Atomic
