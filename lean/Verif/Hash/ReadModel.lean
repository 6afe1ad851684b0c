import Verif.Hash.Model

set_option linter.unusedSectionVars false
set_option linter.unusedVariables false

/-!
A lookup in the hash table (`contains`, `find` of `include/convexHull3d/gift/sparse_table.h`) that runs at the same
time as insertions. Every read of the table is one step. Lookups write nothing, so one lookup stands for any number
of them.
-/

namespace Verif.Hash

variable {K V ι : Type} [DecidableEq K] [DecidableEq ι]

/-- Where a lookup is (`include/convexHull3d/gift/sparse_table.h:258-282`): before the comparison with the key (261,
274), before the test for an empty slot (263, 276), before the read of the value (275), or finished: with the value
read, or with nothing found. -/
inductive ReadPC (V : Type) where
  | look (h : ℕ)
  | test (h : ℕ)
  | load (h : ℕ)
  | done (r : Option V)

/-- The state of the insertions and the position of the lookup (`include/convexHull3d/gift/sparse_table.h:258-282`). -/
structure ReadState (K V ι : Type) where
  base : State K V ι
  rd : ReadPC V

/-- `include/convexHull3d/gift/sparse_table.h:271-282` (`find`): one step. `contains` (258-269) is the same loop
without the read of the value; here it reads the value too and drops it. -/
def readStep (b : ℕ) (k : K) (s : ReadState K V ι) : ReadState K V ι :=
  match s.rd with
  | .look h => { s with rd := if s.base.tab h = some k then .load h else .test h }
  | .test h => { s with rd := if s.base.tab h = none then .done none else .look (incrementIndex b h) }
  | .load h => { s with rd := .done (some (s.base.val h)) }
  | .done _ => s

/-- An execution of the lookup (`none`) and the insertions (`some t`), in any order
(`include/convexHull3d/gift/sparse_table.h:164-180`, `258-282`). -/
def readRun (b : ℕ) (key : ι → K) (value : ι → V) (k : K) (sched : List (Option ι)) (s : ReadState K V ι) :
    ReadState K V ι :=
  sched.foldl (fun s o => match o with
    | none => readStep b k s
    | some t => { s with base := step b key value t s.base }) s

/-- A lookup is called in the state `s` of the insertions (`include/convexHull3d/gift/sparse_table.h:259`, `272`). -/
def readStart (b : ℕ) (hash : K → ℕ) (k : K) (s : State K V ι) : ReadState K V ι := ⟨s, .look (firstIndex b hash k)⟩

end Verif.Hash
