import Verif.Hash.SeqModel

set_option linter.unusedSectionVars false
set_option linter.unusedVariables false

/-!
Model of the two remaining insertions of `include/convexHull3d/gift/sparse_table.h`: `insert_check`, which gives up
after 10001 probes, and `insert_f`, which combines the new value with the stored one. Both are modelled for calls
made one after the other: the compare-and-swap then succeeds on every slot that was just read as free. Concurrent
calls are the machines `checkStep` and `foldStep`.
-/

namespace Verif.Hash

variable {K V : Type} [DecidableEq K]

/-- `include/convexHull3d/gift/sparse_table.h:224-240` (the loop of `insert_check`): the slot at which the loop
stops and whether it holds the key, or `none` when more than 10000 probes were made. `n` is `n_probes`, the fuel
only serves the recursion. -/
def checkLoop (b : ℕ) (k : K) (tab : ℕ → Option K) : ℕ → ℕ → ℕ → Except Err (Option (ℕ × Bool))
  | 0, _, _ => .error .fuel
  | fuel + 1, n, h =>
    if tab h = none then .ok (some (h, false))
    else if tab h = some k then .ok (some (h, true))
    else if 10000 < n + 1 then .ok none
    else checkLoop b k tab fuel (n + 1) (incrementIndex b h)

/-- `include/convexHull3d/gift/sparse_table.h:219-242` (`insert_check`): the table afterwards, the result, and the
value of `*abort` afterwards. -/
def insertCheck (hash : K → ℕ) (fuel : ℕ) (t : Tbl K V) (k : K) (v : V) (abort : Bool) :
    Except Err (Tbl K V × Bool × Bool) :=
  if abort then .ok (t, false, true)
  else (checkLoop t.b k t.tab fuel 0 (firstIndex t.b hash k)).map fun r => match r with
    | none => (t, false, true)
    | some (_, true) => (t, false, false)
    | some (h, false) => (⟨t.b, Function.update t.tab h (some k), Function.update t.val h v⟩, true, false)

/-- `include/convexHull3d/gift/sparse_table.h:182-201` (`insert_f`): `f` is applied to the value in the slot, which
is the one of the cleared table when the key is new. The code calls a compare-and-swap of the hash function object
(line 188), which is taken to be the one of `insert`. -/
def insertF (hash : K → ℕ) (fuel : ℕ) (f : V → K × V → V) (t : Tbl K V) (k : K) (v : V) :
    Except Err (Tbl K V × Bool) :=
  (probe t.b k t.tab fuel (firstIndex t.b hash k)).map fun r =>
    if r.2 then (⟨t.b, t.tab, Function.update t.val r.1 (f (t.val r.1) (k, v))⟩, false)
    else (⟨t.b, Function.update t.tab r.1 (some k), Function.update t.val r.1 (f (t.val r.1) (k, v))⟩, true)

/-- A sequence of calls of `insert_f` (`include/convexHull3d/gift/sparse_table.h:182-201`) and their results. -/
def insertFAll (hash : K → ℕ) (fuel : ℕ) (f : V → K × V → V) (t : Tbl K V) :
    List (K × V) → Except Err (Tbl K V × List Bool)
  | [] => .ok (t, [])
  | kv :: l => (insertF hash fuel f t kv.1 kv.2).bind fun r =>
      (insertFAll hash fuel f r.1 l).map fun r' => (r'.1, r.2 :: r'.2)

/-- Concurrent calls of `insert_check` (`include/convexHull3d/gift/sparse_table.h:219-242`) with one flag: the table and
the position of every thread as in `insert` (`State`), whether a thread has looked at the flag (line 220), its
`n_probes`, and the flag. -/
structure CheckState (K V ι : Type) where
  base : State K V ι
  began : ι → Bool
  cnt : ι → ℕ
  abort : Bool

/-- `include/convexHull3d/gift/sparse_table.h:219-242` (`insert_check`): one step of thread `t`. The comparison with the
key (line 231) and a write of the flag (line 237) that follows from it are one step. -/
def checkStep {ι : Type} [DecidableEq ι] (b : ℕ) (key : ι → K) (value : ι → V) (t : ι) (s : CheckState K V ι) :
    CheckState K V ι :=
  if s.began t = false then
    if s.abort then
      { s with
        began := Function.update s.began t true
        base := { s.base with pc := Function.update s.base.pc t (.done false) } }
    else { s with began := Function.update s.began t true }
  else
    match s.base.pc t with
    | .cmp h =>
      if s.base.tab h = some (key t) then { s with base := step b key value t s.base }
      else if 10000 < s.cnt t + 1 then
        { s with
          abort := true
          cnt := Function.update s.cnt t (s.cnt t + 1)
          base := { s.base with pc := Function.update s.base.pc t (.done false) } }
      else
        { s with
          cnt := Function.update s.cnt t (s.cnt t + 1)
          base := step b key value t s.base }
    | _ => { s with base := step b key value t s.base }

/-- An execution of concurrent calls of `insert_check` (`include/convexHull3d/gift/sparse_table.h:219-242`). -/
def checkRun {ι : Type} [DecidableEq ι] (b : ℕ) (key : ι → K) (value : ι → V) (sched : List ι)
    (s : CheckState K V ι) : CheckState K V ι :=
  sched.foldl (fun s t => checkStep b key value t s) s

/-- The start of concurrent calls of `insert_check` (`include/convexHull3d/gift/sparse_table.h:219-223`). -/
def checkStart {ι : Type} (b : ℕ) (hash : K → ℕ) (key : ι → K) (tab : ℕ → Option K) (val : ℕ → V) (abort : Bool) :
    CheckState K V ι :=
  ⟨start b hash key tab val, fun _ => false, fun _ => 0, abort⟩

/-- Concurrent calls of `insert_f` (`include/convexHull3d/gift/sparse_table.h:182-201`): the table and the position of
every thread as in `insert` (`State`), and the slot to which a thread that found its key still has to apply the
function (line 195). Its result is then settled already. -/
structure FoldState (K V ι : Type) where
  base : State K V ι
  app : ι → Option ℕ

/-- `include/convexHull3d/gift/sparse_table.h:182-201` (`insert_f`): one step of thread `t`. A call of the function is
one atomic step, as with `write_add` or `write_min`. -/
def foldStep {ι : Type} [DecidableEq ι] (b : ℕ) (f : V → K × V → V) (key : ι → K) (value : ι → V) (t : ι)
    (s : FoldState K V ι) : FoldState K V ι :=
  match s.app t with
  | some h =>
    { base := { s.base with val := Function.update s.base.val h (f (s.base.val h) (key t, value t)) }
      app := Function.update s.app t none }
  | none =>
    match s.base.pc t with
    | .store h =>
      { s with
        base :=
          { s.base with
            val := Function.update s.base.val h (f (s.base.val h) (key t, value t))
            pc := Function.update s.base.pc t (.done true) } }
    | .cmp h =>
      if s.base.tab h = some (key t) then
        { base := step b key value t s.base
          app := Function.update s.app t (some h) }
      else { s with base := step b key value t s.base }
    | _ => { s with base := step b key value t s.base }

/-- An execution of concurrent calls of `insert_f` (`include/convexHull3d/gift/sparse_table.h:182-201`). -/
def foldRun {ι : Type} [DecidableEq ι] (b : ℕ) (f : V → K × V → V) (key : ι → K) (value : ι → V) (sched : List ι)
    (s : FoldState K V ι) : FoldState K V ι :=
  sched.foldl (fun s t => foldStep b f key value t s) s

/-- The start of concurrent calls of `insert_f` (`include/convexHull3d/gift/sparse_table.h:184-185`). -/
def foldStart {ι : Type} (b : ℕ) (hash : K → ℕ) (key : ι → K) (tab : ℕ → Option K) (val : ℕ → V) : FoldState K V ι :=
  ⟨start b hash key tab val, fun _ => none⟩

end Verif.Hash
