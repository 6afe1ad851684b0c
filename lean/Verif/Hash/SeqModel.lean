import Verif.Hash.Model
import Mathlib.Data.Nat.Log

set_option linter.unusedSectionVars false
set_option linter.unusedVariables false

/-!
Model of the sequential operations and of the life cycle of `include/convexHull3d/gift/sparse_table.h`: the
constructor's size, `insert_seq`, `mark_seq`, `contains`, `find`, `map`/`entries`, `clear` and `resize`. As in
`Verif.Hash.Model` a slot without a key is `none` (the code's `empty_key`); the key `empty_key - 1`, which
`mark_seq` writes over a deleted key, is the parameter `tomb`.
-/

namespace Verif.Hash

variable {K V : Type} [DecidableEq K]

/-- `include/convexHull3d/gift/sparse_table.h:40-46`: the fields `m = 2 ^ b` and `table`, keys and values apart. -/
structure Tbl (K V : Type) where
  b : ℕ
  tab : ℕ → Option K
  val : ℕ → V

/-- `include/convexHull3d/gift/sparse_table.h:124-136` (constructor): `log2_up((size_t)(1.1 * _m) + 1)` for the
default factor; the product is taken exactly. -/
def initBits (m : ℕ) : ℕ := Nat.clog 2 (11 * m / 10 + 1)

/-- `include/convexHull3d/gift/sparse_table.h:52-54,133-134` (constructor, `clearA`): a cleared table. -/
def newTbl (m : ℕ) (empty : V) : Tbl K V := ⟨initBits m, emptyTab, fun _ => empty⟩

/-- The loop shared by `insert_seq` (`sparse_table.h:206-215`) and `mark_seq` (`246-255`): the slot at which the
loop stops, and whether it holds the key. The fuel bounds the number of probes. -/
def probe (b : ℕ) (k : K) (tab : ℕ → Option K) : ℕ → ℕ → Except Err (ℕ × Bool)
  | 0, _ => .error .fuel
  | fuel + 1, h =>
    if tab h = none then .ok (h, false)
    else if tab h = some k then .ok (h, true)
    else probe b k tab fuel (incrementIndex b h)

/-- `include/convexHull3d/gift/sparse_table.h:203-217` (`insert_seq`). -/
def insertSeq (hash : K → ℕ) (fuel : ℕ) (t : Tbl K V) (k : K) (v : V) : Except Err (Tbl K V × Bool) :=
  (probe t.b k t.tab fuel (firstIndex t.b hash k)).map fun r =>
    if r.2 then (t, false)
    else (⟨t.b, Function.update t.tab r.1 (some k), Function.update t.val r.1 v⟩, true)

/-- `include/convexHull3d/gift/sparse_table.h:244-256` (`mark_seq`): the key becomes `empty_key - 1`, the value
stays. -/
def markSeq (hash : K → ℕ) (tomb : K) (fuel : ℕ) (t : Tbl K V) (k : K) : Except Err (Tbl K V) :=
  (probe t.b k t.tab fuel (firstIndex t.b hash k)).map fun r =>
    if r.2 then ⟨t.b, Function.update t.tab r.1 (some tomb), t.val⟩ else t

/-- `include/convexHull3d/gift/sparse_table.h:293-297` (`entries`) and `284-291` (`map` visits the same slots):
the slots whose key is not `empty_key`, in table order. -/
def entries (t : Tbl K V) : List (K × V) :=
  (List.range (2 ^ t.b)).filterMap fun h => (t.tab h).map fun k => (k, t.val h)

/-- `include/convexHull3d/gift/sparse_table.h:299-301` (`clear`). -/
def clear (empty : V) (t : Tbl K V) : Tbl K V := ⟨t.b, emptyTab, fun _ => empty⟩

/-- `include/convexHull3d/gift/sparse_table.h:103-107`: the iterations of the copying loop of `resize` that insert
something. -/
abbrev Slot (t : Tbl K V) : Type := { h : Fin (2 ^ t.b) // (t.tab h).isSome }

/-- `include/convexHull3d/gift/sparse_table.h:95`: the new number of slots is `1 << log2_up(2 * (m + incoming))`. -/
def resizeBits (b incoming : ℕ) : ℕ := Nat.clog 2 (2 * (2 ^ b + incoming))

/-- `include/convexHull3d/gift/sparse_table.h:89-114` (`resize`): nothing happens unless `incoming > m`; otherwise
all entries of the old table, also the ones left by `mark_seq`, are inserted concurrently (`insert`, lines
164-180) into a cleared table of the new size. `sched` is the interleaving of the insertions. -/
def resize (hash : K → ℕ) (empty : V) (incoming : ℕ) (t : Tbl K V) (sched : List (Slot t)) : Tbl K V :=
  if 2 ^ t.b < incoming then
    let s := run (resizeBits t.b incoming) (fun h : Slot t => (t.tab h.1).get h.2) (fun h : Slot t => t.val h.1)
      sched (start (resizeBits t.b incoming) hash (fun h : Slot t => (t.tab h.1).get h.2) emptyTab fun _ => empty)
    ⟨resizeBits t.b incoming, s.tab, s.val⟩
  else t

/-- A call of a sequential operation. Serves
`include/convexHull3d/gift/sparse_table.h` lines 203-301. -/
inductive Op (K V : Type) where
  | insert (k : K) (v : V)
  | mark (k : K)
  | contains (k : K)
  | find (k : K) (dflt : V)
  | entries
  | clear

/-- What a call returns. Serves
`include/convexHull3d/gift/sparse_table.h` lines 203-301. -/
inductive Out (K V : Type) where
  | unit
  | bool (b : Bool)
  | val (v : V)
  | list (l : List (K × V))

/-- One call on the table (`include/convexHull3d/gift/sparse_table.h:203-301`, dispatch only). -/
def exec (hash : K → ℕ) (tomb : K) (empty : V) (fuel : ℕ) (t : Tbl K V) : Op K V → Except Err (Tbl K V × Out K V)
  | .insert k v => (insertSeq hash fuel t k v).map fun r => (r.1, .bool r.2)
  | .mark k => (markSeq hash tomb fuel t k).map fun r => (r, .unit)
  | .contains k => (contains t.b hash t.tab fuel k).map fun r => (t, .bool r)
  | .find k d => (find t.b hash t.tab t.val fuel k d).map fun r => (t, .val r)
  | .entries => .ok (t, .list (entries t))
  | .clear => .ok (Verif.Hash.clear empty t, .unit)

/-- A sequence of calls (`include/convexHull3d/gift/sparse_table.h:203-301`) and what they return. -/
def execAll (hash : K → ℕ) (tomb : K) (empty : V) (fuel : ℕ) (t : Tbl K V) :
    List (Op K V) → Except Err (Tbl K V × List (Out K V))
  | [] => .ok (t, [])
  | op :: ops => (exec hash tomb empty fuel t op).bind fun r =>
      (execAll hash tomb empty fuel r.1 ops).map fun r' => (r'.1, r.2 :: r'.2)

end Verif.Hash
