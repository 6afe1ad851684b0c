import Mathlib.Data.List.Basic
import Verif.Outcome

set_option linter.unusedSectionVars false
set_option linter.unusedVariables false

/-!
Model of `include/batchKdtree/shared/bloom.h` as compiled by default (`ATOMIC_BUCKETS` defined,
`BIT_VECTOR` not). The hash function `XXH64` is an arbitrary function of the point and the array
number. Insertions run as threads that interleave at single accesses to the buckets.
-/

namespace Verif.BatchKd

/-- `include/batchKdtree/shared/bloom.h:39,51`: `NUM_ARRAYS`. -/
def numArrays : ℕ := 4

/-- `include/batchKdtree/shared/bloom.h:51,58-59`: the bucket arrays and `num_buckets`. -/
structure Bloom where
  buckets : List (List Bool)
  num : ℕ

/-- `include/batchKdtree/shared/bloom.h:61-64` (`hash`): the remainder by zero is undefined. -/
def Bloom.idx {P : Type} (b : Bloom) (h : P → ℕ → ℕ) (p : P) (j : ℕ) : Except Err ℕ :=
  if b.num = 0 then .error .ub else .ok (h p j % b.num)

/-- `include/batchKdtree/shared/bloom.h:69-79` (`get`). -/
def Bloom.get (b : Bloom) (j i : ℕ) : Except Err Bool :=
  match b.buckets[j]? with
  | none => .error .ub
  | some a => match a[i]? with
    | none => .error .ub
    | some x => .ok x

/-- `include/batchKdtree/shared/bloom.h:89-90`: `compare_exchange_strong(exp, 1)` with `exp = 0`. -/
def Bloom.cas (b : Bloom) (j i : ℕ) : Except Err Bloom :=
  match b.buckets[j]? with
  | none => .error .ub
  | some a => match a[i]? with
    | none => .error .ub
    | some x => .ok { b with buckets := b.buckets.set j (if x then a else a.set i true) }

/-- `include/batchKdtree/shared/bloom.h:98-115`: a new filter. The constructor does not initialise the
atomic buckets, so their content `init` is arbitrary. -/
def Bloom.new (numPoints : ℕ) (init : ℕ → ℕ → Bool) : Bloom :=
  { buckets := (List.range numArrays).map fun j => (List.range (numPoints * 2)).map (init j)
    num := numPoints * 2 }

/-- `include/batchKdtree/shared/bloom.h:125-131` (`clear`). -/
def Bloom.clear (b : Bloom) : Bloom :=
  { b with buckets := b.buckets.map fun a => a.map fun _ => false }

/-- A thread inserting one point (`include/batchKdtree/shared/bloom.h:136-145`): array number `j` of the
loop, and whether `set` (lines 81-96) has already seen the bucket empty and is about to
compare-and-swap it. -/
structure BThread where
  j : ℕ
  sawEmpty : Bool

/-- One access of a thread inserting `p`, `include/batchKdtree/shared/bloom.h:81-96,140-143`. -/
def bloomStep {P : Type} (h : P → ℕ → ℕ) (p : P) (b : Bloom) (t : BThread) :
    Except Err (Bloom × BThread) :=
  if numArrays ≤ t.j then .ok (b, t)
  else (b.idx h p t.j).bind fun i =>
    if t.sawEmpty then (b.cas t.j i).map fun b' => (b', ⟨t.j + 1, false⟩)
    else (b.get t.j i).map fun x => (b, if x then ⟨t.j + 1, false⟩ else ⟨t.j, true⟩)

/-- Filter and threads. Serves
`include/batchKdtree/shared/bloom.h` lines 136-145. -/
structure BSys where
  b : Bloom
  ts : List BThread

/-- Thread number `t` of `include/batchKdtree/shared/bloom.h:136-145` makes one access. -/
def bsysStep {P : Type} (h : P → ℕ → ℕ) (pts : List P) (s : BSys) (t : ℕ) : Except Err BSys :=
  match pts[t]?, s.ts[t]? with
  | some p, some th => (bloomStep h p s.b th).map fun r => ⟨r.1, s.ts.set t r.2⟩
  | _, _ => .ok s

/-- `include/batchKdtree/shared/bloom.h:133-148` (`insert`) executed with the interleaving `sched`. -/
def bloomRun {P : Type} (h : P → ℕ → ℕ) (pts : List P) : List ℕ → BSys → Except Err BSys
  | [], s => .ok s
  | t :: sched, s => (bsysStep h pts s t).bind (bloomRun h pts sched)

/-- All threads at their beginning. Serves
`include/batchKdtree/shared/bloom.h` lines 136-146. -/
def bloomStart {P : Type} (b : Bloom) (pts : List P) : BSys := ⟨b, pts.map fun _ => ⟨0, false⟩⟩

/-- The parallel loop has ended (`include/batchKdtree/shared/bloom.h:136-146`). -/
def BSys.finished (s : BSys) : Prop := ∀ t ∈ s.ts, numArrays ≤ t.j

/-- The loop of `include/batchKdtree/shared/bloom.h:156-162` over the arrays `js`. -/
def mightContainLoop {P : Type} (h : P → ℕ → ℕ) (b : Bloom) (p : P) : List ℕ → Except Err Bool
  | [] => .ok true
  | j :: js => (b.idx h p j).bind fun i => (b.get j i).bind fun x =>
      if x then mightContainLoop h b p js else .ok false

/-- `include/batchKdtree/shared/bloom.h:156-162` (`might_contain`). -/
def Bloom.mightContain {P : Type} (h : P → ℕ → ℕ) (b : Bloom) (p : P) : Except Err Bool :=
  mightContainLoop h b p (List.range numArrays)

end Verif.BatchKd
