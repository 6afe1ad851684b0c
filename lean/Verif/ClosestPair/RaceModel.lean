import Verif.ClosestPair.Model

set_option linter.unusedSectionVars false
set_option linter.unusedVariables false

/-!
The loop of `bruteForceSerial` (`src/closestPair/closestPair.cpp:107-116`) as threads: the iterations of its `parallel_for` share
the pair `A`, and `closer` (58-64) reads and writes it without synchronisation.
-/

namespace Verif.ClosestPair.Race

variable {α K : Type} [LinearOrder K]

/-- The shared pair `A` (`closestPair.cpp:109`); `none` stands for `floatMax`. -/
structure Shared (α K : Type) where
  u : α
  v : α
  dist : Option K
deriving DecidableEq

/-- Where an iteration is inside `closer` (`closestPair.cpp:58-64`): before the test (60), or before writing `u` (61), `v` (62)
or `dist` (63). -/
inductive Phase where
  | test
  | writeU
  | writeV
  | writeDist
deriving DecidableEq

/-- An iteration of the loop (`closestPair.cpp:110-114`): the calls of `closer` still to make. -/
structure Thread (α : Type) where
  calls : List (α × α)
  phase : Phase
deriving DecidableEq

/-- One step of an iteration (`closestPair.cpp:58-64`, 111-113). -/
def step (dist : α → α → K) (s : Shared α K) (t : Thread α) : Shared α K × Thread α :=
  match t.calls with
  | [] => (s, t)
  | (u, v) :: rest =>
    match t.phase with
    | .test =>
      if (match s.dist with | none => true | some b => decide (dist u v < b)) then (s, ⟨(u, v) :: rest, .writeU⟩)
      else (s, ⟨rest, .test⟩)
    | .writeU => ({ s with u := u }, ⟨(u, v) :: rest, .writeV⟩)
    | .writeV => ({ s with v := v }, ⟨(u, v) :: rest, .writeDist⟩)
    | .writeDist => ({ s with dist := some (dist u v) }, ⟨rest, .test⟩)

/-- The iterations of the loop with the shared pair. Serves
`closestPair.cpp` lines 110-114. -/
structure State (α K : Type) where
  shared : Shared α K
  threads : List (Thread α)
deriving DecidableEq

/-- Iteration `i` makes a step. Serves
`closestPair.cpp` lines 110-114. -/
def stepAt (dist : α → α → K) (s : State α K) (i : ℕ) : State α K :=
  match s.threads[i]? with
  | none => s
  | some t =>
    let r := step dist s.shared t
    ⟨r.1, s.threads.set i r.2⟩

/-- A schedule: the iterations making steps, in order. Serves
`closestPair.cpp` lines 110-114. -/
def run (dist : α → α → K) (s : State α K) (sched : List ℕ) : State α K := sched.foldl (stepAt dist) s

/-- `closestPair.cpp:110-114`: the iterations at the start of the loop over the points `P`. -/
def threads : List α → List (Thread α)
  | [] => []
  | x :: P => ⟨P.map fun y => (x, y), .test⟩ :: threads P

/-- All iterations have ended. Serves
`closestPair.cpp` lines 58-64. -/
def Done (s : State α K) : Prop := ∀ t ∈ s.threads, t.calls = []

instance [DecidableEq α] (s : State α K) : Decidable (Done s) := by unfold Done; infer_instance

/-- A whole call of `closer` as one step (`closestPair.cpp:58-64`). -/
def closerStep (dist : α → α → K) (s : Shared α K) (c : α × α) : Shared α K :=
  if (match s.dist with | none => true | some b => decide (dist c.1 c.2 < b)) then ⟨c.1, c.2, some (dist c.1 c.2)⟩ else s

end Verif.ClosestPair.Race
