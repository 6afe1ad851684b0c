import Mathlib.Logic.Function.Basic
import Mathlib.Data.Nat.Notation
import Mathlib.Data.List.Count

set_option linter.unusedSectionVars false
set_option linter.unusedVariables false

/-!
Programs on shared memory that interleave at the granularity of single memory accesses, and what holds of them if their
footprints are disjoint.
-/

namespace Verif.Par

variable {C V : Type} [DecidableEq C]

/-- The rest of a thread: one memory access at a time. Models the bodies of the parallel loop
`src/delaunayTriangulation/incremental/delaunay.cpp:276-277`. -/
inductive Prog (C V : Type)
  | done
  | abort
  | read (c : C) (k : V → Prog C V)
  | write (c : C) (x : V) (k : Prog C V)

/-- Shared memory and the rests of the threads in a parallel loop
(`src/delaunayTriangulation/incremental/delaunay.cpp:276-277`). -/
structure PState (C V : Type) where
  mem : C → V
  pc : ℕ → Prog C V

/-- One memory access of thread `t` (`src/delaunayTriangulation/incremental/delaunay.cpp:276-277`). Accesses are taken as
atomic. -/
def pstep (s : PState C V) (t : ℕ) : PState C V :=
  match s.pc t with
  | .done => s
  | .abort => s
  | .read c k => ⟨s.mem, Function.update s.pc t (k (s.mem c))⟩
  | .write c x k => ⟨Function.update s.mem c x, Function.update s.pc t k⟩

/-- The parallel loop along an interleaving, given as the list of thread numbers
(`src/delaunayTriangulation/incremental/delaunay.cpp:276-277`). -/
def prun (s : PState C V) (sched : List ℕ) : PState C V := sched.foldl pstep s

/-- Alone on memory `m`, the program makes `n` accesses, all to cells it owns, does not abort, and leaves `m'`. -/
inductive Safe (own : C → Prop) : ℕ → (C → V) → Prog C V → (C → V) → Prop
  | done (m : C → V) : Safe own 0 m .done m
  | read {n : ℕ} {m m' : C → V} {c : C} {k : V → Prog C V} (hc : own c) (h : Safe own n m (k (m c)) m') :
      Safe own (n + 1) m (.read c k) m'
  | write {n : ℕ} {m m' : C → V} {c : C} {x : V} {k : Prog C V} (hc : own c)
      (h : Safe own n (Function.update m c x) k m') : Safe own (n + 1) m (.write c x k) m'

namespace Safe

variable {own : C → Prop} {n : ℕ} {m m' : C → V} {p : Prog C V}

/-- Cells outside the footprint stay. -/
theorem frame (h : Safe own n m p m') : ∀ c, ¬ own c → m' c = m c := by
  induction h with
  | done => intro c _; rfl
  | read hc h ih => exact ih
  | write hc h ih =>
    intro c' hc'
    rw [ih c' hc', Function.update_of_ne fun e => hc' (by rw [e]; exact hc)]

theorem weaken {own' : C → Prop} (hle : ∀ c, own c → own' c) (h : Safe own n m p m') : Safe own' n m p m' := by
  induction h with
  | done => exact .done _
  | read hc h ih => exact .read (hle _ hc) ih
  | write hc h ih => exact .write (hle _ hc) ih

/-- The result is determined. -/
theorem det {own' : C → Prop} {n' : ℕ} {m'' : C → V} (h : Safe own n m p m') (h' : Safe own' n' m p m'') :
    n = n' ∧ m' = m'' := by
  induction h generalizing n' m'' with
  | done => cases h'; exact ⟨rfl, rfl⟩
  | read hc h ih =>
    cases h' with
    | read hc' h' =>
      obtain ⟨e1, e2⟩ := ih h'
      exact ⟨by rw [e1], e2⟩
  | write hc h ih =>
    cases h' with
    | write hc' h' =>
      obtain ⟨e1, e2⟩ := ih h'
      exact ⟨by rw [e1], e2⟩

/-- Only the values of the own cells matter. -/
theorem transfer (h : Safe own n m p m') : ∀ w : C → V, (∀ c, own c → w c = m c) →
    ∃ w', Safe own n w p w' ∧ (∀ c, own c → w' c = m' c) ∧ ∀ c, ¬ own c → w' c = w c := by
  induction h with
  | done m => exact fun w hw => ⟨w, .done w, hw, fun _ _ => rfl⟩
  | read hc h ih =>
    intro w hw
    obtain ⟨w', h1, h2, h3⟩ := ih w hw
    exact ⟨w', .read hc (by rw [hw _ hc]; exact h1), h2, h3⟩
  | @write n m m' c x k hc h ih =>
    intro w hw
    obtain ⟨w', h1, h2, h3⟩ := ih (Function.update w c x) (by
      intro c' hc'
      by_cases e : c' = c
      · rw [e, Function.update_self, Function.update_self]
      · rw [Function.update_of_ne e, Function.update_of_ne e, hw c' hc'])
    refine ⟨w', .write hc h1, h2, fun c' hc' => ?_⟩
    rw [h3 c' hc', Function.update_of_ne fun e => hc' (by rw [e]; exact hc)]

theorem not_abort (h : Safe own n m .abort m') : False := by cases h

theorem of_done (h : Safe own n m .done m') : m' = m := by cases h; rfl

theorem of_zero (h : Safe own 0 m p m') : p = .done := by cases h; rfl

end Safe

/-- During the interleaved run: each thread is where its solo run is, on its own cells. -/
structure Sync (own : ℕ → C → Prop) (m0 : C → V) (f : ℕ → C → V) (left : ℕ → ℕ) (s : PState C V) : Prop where
  each : ∀ t, ∃ m, Safe (own t) (left t) m (s.pc t) (f t) ∧ ∀ c, own t c → s.mem c = m c
  rest : ∀ c, (∀ t, ¬ own t c) → s.mem c = m0 c

theorem sync_step {own : ℕ → C → Prop} (hd : ∀ t t' c, own t c → own t' c → t = t') {m0 : C → V} {f : ℕ → C → V}
    {left : ℕ → ℕ} {s : PState C V} (h : Sync own m0 f left s) (t : ℕ) :
    Sync own m0 f (fun u => if u = t then left t - 1 else left u) (pstep s t) := by
  obtain ⟨m, hs, hm⟩ := h.each t
  unfold pstep
  generalize hl : left t = n at hs
  cases hp : s.pc t with
  | done =>
    rw [hp] at hs
    cases hs with
    | done =>
    refine ⟨fun u => ?_, h.rest⟩
    by_cases e : u = t
    · subst e
      refine ⟨f u, ?_, hm⟩
      simp only [if_true, hp]
      exact .done _
    · simp only [e, if_false]
      exact h.each u
  | abort =>
    rw [hp] at hs
    cases hs
  | read c k =>
    rw [hp] at hs
    cases hs with
    | read hc hs =>
    refine ⟨fun u => ?_, h.rest⟩
    by_cases e : u = t
    · subst e
      refine ⟨m, ?_, hm⟩
      simp only [if_true, Function.update_self]
      rw [hm c hc]
      exact hs
    · simp only [e, if_false, Function.update_of_ne e]
      exact h.each u
  | write c x k =>
    rw [hp] at hs
    cases hs with
    | write hc hs =>
    refine ⟨fun u => ?_, fun c' hc' => ?_⟩
    · by_cases e : u = t
      · subst e
        refine ⟨Function.update m c x, ?_, fun c' hc' => ?_⟩
        · simp only [if_true, Function.update_self]
          exact hs
        · show Function.update s.mem c x c' = _
          by_cases e : c' = c
          · rw [e, Function.update_self, Function.update_self]
          · rw [Function.update_of_ne e, Function.update_of_ne e, hm c' hc']
      · obtain ⟨m1, h1, h2⟩ := h.each u
        refine ⟨m1, ?_, fun c' hc' => ?_⟩
        · simp only [e, if_false, Function.update_of_ne e]
          exact h1
        · show Function.update s.mem c x c' = _
          rw [Function.update_of_ne fun e' => e (hd u t c' hc' (by rw [e']; exact hc)), h2 c' hc']
    · show Function.update s.mem c x c' = _
      rw [Function.update_of_ne fun e' => hc' t (by rw [e']; exact hc), h.rest c' hc']

theorem sync_run {own : ℕ → C → Prop} (hd : ∀ t t' c, own t c → own t' c → t = t') {m0 : C → V} {f : ℕ → C → V} :
    ∀ (sched : List ℕ) (left : ℕ → ℕ) (s : PState C V), Sync own m0 f left s →
      Sync own m0 f (fun u => left u - sched.count u) (prun s sched)
  | [], left, s, h => by simpa [prun] using h
  | t :: sched, left, s, h => by
    have := sync_run hd sched _ _ (sync_step hd h t)
    have e : (fun u => (if u = t then left t - 1 else left u) - sched.count u) =
        fun u => left u - (t :: sched).count u := by
      funext u
      by_cases e : u = t
      · subst e
        simp only [if_true, List.count_cons_self]
        omega
      · simp only [e, if_false]
        rw [List.count_cons_of_ne (Ne.symm e)]
    rw [e] at this
    exact this

/-- Threads with disjoint footprints: whatever the interleaving, none aborts, thread `t` is through after `n t` accesses,
and once all are through every cell has the value its owner leaves when it runs alone. -/
theorem interleave {own : ℕ → C → Prop} (hd : ∀ t t' c, own t c → own t' c → t = t') {m0 : C → V} {f : ℕ → C → V}
    {n : ℕ → ℕ} {p : ℕ → Prog C V} (hs : ∀ t, Safe (own t) (n t) m0 (p t) (f t)) (sched : List ℕ) :
    (∀ t, (prun ⟨m0, p⟩ sched).pc t ≠ .abort) ∧
    (∀ t, n t ≤ sched.count t → (prun ⟨m0, p⟩ sched).pc t = .done) ∧
    ((∀ t, (prun ⟨m0, p⟩ sched).pc t = .done) → ∀ c,
      (∀ t, own t c → (prun ⟨m0, p⟩ sched).mem c = f t c) ∧
      ((∀ t, ¬ own t c) → (prun ⟨m0, p⟩ sched).mem c = m0 c)) := by
  have h := sync_run hd sched n ⟨m0, p⟩ ⟨fun t => ⟨m0, hs t, fun _ _ => rfl⟩, fun _ _ => rfl⟩
  refine ⟨fun t e => ?_, fun t ht => ?_, fun hall c => ⟨fun t hc => ?_, h.rest c⟩⟩
  · obtain ⟨m, h1, -⟩ := h.each t
    rw [e] at h1
    exact h1.not_abort
  · obtain ⟨m, h1, -⟩ := h.each t
    have e : n t - sched.count t = 0 := by omega
    have h1' : Safe (own t) 0 m ((prun ⟨m0, p⟩ sched).pc t) (f t) := e ▸ h1
    exact h1'.of_zero
  · obtain ⟨m, h1, h2⟩ := h.each t
    rw [hall t] at h1
    rw [h2 c hc, h1.of_done]

end Verif.Par
