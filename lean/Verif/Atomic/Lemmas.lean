import Verif.Atomic.Model
import Mathlib.Algebra.BigOperators.Group.Finset.Basic
import Mathlib.Algebra.Order.BigOperators.Group.Finset
import Mathlib.Tactic.Ring


set_option linter.unusedSectionVars false
set_option linter.unusedVariables false

namespace Verif.Atomic

variable {α : Type}

/-- Specification: the operations in the log run one after the other, each atomically. An entry is
(thread, value found, whether it wrote). -/
inductive SeqLog (fs : List (Upd α)) : α → List (ℕ × α × Bool) → α → Prop
  | nil (a) : SeqLog fs a [] a
  | skip {a c l t f} : SeqLog fs a l c → fs[t]? = some f → f c = none →
      SeqLog fs a (l ++ [(t, c, false)]) c
  | write {a c v l t f} : SeqLog fs a l c → fs[t]? = some f → f c = some v →
      SeqLog fs a (l ++ [(t, c, true)]) v

structure ExecInv (fs : List (Upd α)) (init : α) (s : Sys α) (log : List (ℕ × α × Bool)) : Prop where
  len : s.pcs.length = fs.length
  seq : SeqLog fs init log s.mem
  nodup : (log.map (·.1)).Nodup
  mem : ∀ (t : ℕ) (old : α) (ok : Bool), (t, old, ok) ∈ log ↔ s.pcs[t]? = some (.done old ok)
  cas : ∀ (t : ℕ) (c v : α) (f : Upd α), s.pcs[t]? = some (.cas c v) → fs[t]? = some f → f c = some v

theorem execInv_start (fs : List (Upd α)) (init : α) : ExecInv fs init (start fs init) [] := by
  refine ⟨by simp [start], .nil _, by simp, ?_, ?_⟩
  · intro t old ok
    simp only [start, List.getElem?_map, List.not_mem_nil, false_iff]
    rcases fs[t]? <;> simp
  · intro t c v f h
    simp only [start, List.getElem?_map] at h
    rcases h2 : fs[t]? <;> simp [h2] at h

theorem getElem?_set_cases {β : Type} {l : List β} {t t' : ℕ} {a : β} (h : t < l.length) :
    (l.set t a)[t']? = if t' = t then some a else l[t']? := by
  by_cases ht : t' = t
  · subst ht; simp [h]
  · rw [if_neg ht, List.getElem?_set_ne (fun h => ht h.symm)]

theorem step_inv [DecidableEq α] {fs : List (Upd α)} {init : α} {s : Sys α}
    {log : List (ℕ × α × Bool)} (h : ExecInv fs init s log) (t : ℕ) :
    ∃ e, ExecInv fs init (step fs s t) (log ++ e) := by
  unfold step
  rcases hf : fs[t]? with _ | f
  · exact ⟨[], by simpa using h⟩
  · rcases hp : s.pcs[t]? with _ | pc
    · exact ⟨[], by simpa using h⟩
    · have ht : t < s.pcs.length := by
        rw [List.getElem?_eq_some_iff] at hp
        exact hp.1
      have hlog : ∀ old ok, (t, old, ok) ∈ log ↔ pc = .done old ok := by
        intro old ok
        rw [h.mem, hp]
        simp
      -- helper for a thread that does not finish in this step
      have keep : ∀ pc', (∀ old ok, pc ≠ .done old ok) → (∀ old ok, pc' ≠ .done old ok) →
          (∀ c v, pc' = .cas c v → f c = some v) →
          ExecInv fs init ⟨s.mem, s.pcs.set t pc'⟩ (log ++ []) := by
        intro pc' h1 h2 h3
        refine ⟨by simpa using h.len, by simpa using h.seq, by simpa using h.nodup, ?_, ?_⟩
        · intro t' old ok
          simp only [getElem?_set_cases ht, List.append_nil]
          split
          · rename_i he
            subst he
            rw [hlog]
            simp [h1, h2]
          · exact h.mem t' old ok
        · intro t' c v f'
          simp only [getElem?_set_cases ht]
          split
          · rename_i he
            subst he
            intro hc hf'
            rw [hf] at hf'
            simp only [Option.some.injEq] at hc hf'
            subst hf'
            exact h3 c v hc
          · exact h.cas t' c v f'
      -- helper for a thread that finishes
      have fin : ∀ m' c ok, (∀ old ok, pc ≠ .done old ok) →
          SeqLog fs init (log ++ [(t, c, ok)]) m' →
          ExecInv fs init ⟨m', s.pcs.set t (.done c ok)⟩ (log ++ [(t, c, ok)]) := by
        intro m' c ok h1 h2
        have hnot : ∀ e ∈ log, e.1 ≠ t := by
          rintro ⟨t', old, ok'⟩ he rfl
          exact h1 _ _ ((hlog old ok').mp he)
        refine ⟨by simpa using h.len, h2, ?_, ?_, ?_⟩
        · rw [List.map_append, List.nodup_append]
          refine ⟨h.nodup, by simp, ?_⟩
          intro a ha b hb
          simp only [List.map_cons, List.map_nil, List.mem_singleton] at hb
          subst hb
          obtain ⟨e, he, rfl⟩ := List.mem_map.mp ha
          exact hnot e he
        · intro t' old ok'
          simp only [getElem?_set_cases ht, List.mem_append, List.mem_singleton, Prod.mk.injEq]
          split
          · rename_i he
            subst he
            constructor
            · rintro (h3 | ⟨-, rfl, rfl⟩)
              · exact absurd rfl (hnot _ h3)
              · rfl
            · intro h3
              simp only [Option.some.injEq, Pc.done.injEq] at h3
              right
              exact ⟨rfl, h3.1.symm, h3.2.symm⟩
          · rename_i he
            rw [h.mem]
            simp [he]
        · intro t' c' v f'
          simp only [getElem?_set_cases ht]
          split
          · intro hc
            simp at hc
          · exact h.cas t' c' v f'
      cases pc with
      | read =>
        simp only [stepPc]
        rcases hfm : f s.mem with _ | v
        · exact ⟨[(t, s.mem, false)], fin _ _ _ (by simp) (.skip h.seq hf hfm)⟩
        · exact ⟨[], keep _ (by simp) (by simp) (by
            intro c v' he
            simp only [Pc.cas.injEq] at he
            obtain ⟨rfl, rfl⟩ := he
            exact hfm)⟩
      | cas c v =>
        simp only [stepPc]
        by_cases hm : s.mem = c
        · rw [if_pos hm]
          refine ⟨[(t, c, true)], fin _ _ _ (by simp) ?_⟩
          have h3 := h.cas t c v f hp hf
          have h4 := h.seq
          rw [hm] at h4
          exact .write h4 hf h3
        · rw [if_neg hm]
          exact ⟨[], keep _ (by simp) (by simp) (by simp)⟩
      | done old ok =>
        refine ⟨[], ?_⟩
        simp only [stepPc, List.append_nil]
        have : s.pcs.set t (.done old ok) = s.pcs := by
          apply List.ext_getElem?
          intro t'
          rw [getElem?_set_cases ht]
          split
          · rename_i he; rw [he, hp]
          · rfl
        rw [this]
        exact h

theorem exec_inv [DecidableEq α] (fs : List (Upd α)) (init : α) (sched : List ℕ) :
    ∃ log, ExecInv fs init (exec fs init sched) log := by
  unfold exec
  suffices h : ∀ s log, ExecInv fs init s log →
      ∃ log', ExecInv fs init (sched.foldl (step fs) s) log' from h _ _ (execInv_start fs init)
  induction sched with
  | nil => exact fun s log h => ⟨log, h⟩
  | cons t sched ih =>
    intro s log h
    obtain ⟨e, he⟩ := step_inv h t
    exact ih _ _ he

/-- Is the thread finished? -/
def Pc.isDone : Pc α → Bool
  | .done _ _ => true
  | _ => false

/-- Number of steps made by unfinished threads along a schedule. -/
def work [DecidableEq α] (fs : List (Upd α)) : Sys α → List ℕ → ℕ
  | _, [] => 0
  | s, t :: sched =>
    (if (s.pcs[t]?.map Pc.isDone).getD true then 0 else 1) + work fs (step fs s t) sched

/-- Weight of a thread in the termination measure. -/
def wt [DecidableEq α] (n : ℕ) (mem : α) : Option (Pc α) → ℕ
  | none => 0
  | some .read => 2 * n + 3
  | some (.cas c v) => (if mem = c then 1 else 3) + (2 * n + 1)
  | some (.done _ _) => 0

/-- Termination measure. -/
def measure [DecidableEq α] (n : ℕ) (s : Sys α) : ℕ :=
  ∑ t ∈ Finset.range n, wt n s.mem s.pcs[t]?

theorem wt_read [DecidableEq α] (n : ℕ) (m : α) : wt n m (some .read) = 2 * n + 3 := rfl
theorem wt_done [DecidableEq α] (n : ℕ) (m o : α) (b : Bool) : wt n m (some (.done o b)) = 0 := rfl
theorem wt_cas [DecidableEq α] (n : ℕ) (m c v : α) :
    wt n m (some (.cas c v)) = (if m = c then 1 else 3) + (2 * n + 1) := rfl

theorem wt_mem [DecidableEq α] (n : ℕ) (m m' : α) (o : Option (Pc α)) : wt n m' o ≤ wt n m o + 2 := by
  rcases o with _ | ( _ | ⟨c', v'⟩ | _ ) <;> simp only [wt] <;> try omega
  split_ifs <;> omega

theorem measure_set [DecidableEq α] (n : ℕ) (m m' : α) (l : List (Pc α)) (t : ℕ) (x pc : Pc α)
    (hn : l.length = n) (hp : l[t]? = some pc) :
    (∑ i ∈ Finset.range n, wt n m (l.set t x)[i]?) + wt n m (some pc) =
      (∑ i ∈ Finset.range n, wt n m l[i]?) + wt n m (some x) ∧
    (∑ i ∈ Finset.range n, wt n m' (l.set t x)[i]?) + wt n m (some pc) + 2 ≤
      (∑ i ∈ Finset.range n, wt n m l[i]?) + wt n m' (some x) + 2 * n := by
  have ht : t < l.length := (List.getElem?_eq_some_iff.mp hp).1
  have htm : t ∈ Finset.range n := by simp; omega
  have hoth : ∀ i ∈ (Finset.range n).erase t, (l.set t x)[i]? = l[i]? := by
    intro i hi
    rw [getElem?_set_cases ht, if_neg (Finset.ne_of_mem_erase hi)]
  have hself : (l.set t x)[t]? = some x := by
    rw [getElem?_set_cases ht, if_pos rfl]
  have h1 : ∑ i ∈ (Finset.range n).erase t, wt n m (l.set t x)[i]? =
      ∑ i ∈ (Finset.range n).erase t, wt n m l[i]? :=
    Finset.sum_congr rfl fun i hi => by rw [hoth i hi]
  have h2 : ∑ i ∈ (Finset.range n).erase t, wt n m' (l.set t x)[i]? ≤
      ∑ i ∈ (Finset.range n).erase t, (wt n m l[i]? + 2) := by
    apply Finset.sum_le_sum
    intro i hi
    rw [hoth _ hi]
    exact wt_mem n m m' _
  rw [Finset.sum_add_distrib, Finset.sum_const, Finset.card_erase_of_mem htm,
    Finset.card_range, Nat.nsmul_eq_mul] at h2
  rw [← Finset.add_sum_erase _ _ htm,
    ← Finset.add_sum_erase _ (fun t => wt n m l[t]?) htm,
    ← Finset.add_sum_erase _ (fun i => wt n m' (l.set t x)[i]?) htm]
  simp only [hself, hp, h1]
  constructor <;> omega

theorem measure_step [DecidableEq α] (fs : List (Upd α)) (s : Sys α) (hl : s.pcs.length = fs.length)
    (t : ℕ) : (if (s.pcs[t]?.map Pc.isDone).getD true then 0 else 1) +
      measure fs.length (step fs s t) ≤ measure fs.length s := by
  unfold step
  rcases hp : s.pcs[t]? with _ | pc
  · rcases hf : fs[t]? with _ | f <;> simp
  · have ht : t < s.pcs.length := (List.getElem?_eq_some_iff.mp hp).1
    have hf : fs[t]? = some fs[t] := List.getElem?_eq_getElem (by omega)
    rw [hf]
    simp only [measure, Option.map_some, Option.getD_some]
    cases pc with
    | read =>
      simp only [stepPc]
      rcases hfm : fs[t] s.mem with _ | v
      · have := (measure_set _ s.mem s.mem s.pcs t (.done s.mem false) _ hl hp).1
        simp only [wt_read, wt_done] at this
        simp only [Pc.isDone, Bool.false_eq_true, if_false]
        omega
      · have := (measure_set _ s.mem s.mem s.pcs t (.cas s.mem v) _ hl hp).1
        simp only [wt_read, wt_cas, if_true] at this
        simp only [Pc.isDone, Bool.false_eq_true, if_false]
        omega
    | cas c v =>
      simp only [stepPc]
      by_cases hm : s.mem = c
      · rw [if_pos hm]
        have := (measure_set _ s.mem v s.pcs t (.done c true) _ hl hp).2
        simp only [wt_done, wt_cas, if_pos hm] at this
        simp only [Pc.isDone, Bool.false_eq_true, if_false]
        omega
      · rw [if_neg hm]
        have := (measure_set _ s.mem s.mem s.pcs t .read _ hl hp).1
        simp only [wt_read, wt_cas, if_neg hm] at this
        simp only [Pc.isDone, Bool.false_eq_true, if_false]
        omega
    | done old ok =>
      have := (measure_set _ s.mem s.mem s.pcs t (.done old ok) _ hl hp).1
      simp only [wt_done] at this
      simp only [stepPc, Pc.isDone, if_true]
      omega

theorem step_length [DecidableEq α] (fs : List (Upd α)) (s : Sys α) (t : ℕ) :
    (step fs s t).pcs.length = s.pcs.length := by
  unfold step
  rcases fs[t]? with _ | f
  · rfl
  · rcases s.pcs[t]? with _ | pc
    · rfl
    · simp

theorem work_le [DecidableEq α] (fs : List (Upd α)) (s : Sys α) (hl : s.pcs.length = fs.length)
    (sched : List ℕ) : work fs s sched ≤ measure fs.length s := by
  induction sched generalizing s with
  | nil => simp [work]
  | cons t sched ih =>
    have h1 := measure_step fs s hl t
    have h2 := ih (step fs s t) (by rw [step_length, hl])
    simp only [work]
    omega

theorem measure_start [DecidableEq α] (fs : List (Upd α)) (init : α) :
    measure fs.length (start fs init) ≤ fs.length * (2 * fs.length + 3) := by
  unfold measure
  calc _ ≤ ∑ t ∈ Finset.range fs.length, (2 * fs.length + 3) := by
        apply Finset.sum_le_sum
        intro t ht
        simp only [start, List.getElem?_map]
        rcases fs[t]? <;> simp [wt]
    _ = _ := by simp

end Verif.Atomic
