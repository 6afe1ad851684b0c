import Verif.Atomic.Lemmas
import Mathlib.Algebra.BigOperators.Group.List.Basic
import Mathlib.Tactic.IntervalCases

set_option linter.unusedSectionVars false
set_option linter.unusedVariables false

/-!
Property C13: atomic priority writes and counters are schedule independent.
-/

namespace Verif.Atomic

variable {α : Type}

/-- All threads have returned. -/
def AllDone (s : Sys α) : Prop := ∀ t, t < s.pcs.length → ∃ old ok, s.pcs[t]? = some (.done old ok)

/-- C13. Every interleaving is linearizable: the finished operations took effect one after the other
in some order `log` (each exactly once, with the value it found and the success flag it returned), and
the memory holds the result of that sequential run. -/
theorem c13_linearizable [DecidableEq α] (fs : List (Upd α)) (init : α) (sched : List ℕ) :
    ∃ log, SeqLog fs init log (exec fs init sched).mem ∧ (log.map (·.1)).Nodup ∧
      ∀ t old ok, (t, old, ok) ∈ log ↔ (exec fs init sched).pcs[t]? = some (.done old ok) := by
  obtain ⟨log, h⟩ := exec_inv fs init sched
  exact ⟨log, h.seq, h.nodup, h.mem⟩

/-- C13. The loops are lock-free and terminate: along any interleaving the unfinished threads make at
most `n (2 n + 3)` memory accesses together. So once that many have been made, all threads have
returned. -/
theorem c13_terminates [DecidableEq α] (fs : List (Upd α)) (init : α) (sched : List ℕ) :
    work fs (start fs init) sched ≤ fs.length * (2 * fs.length + 3) :=
  (work_le fs _ (by simp [start]) sched).trans (measure_start fs init)

theorem log_perm [DecidableEq α] {fs : List (Upd α)} {init : α} {s : Sys α}
    {log : List (ℕ × α × Bool)} (h : ExecInv fs init s log) (hd : AllDone s) :
    (log.map (·.1)).Perm (List.range fs.length) := by
  rw [List.perm_ext_iff_of_nodup h.nodup List.nodup_range]
  intro t
  rw [List.mem_range, List.mem_map]
  constructor
  · rintro ⟨⟨t', old, ok⟩, he, rfl⟩
    have := (h.mem t' old ok).mp he
    rw [← h.len]
    exact (List.getElem?_eq_some_iff.mp this).1
  · intro ht
    obtain ⟨old, ok, h1⟩ := hd t (by rw [h.len]; exact ht)
    exact ⟨(t, old, ok), (h.mem t old ok).mpr h1, rfl⟩

/-- The comparison functions for which `write_min` and `write_max` make sense: strict weak orders. -/
structure StrictWeak (less : α → α → Bool) : Prop where
  irrefl : ∀ a, less a a = false
  trans : ∀ a b c, less a b = true → less b c = true → less a c = true
  incomp : ∀ a b c, less a b = false → less b c = false → less a c = false

theorem seqLog_min {less : α → α → Bool} (hw : StrictWeak less) {bs : List α} {a m : α}
    {log : List (ℕ × α × Bool)} (h : SeqLog (bs.map (writeMin less)) a log m) :
    (m = a ∨ ∃ t old, (t, old, true) ∈ log ∧ bs[t]? = some m) ∧ less a m = false ∧
    (∀ t old ok b, (t, old, ok) ∈ log → bs[t]? = some b → less b m = false ∧ ok = less b old ∧
      less a old = false ∧ less old m = false) := by
  induction h with
  | nil => exact ⟨Or.inl rfl, hw.irrefl _, by simp⟩
  | @skip c l t f h1 h2 h3 ih =>
    obtain ⟨i1, i2, i3⟩ := ih
    refine ⟨?_, i2, ?_⟩
    · rcases i1 with i1 | ⟨t', old, i1, i1'⟩
      · exact Or.inl i1
      · exact Or.inr ⟨t', old, by simp [i1], i1'⟩
    · intro t' old ok b he hb
      rw [List.mem_append, List.mem_singleton] at he
      rcases he with he | he
      · exact i3 t' old ok b he hb
      · simp only [Prod.mk.injEq] at he
        obtain ⟨rfl, rfl, rfl⟩ := he
        rw [List.getElem?_map, hb] at h2
        simp only [Option.map_some, Option.some.injEq] at h2
        subst h2
        unfold writeMin at h3
        have h4 : less b old = false := by
          cases hh : less b old
          · rfl
          · rw [hh] at h3; simp at h3
        exact ⟨h4, h4.symm, i2, hw.irrefl _⟩
  | @write c v l t f h1 h2 h3 ih =>
    obtain ⟨i1, i2, i3⟩ := ih
    rw [List.getElem?_map] at h2
    rcases hb : bs[t]? with _ | b
    · rw [hb] at h2; simp at h2
    rw [hb] at h2
    simp only [Option.map_some, Option.some.injEq] at h2
    subst h2
    unfold writeMin at h3
    have h4 : less b c = true ∧ b = v := by
      cases hh : less b c
      · rw [hh] at h3; simp at h3
      · rw [hh] at h3; simpa using h3
    obtain ⟨h4, rfl⟩ := h4
    have h5 : less c b = false := by
      cases hh : less c b
      · rfl
      · have := hw.trans _ _ _ hh h4
        rw [hw.irrefl] at this
        simp at this
    refine ⟨Or.inr ⟨t, c, by simp, hb⟩, hw.incomp _ _ _ i2 h5, ?_⟩
    intro t' old ok b' he hb'
    rw [List.mem_append, List.mem_singleton] at he
    rcases he with he | he
    · obtain ⟨j1, j2, j3, j4⟩ := i3 t' old ok b' he hb'
      exact ⟨hw.incomp _ _ _ j1 h5, j2, j3, hw.incomp _ _ _ j4 h5⟩
    · simp only [Prod.mk.injEq] at he
      obtain ⟨rfl, rfl, rfl⟩ := he
      rw [hb] at hb'
      simp only [Option.some.injEq] at hb'
      subst hb'
      exact ⟨hw.irrefl _, h4.symm, i2, h5⟩

/-- C13. After every interleaving in which all `write_min` calls have returned, the cell holds a
least value among the initial one and all values written, under any strict weak order; and a call
returned true iff its value was smaller than the value it found when it took effect. If the final
value is not the initial one, it is the value of a call that returned true. -/
theorem c13_write_min [DecidableEq α] {less : α → α → Bool} (hw : StrictWeak less) (bs : List α)
    (init : α) (sched : List ℕ)
    (hd : AllDone (exec (bs.map (writeMin less)) init sched)) :
    let s := exec (bs.map (writeMin less)) init sched
    (s.mem = init ∨ ∃ (t : ℕ) (old : α), s.pcs[t]? = some (.done old true) ∧ bs[t]? = some s.mem) ∧
    (∀ x ∈ init :: bs, less x s.mem = false) ∧
    (∀ (t : ℕ) (old : α) (ok : Bool) (b : α), s.pcs[t]? = some (.done old ok) → bs[t]? = some b →
      ok = less b old) := by
  intro s
  obtain ⟨log, h⟩ := exec_inv (bs.map (writeMin less)) init sched
  obtain ⟨h1, h2, h3⟩ := seqLog_min hw h.seq
  refine ⟨?_, ?_, ?_⟩
  · rcases h1 with h1 | ⟨t, old, h1, h1'⟩
    · exact Or.inl h1
    · exact Or.inr ⟨t, old, (h.mem _ _ _).mp h1, h1'⟩
  · intro x hx
    rcases List.mem_cons.mp hx with rfl | hx
    · exact h2
    · obtain ⟨t, ht, rfl⟩ := List.mem_iff_getElem.mp hx
      obtain ⟨old, ok, h4⟩ := hd t (by rw [h.len]; simpa using ht)
      exact (h3 t old ok _ ((h.mem _ _ _).mpr h4) (List.getElem?_eq_getElem ht)).1
  · intro t old ok b h4 h5
    exact (h3 t old ok b ((h.mem _ _ _).mpr h4) h5).2.1

/-- C13, same for `write_max`: the cell ends with a greatest value. -/
theorem c13_write_max [DecidableEq α] {less : α → α → Bool} (hw : StrictWeak less) (bs : List α)
    (init : α) (sched : List ℕ)
    (hd : AllDone (exec (bs.map (writeMax less)) init sched)) :
    let s := exec (bs.map (writeMax less)) init sched
    (s.mem = init ∨ ∃ (t : ℕ) (old : α), s.pcs[t]? = some (.done old true) ∧ bs[t]? = some s.mem) ∧
    (∀ x ∈ init :: bs, less s.mem x = false) ∧
    (∀ (t : ℕ) (old : α) (ok : Bool) (b : α), s.pcs[t]? = some (.done old ok) → bs[t]? = some b →
      ok = less old b) := by
  have e : writeMax less = writeMin (fun a b => less b a) := rfl
  have hw' : StrictWeak (fun a b => less b a) :=
    ⟨hw.irrefl, fun a b c h1 h2 => hw.trans _ _ _ h2 h1, fun a b c h1 h2 => hw.incomp _ _ _ h2 h1⟩
  rw [e] at hd ⊢
  exact c13_write_min hw' bs init sched hd

theorem seqLog_add [AddCommMonoid α] {bs : List α} {a m : α} {log : List (ℕ × α × Bool)}
    (h : SeqLog (bs.map addUpd) a log m) :
    m = a + (log.map fun e => (bs[e.1]?).getD 0).sum ∧
    ∀ k (hk : k < log.length), log[k].2.1 = a + ((log.take k).map fun e => (bs[e.1]?).getD 0).sum ∧
      log[k].2.2 = true := by
  induction h with
  | nil => simp
  | @skip c l t f h1 h2 h3 ih =>
    rw [List.getElem?_map] at h2
    rcases hb : bs[t]? with _ | b
    · rw [hb] at h2; simp at h2
    · rw [hb] at h2
      simp only [Option.map_some, Option.some.injEq] at h2
      subst h2
      simp [addUpd] at h3
  | @write c v l t f h1 h2 h3 ih =>
    obtain ⟨i1, i2⟩ := ih
    rw [List.getElem?_map] at h2
    rcases hb : bs[t]? with _ | b
    · rw [hb] at h2; simp at h2
    rw [hb] at h2
    simp only [Option.map_some, Option.some.injEq] at h2
    subst h2
    simp only [addUpd, Option.some.injEq] at h3
    subst h3
    constructor
    · rw [List.map_append, List.sum_append, i1, add_assoc]
      simp [hb]
    · intro k hk
      rw [List.length_append, List.length_singleton] at hk
      by_cases hk' : k < l.length
      · rw [List.getElem_append_left hk', List.take_append_of_le_length (by omega)]
        exact i2 k hk'
      · have : k = l.length := by omega
        subst this
        simp [← i1]

theorem sum_perm_range [AddCommMonoid α] (bs : List α) (l : List ℕ)
    (h : l.Perm (List.range bs.length)) : (l.map fun t => (bs[t]?).getD 0).sum = bs.sum := by
  rw [(h.map _).sum_eq]
  congr 1
  apply List.ext_getElem
  · simp
  · intro i h1 h2
    simp at h1
    simp [h1]

/-- C13. After every interleaving in which all `fetch_and_add`/`write_add` calls have returned, the
cell holds the initial value plus the sum of all amounts, in any commutative monoid (so also with
wrap-around); and the values returned by `fetch_and_add` are the partial sums along one order of the
calls. -/
theorem c13_add [DecidableEq α] [AddCommMonoid α] (bs : List α) (init : α) (sched : List ℕ)
    (hd : AllDone (exec (bs.map addUpd) init sched)) :
    let s := exec (bs.map addUpd) init sched
    s.mem = init + bs.sum ∧
    ∃ order : List ℕ, order.Perm (List.range bs.length) ∧
      ∀ k (hk : k < order.length), s.pcs[order[k]]? =
        some (.done (init + ((order.take k).map fun t => (bs[t]?).getD 0).sum) true) := by
  intro s
  obtain ⟨log, h⟩ := exec_inv (bs.map addUpd) init sched
  obtain ⟨h1, h2⟩ := seqLog_add h.seq
  have hp := log_perm h hd
  rw [List.length_map] at hp
  have e : (log.map fun e => (bs[e.1]?).getD 0) = (log.map (·.1)).map fun t => (bs[t]?).getD 0 := by
    rw [List.map_map]; rfl
  constructor
  · show (exec (bs.map addUpd) init sched).mem = _
    rw [h1, e, sum_perm_range bs _ hp]
  · refine ⟨log.map (·.1), hp, ?_⟩
    intro k hk
    rw [List.length_map] at hk
    obtain ⟨h3, h4⟩ := h2 k hk
    rw [← List.map_take, List.map_map, List.getElem_map]
    show s.pcs[log[k].1]? = some (.done (init + ((log.take k).map fun e => (bs[e.1]?).getD 0).sum) true)
    rw [← h3, ← h4, ← h.mem]
    exact List.getElem_mem hk

/-- Non-vacuity: three racing `write_min` calls; thread 1 loses a compare-and-swap to thread 2 and
retries. -/
example : (exec ([5, 3, 4].map (writeMin (fun a b : ℕ => decide (a < b)))) 7
    [0, 1, 2, 2, 1, 0, 1, 0, 1]).mem = 3 := by decide

example : StrictWeak (fun a b : ℕ => decide (a < b)) :=
  ⟨by simp, by simp; omega, by simp; omega⟩

example : AllDone (exec ([5, 3, 4].map (writeMin (fun a b : ℕ => decide (a < b)))) 7
    [0, 1, 2, 2, 1, 0, 1, 0, 1]) := by
  intro t ht
  have ht : t < 3 := ht
  interval_cases t
  · exact ⟨4, false, rfl⟩
  · exact ⟨4, true, rfl⟩
  · exact ⟨7, true, rfl⟩

/-- Non-vacuity of `c13_add`: two racing additions, one retry. -/
example : AllDone (exec ([10, 20].map (addUpd : ℕ → Upd ℕ)) 1 [0, 1, 1, 0, 0, 0]) ∧
    (exec ([10, 20].map (addUpd : ℕ → Upd ℕ)) 1 [0, 1, 1, 0, 0, 0]).mem = 31 := by
  constructor
  · intro t ht
    have ht : t < 2 := ht
    interval_cases t
    · exact ⟨21, true, rfl⟩
    · exact ⟨1, true, rfl⟩
  · rfl

end Verif.Atomic
