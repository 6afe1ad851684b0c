import Verif.Hash.CheckProps

set_option linter.unusedSectionVars false
set_option linter.unusedVariables false

/-!
C105: concurrent calls of `insert_f` combine the values of every key in some order, under every interleaving.
-/

namespace Verif.Hash

variable {K V ι : Type} [DecidableEq K] [DecidableEq ι]

theorem step_tab_mono {b : ℕ} {key : ι → K} {value : ι → V} (t : ι) (s : State K V ι) {h : ℕ} {k : K}
    (hk : s.tab h = some k) : (step b key value t s).tab h = some k := by
  unfold step
  cases hp : s.pc t with
  | probe h0 => dsimp only; split <;> exact hk
  | cas h0 =>
    dsimp only
    split
    · rename_i hn
      dsimp only
      rw [Function.update_of_ne (fun hc => by rw [hc, hn] at hk; exact absurd hk (by simp))]
      exact hk
    · exact hk
  | store h0 => exact hk
  | cmp h0 => dsimp only; split <;> exact hk
  | done r => exact hk

/-- The effect of a step on the table and the positions does not depend on the values. -/
theorem step_congr {b : ℕ} {key : ι → K} {value : ι → V} (t : ι) {s p : State K V ι} (h1 : s.tab = p.tab)
    (h2 : s.pc = p.pc) : (step b key value t s).tab = (step b key value t p).tab ∧
    (step b key value t s).pc = (step b key value t p).pc := by
  unfold step
  rw [h1, h2]
  cases hp : p.pc t with
  | probe h0 => dsimp only; split <;> exact ⟨rfl, rfl⟩
  | cas h0 => dsimp only; split <;> exact ⟨rfl, rfl⟩
  | store h0 => exact ⟨rfl, rfl⟩
  | cmp h0 => dsimp only; split <;> exact ⟨rfl, rfl⟩
  | done r => exact ⟨h1, h2⟩

theorem step_pc_ne {b : ℕ} {key : ι → K} {value : ι → V} {t t' : ι} (ht : t' ≠ t) (s : State K V ι) :
    (step b key value t s).pc t' = s.pc t' := by
  unfold step
  cases hp : s.pc t with
  | probe h0 => dsimp only; split <;> (dsimp only; rw [Function.update_of_ne ht])
  | cas h0 => dsimp only; split <;> (dsimp only; rw [Function.update_of_ne ht])
  | store h0 => dsimp only; rw [Function.update_of_ne ht]
  | cmp h0 => dsimp only; split <;> (dsimp only; rw [Function.update_of_ne ht])
  | done r => rfl

/-- The value of a slot after the logged calls of the function. -/
def logged (f : V → K × V → V) (key : ι → K) (value : ι → V) (val0 : ℕ → V) (log : List (ι × ℕ)) (h : ℕ) : V :=
  (log.filter fun e => e.2 = h).foldl (fun v e => f v (key e.1, value e.1)) (val0 h)

theorem logged_append (f : V → K × V → V) (key : ι → K) (value : ι → V) (val0 : ℕ → V) (log : List (ι × ℕ)) (t : ι)
    (h : ℕ) : logged f key value val0 (log ++ [(t, h)]) =
      Function.update (logged f key value val0 log) h (f (logged f key value val0 log h) (key t, value t)) := by
  funext h'
  unfold logged
  rw [List.filter_append]
  by_cases he : h' = h
  · subst he
    rw [Function.update_self]
    simp
  · rw [Function.update_of_ne he]
    simp [Ne.symm he]

/-- Invariant: the table and the positions are those of an execution of `insert`, and the values come from a log of
the calls of the function. -/
structure FInv (b : ℕ) (f : V → K × V → V) (key : ι → K) (value : ι → V) (val0 : ℕ → V) (p0 : State K V ι)
    (sched sched' : List ι) (log : List (ι × ℕ)) (s : FoldState K V ι) : Prop where
  tab : s.base.tab = (run b key value sched' p0).tab
  pc : s.base.pc = (run b key value sched' p0).pc
  val : s.base.val = logged f key value val0 log
  nodup : (log.map Prod.fst).Nodup
  mem : ∀ t, t ∈ log.map Prod.fst ↔ (∃ r, s.base.pc t = .done r) ∧ s.app t = none
  slot : ∀ e ∈ log, e.2 < 2 ^ b ∧ s.base.tab e.2 = some (key e.1)
  app : ∀ t h, s.app t = some h → h < 2 ^ b ∧ s.base.tab h = some (key t) ∧ s.base.pc t = .done false ∧
    sched.count t ≤ sched'.count t ∧ sched.count t ≤ 3 * 2 ^ b
  cnt : ∀ t, sched.count t ≤ sched'.count t + 1
  early : ∀ t, (∀ r, s.base.pc t ≠ .done r) → sched.count t ≤ sched'.count t ∧ sched'.count t ≤ sched.count t

theorem run_append (b : ℕ) (key : ι → K) (value : ι → V) (l : List ι) (t : ι) (s : State K V ι) :
    run b key value (l ++ [t]) s = step b key value t (run b key value l s) := by
  unfold run
  rw [List.foldl_append]
  rfl

theorem count_append_self (l : List ι) (t : ι) : (l ++ [t]).count t = l.count t + 1 := by simp

theorem count_append_ne (l : List ι) {t t' : ι} (h : t' ≠ t) : (l ++ [t]).count t' = l.count t' := by
  rw [List.count_append, List.count_cons_of_ne (Ne.symm h)]
  simp

/-- A step that is a step of `insert` and does not finish a call. -/
theorem finv_quiet {b : ℕ} {f : V → K × V → V} {key : ι → K} {value : ι → V} {val0 : ℕ → V} {p0 : State K V ι}
    {sched sched' : List ι} {log : List (ι × ℕ)} {s : FoldState K V ι}
    (h : FInv b f key value val0 p0 sched sched' log s) (t : ι) (happ : s.app t = none)
    (hval : (step b key value t s.base).val = s.base.val)
    (hdone : (∃ r, (step b key value t s.base).pc t = .done r) ↔ ∃ r, s.base.pc t = .done r) :
    FInv b f key value val0 p0 (sched ++ [t]) (sched' ++ [t]) log { s with base := step b key value t s.base } := by
  obtain ⟨c1, c2⟩ := step_congr (b := b) (key := key) (value := value) t h.tab h.pc
  refine ⟨by rw [run_append]; exact c1, by rw [run_append]; exact c2, by rw [← h.val]; exact hval, h.nodup, ?_, ?_, ?_,
    ?_, ?_⟩
  · intro t'
    rw [h.mem t']
    dsimp only
    by_cases ht : t' = t
    · subst ht
      rw [hdone]
    · rw [step_pc_ne ht]
  · intro e he
    exact ⟨(h.slot e he).1, step_tab_mono t _ (h.slot e he).2⟩
  · intro t' h' he
    have ht : t' ≠ t := fun hc => by
      dsimp only at he
      rw [hc, happ] at he
      exact absurd he (by simp)
    obtain ⟨a1, a2, a3, a4, a5⟩ := h.app t' h' he
    dsimp only
    rw [count_append_ne _ ht, count_append_ne _ ht, step_pc_ne ht]
    exact ⟨a1, step_tab_mono t _ a2, a3, a4, a5⟩
  · intro t'
    have := h.cnt t'
    by_cases ht : t' = t
    · subst ht
      rw [count_append_self, count_append_self]
      omega
    · rw [count_append_ne _ ht, count_append_ne _ ht]
      exact this
  · intro t' hnd
    dsimp only at hnd
    by_cases ht : t' = t
    · subst ht
      have hnd' : ∀ r, s.base.pc t' ≠ .done r := fun r hr => by
        obtain ⟨r', hr'⟩ := hdone.mpr ⟨r, hr⟩
        exact hnd r' hr'
      have := h.early t' hnd'
      rw [count_append_self, count_append_self]
      omega
    · rw [step_pc_ne ht] at hnd
      rw [count_append_ne _ ht, count_append_ne _ ht]
      exact h.early t' hnd

theorem finv_step {b : ℕ} {hash : K → ℕ} {f : V → K × V → V} {key : ι → K} {value : ι → V} {tab0 : ℕ → Option K}
    {val0 : ℕ → V} {U : Finset K} (hcard : U.card ≤ 2 ^ b) (hU0 : ∀ k, InTab b tab0 k → k ∈ U) (hkU : ∀ t, key t ∈ U)
    (hw : WF b hash tab0) {sched sched' : List ι} {log : List (ι × ℕ)} {s : FoldState K V ι}
    (h : FInv b f key value val0 (start b hash key tab0 val0) sched sched' log s) (t : ι) :
    ∃ sched'' log', FInv b f key value val0 (start b hash key tab0 val0) (sched ++ [t]) sched'' log'
      (foldStep b f key value t s) := by
  have hinv := inv_run hcard hkU sched' (inv_start (val0 := val0) key value hw hU0)
  have hth := hinv.thread t
  rw [← h.tab, ← h.pc] at hth
  unfold foldStep
  cases happ : s.app t with
  | some h0 =>
    obtain ⟨a1, a2, a3, a4, a5⟩ := h.app t h0 happ
    have hnot : t ∉ log.map Prod.fst := fun hc => by
      have := ((h.mem t).mp hc).2
      rw [happ] at this
      exact absurd this (by simp)
    refine ⟨sched', log ++ [(t, h0)], ⟨h.tab, h.pc, ?_, ?_, ?_, ?_, ?_, ?_, ?_⟩⟩
    · rw [logged_append, ← h.val]
    · rw [List.map_append, List.nodup_append]
      refine ⟨h.nodup, by simp, ?_⟩
      intro x hx y hy hxy
      simp only [List.map_cons, List.map_nil, List.mem_singleton] at hy
      exact hnot (by rw [← hy, ← hxy]; exact hx)
    · intro t'
      rw [List.map_append, List.mem_append, h.mem t']
      dsimp only
      by_cases ht : t' = t
      · subst ht
        rw [Function.update_self]
        simp only [List.map_cons, List.map_nil, List.mem_singleton, or_true, true_iff, and_true]
        exact ⟨false, a3⟩
      · rw [Function.update_of_ne ht]
        simp [ht]
    · intro e he
      rcases List.mem_append.mp he with he | he
      · exact h.slot e he
      · rw [List.mem_singleton] at he
        subst he
        exact ⟨a1, a2⟩
    · intro t' h' he
      dsimp only at he ⊢
      have ht : t' ≠ t := fun hc => by
        rw [hc, Function.update_self] at he
        exact absurd he (by simp)
      rw [Function.update_of_ne ht] at he
      rw [count_append_ne _ ht]
      exact h.app t' h' he
    · intro t'
      by_cases ht : t' = t
      · subst ht
        rw [count_append_self]
        omega
      · rw [count_append_ne _ ht]
        exact h.cnt t'
    · intro t' hnd
      have ht : t' ≠ t := fun hc => by
        subst hc
        exact hnd false a3
      rw [count_append_ne _ ht]
      exact h.early t' hnd
  | none =>
    dsimp only
    cases hp : s.base.pc t with
    | probe h0 =>
      dsimp only
      refine ⟨_, _, finv_quiet h t happ ?_ ?_⟩
      · unfold step; rw [hp]; dsimp only; split <;> rfl
      · unfold step; rw [hp]; dsimp only
        split <;> (dsimp only; rw [Function.update_self]; simp)
    | cas h0 =>
      dsimp only
      refine ⟨_, _, finv_quiet h t happ ?_ ?_⟩
      · unfold step; rw [hp]; dsimp only; split <;> rfl
      · unfold step; rw [hp]; dsimp only
        split <;> (dsimp only; rw [Function.update_self]; simp)
    | done r =>
      dsimp only
      refine ⟨_, _, finv_quiet h t happ ?_ ?_⟩
      · unfold step; rw [hp]
      · unfold step; rw [hp]; dsimp only; rw [hp]
    | store h0 =>
      rw [hp] at hth
      obtain ⟨b1, b2, -⟩ := hth
      have hnot : t ∉ log.map Prod.fst := fun hc => by
        obtain ⟨⟨r, hr⟩, -⟩ := (h.mem t).mp hc
        rw [hp] at hr
        exact absurd hr (by simp)
      have hst : step b key value t s.base = { s.base with
          val := Function.update s.base.val h0 (value t)
          pc := Function.update s.base.pc t (.done true) } := by
        unfold step; rw [hp]
      obtain ⟨c1, c2⟩ := step_congr (b := b) (key := key) (value := value) t h.tab h.pc
      rw [hst] at c1 c2
      dsimp only
      refine ⟨sched' ++ [t], log ++ [(t, h0)], ⟨?_, ?_, ?_, ?_, ?_, ?_, ?_, ?_, ?_⟩⟩
      · rw [run_append]; exact c1
      · rw [run_append]; exact c2
      · rw [logged_append, ← h.val]
      · rw [List.map_append, List.nodup_append]
        refine ⟨h.nodup, by simp, ?_⟩
        intro x hx y hy hxy
        simp only [List.map_cons, List.map_nil, List.mem_singleton] at hy
        exact hnot (by rw [← hy, ← hxy]; exact hx)
      · intro t'
        rw [List.map_append, List.mem_append, h.mem t']
        dsimp only
        by_cases ht : t' = t
        · subst ht
          rw [Function.update_self]
          simp [happ]
        · rw [Function.update_of_ne ht]
          simp [ht]
      · intro e he
        rcases List.mem_append.mp he with he | he
        · exact h.slot e he
        · rw [List.mem_singleton] at he
          subst he
          exact ⟨b1, b2⟩
      · intro t' h' he
        dsimp only at he ⊢
        have ht : t' ≠ t := fun hc => by
          rw [hc, happ] at he
          exact absurd he (by simp)
        rw [count_append_ne _ ht, count_append_ne _ ht, Function.update_of_ne ht]
        exact h.app t' h' he
      · intro t'
        have := h.cnt t'
        by_cases ht : t' = t
        · subst ht
          rw [count_append_self, count_append_self]
          omega
        · rw [count_append_ne _ ht, count_append_ne _ ht]
          exact this
      · intro t' hnd
        dsimp only at hnd
        have ht : t' ≠ t := fun hc => by
          subst hc
          exact hnd true (Function.update_self ..)
        rw [Function.update_of_ne ht] at hnd
        rw [count_append_ne _ ht, count_append_ne _ ht]
        exact h.early t' hnd
    | cmp h0 =>
      rw [hp] at hth
      dsimp only
      by_cases hk : s.base.tab h0 = some (key t)
      · rw [if_pos hk]
        obtain ⟨j, d1, d2, -, -, d5⟩ := hth
        have hnd0 : ∀ r, s.base.pc t ≠ .done r := fun r hr => by
          rw [hp] at hr
          exact absurd hr (by simp)
        have hearly := h.early t hnd0
        have hnot : t ∉ log.map Prod.fst := fun hc => by
          obtain ⟨⟨r, hr⟩, -⟩ := (h.mem t).mp hc
          exact hnd0 r hr
        have hst : step b key value t s.base = { s.base with pc := Function.update s.base.pc t (.done false) } := by
          unfold step; rw [hp]; dsimp only; rw [if_pos hk]
        obtain ⟨c1, c2⟩ := step_congr (b := b) (key := key) (value := value) t h.tab h.pc
        rw [hst] at c1 c2 ⊢
        have hlt : h0 < 2 ^ b := by rw [d2]; exact pos_lt _ _ _ _
        refine ⟨sched' ++ [t], log, ⟨?_, ?_, h.val, h.nodup, ?_, h.slot, ?_, ?_, ?_⟩⟩
        · rw [run_append]; exact c1
        · rw [run_append]; exact c2
        · intro t'
          dsimp only
          by_cases ht : t' = t
          · subst ht
            rw [Function.update_self, Function.update_self]
            simp only [hnot, false_iff]
            rintro ⟨-, hc⟩
            exact absurd hc (by simp)
          · rw [Function.update_of_ne ht, Function.update_of_ne ht]
            exact h.mem t'
        · intro t' h' he
          dsimp only at he ⊢
          by_cases ht : t' = t
          · subst ht
            rw [Function.update_self] at he
            have : h0 = h' := by simpa using he
            subst this
            rw [Function.update_self, count_append_self, count_append_self]
            simp only [Nat.zero_add] at d5
            exact ⟨hlt, hk, rfl, by omega, by omega⟩
          · rw [Function.update_of_ne ht] at he
            rw [count_append_ne _ ht, count_append_ne _ ht, Function.update_of_ne ht]
            exact h.app t' h' he
        · intro t'
          have := h.cnt t'
          by_cases ht : t' = t
          · subst ht
            rw [count_append_self, count_append_self]
            omega
          · rw [count_append_ne _ ht, count_append_ne _ ht]
            exact this
        · intro t' hnd
          dsimp only at hnd
          have ht : t' ≠ t := fun hc => by
            subst hc
            exact hnd false (Function.update_self ..)
          rw [Function.update_of_ne ht] at hnd
          rw [count_append_ne _ ht, count_append_ne _ ht]
          exact h.early t' hnd
      · rw [if_neg hk]
        refine ⟨_, _, finv_quiet h t happ ?_ ?_⟩
        · unfold step; rw [hp]; dsimp only; rw [if_neg hk]
        · unfold step; rw [hp]; dsimp only; rw [if_neg hk]; dsimp only; rw [Function.update_self]; simp

theorem finv_run {b : ℕ} {hash : K → ℕ} (f : V → K × V → V) {key : ι → K} {value : ι → V} {tab0 : ℕ → Option K}
    {val0 : ℕ → V} {U : Finset K} (hcard : U.card ≤ 2 ^ b) (hU0 : ∀ k, InTab b tab0 k → k ∈ U) (hkU : ∀ t, key t ∈ U)
    (hw : WF b hash tab0) (sched : List ι) :
    ∃ sched' log, FInv b f key value val0 (start b hash key tab0 val0) sched sched' log
      (foldRun b f key value sched (foldStart b hash key tab0 val0)) := by
  induction sched using List.reverseRecOn with
  | nil =>
    refine ⟨[], [], ⟨rfl, rfl, rfl, by simp, ?_, by simp, ?_, by simp, by simp⟩⟩
    · intro t
      simp [foldRun, foldStart, start]
    · intro t h he
      exact absurd he (by simp [foldRun, foldStart])
  | append_singleton l t ih =>
    obtain ⟨sched', log, h⟩ := ih
    have he : foldRun b f key value (l ++ [t]) (foldStart b hash key tab0 val0) =
        foldStep b f key value t (foldRun b f key value l (foldStart b hash key tab0 val0)) := by
      unfold foldRun
      rw [List.foldl_append]
      rfl
    rw [he]
    exact finv_step hcard hU0 hkU hw h t

/-- C105: concurrent calls of `insert_f` with an atomic function, on a table with room for all keys, under every
interleaving in which all calls run to their end. All calls return; no key is stored twice; the keys are the old ones
and those of the calls; of the calls with a new key exactly one is told that it is new, and no other; and there is an
order of all calls such that the value of every key is the value before, combined with the values of its calls in
this order. -/
theorem c105_concurrent_fold {b : ℕ} {hash : K → ℕ} (f : V → K × V → V) (key : ι → K) (value : ι → V)
    {tab0 : ℕ → Option K} {val0 : ℕ → V} (hw : WF b hash tab0) (U : Finset K) (hcard : U.card ≤ 2 ^ b)
    (hU0 : ∀ k, InTab b tab0 k → k ∈ U) (hkU : ∀ t, key t ∈ U) (sched : List ι)
    (hfair : ∀ t, 3 * 2 ^ b + 1 < sched.count t) :
    ∃ s, s = foldRun b f key value sched (foldStart b hash key tab0 val0) ∧
      (∀ t, s.app t = none ∧ ∃ r, s.base.pc t = .done r) ∧ NoDup b s.base.tab ∧
      (∀ k, InTab b s.base.tab k ↔ InTab b tab0 k ∨ ∃ t, key t = k) ∧
      (∀ h < 2 ^ b, ∀ k, tab0 h = some k → s.base.tab h = some k) ∧
      (∀ k, ¬ InTab b tab0 k → (∃ t, key t = k) → ∃! t, key t = k ∧ s.base.pc t = .done true) ∧
      (∀ t, InTab b tab0 (key t) → s.base.pc t = .done false) ∧
      ∃ order : List ι, order.Nodup ∧ (∀ t, t ∈ order) ∧ ∀ h < 2 ^ b, ∀ k, s.base.tab h = some k →
        s.base.val h = (order.filter fun t => key t = k).foldl (fun v t => f v (key t, value t)) (val0 h) := by
  obtain ⟨sched', log, h⟩ := finv_run f (val0 := val0) (value := value) hcard hU0 hkU hw sched
  refine ⟨_, rfl, ?_⟩
  set s := foldRun b f key value sched (foldStart b hash key tab0 val0) with hs
  obtain ⟨hins, hwf⟩ := c45_insert (val0 := val0) key value hw U hcard hU0 hkU sched' (fun t => by
    have h1 := h.cnt t
    have h2 := hfair t
    omega)
  have hinv := inv_run hcard hkU sched' (inv_start (val0 := val0) key value hw hU0)
  have happ : ∀ t, s.app t = none := fun t => by
    cases ha : s.app t with
    | none => rfl
    | some h0 =>
      have h1 := (h.app t h0 ha).2.2.2.2
      have h2 := hfair t
      omega
  have hpc : ∀ t, ∃ r, s.base.pc t = .done r := fun t => by
    rw [h.pc]
    exact hins.returned t
  have hnd : NoDup b s.base.tab := by rw [h.tab]; exact hins.noDup
  refine ⟨fun t => ⟨happ t, hpc t⟩, hnd, ?_, ?_, ?_, ?_, ?_⟩
  · rw [h.tab]; exact hins.keys
  · rw [h.tab]; exact fun h0 hh k hk => (hinv.old h0 hh k hk).1
  · rw [h.pc]; exact hins.winner
  · rw [h.pc]; exact hins.present
  · refine ⟨log.map Prod.fst, h.nodup, fun t => (h.mem t).mpr ⟨hpc t, happ t⟩, ?_⟩
    intro h0 hh k hk
    rw [h.val]
    unfold logged
    rw [List.filter_map, List.foldl_map]
    congr 1
    apply List.filter_congr
    intro e he
    obtain ⟨e1, e2⟩ := h.slot e he
    simp only [Function.comp_apply, decide_eq_decide]
    constructor
    · intro heq
      rw [heq, hk] at e2
      exact (by simpa using e2.symm)
    · intro heq
      exact hnd e.2 e1 h0 hh k (by rw [e2, heq]) hk

/-- Non-vacuity of `c105_concurrent_fold`: sums, three threads, two with the same key, a table of four slots. -/
example : ∃ s : FoldState ℕ ℕ (Fin 3), s = foldRun 2 (fun a e => a + e.2) ![4, 8, 4] ![10, 20, 30]
      (List.replicate 14 [0, 1, 2]).flatten (foldStart 2 (fun k => k) ![4, 8, 4] emptyTab (fun _ => 0)) ∧
    (∀ t, s.app t = none ∧ ∃ r, s.base.pc t = .done r) ∧ s.base.val 0 = 40 ∧ s.base.val 1 = 20 := by
  obtain ⟨s, h1, h2, -⟩ := c105_concurrent_fold (b := 2) (hash := fun k : ℕ => k) (fun a e => a + e.2) ![4, 8, 4]
    ![10, 20, 30] (tab0 := emptyTab) (val0 := fun _ => 0) (wf_empty 2 _) {4, 8} (by decide)
    (by rintro k ⟨h, -, hk⟩; simp [emptyTab] at hk) (by decide) (List.replicate 14 [0, 1, 2]).flatten (by decide +kernel)
  exact ⟨s, h1, h2, by rw [h1]; decide +kernel, by rw [h1]; decide +kernel⟩

end Verif.Hash
