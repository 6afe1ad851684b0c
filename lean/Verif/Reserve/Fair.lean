import Verif.Reserve.Props

set_option linter.unusedSectionVars false
set_option linter.unusedVariables false

/-!
Schedules in which every thread occurs often enough finish the reserve phase and the check phase.
-/

namespace Verif.Reserve

variable {V : Type} [LinearOrder V]

theorem rstep_pc_ne {cs : List (Contender V)} {s : RState V} {t u : ℕ} (h : t ≠ u) : (rstep cs s u).pc t = s.pc t := by
  unfold rstep
  cases cs[u]? with
  | none => rfl
  | some k' =>
    simp only
    cases s.pc u with
    | load i =>
      simp only
      cases k'.cells[i]? with
      | none => rfl
      | some c =>
        simp only
        split <;> simp only [Function.update_of_ne h]
    | cas i seen =>
      simp only
      cases k'.cells[i]? with
      | none => rfl
      | some c =>
        simp only
        split <;> simp only [Function.update_of_ne h]

theorem ractive_back {cs : List (Contender V)} {s : RState V} {t u : ℕ} (h : ractive cs (rstep cs s u) t = true) :
    ractive cs s t = true := by
  by_cases e : t = u
  · subst e
    unfold ractive at h ⊢
    cases hk : cs[t]? with
    | none => simp [hk] at h
    | some k =>
      simp only [hk, decide_eq_true_eq] at h ⊢
      by_contra hlt
      have hs : rstep cs s t = s := by
        unfold rstep
        rw [hk]
        simp only
        cases hp : s.pc t with
        | load i =>
          rw [hp] at hlt
          simp only [RPc.pos] at hlt
          simp only [List.getElem?_eq_none (show k.cells.length ≤ i by omega)]
        | cas i seen =>
          rw [hp] at hlt
          simp only [RPc.pos] at hlt
          simp only [List.getElem?_eq_none (show k.cells.length ≤ i by omega)]
      rw [hs] at h
      exact hlt h
  · unfold ractive at h ⊢
    rw [rstep_pc_ne e] at h
    exact h

theorem ractive_back_run {cs : List (Contender V)} {t : ℕ} (sched : List ℕ) :
    ∀ s : RState V, ractive cs (sched.foldl (rstep cs) s) t = true → ractive cs s t = true := by
  induction sched with
  | nil => exact fun s h => h
  | cons u l ih => exact fun s h => ractive_back (ih _ h)

theorem count_le_rwork {cs : List (Contender V)} {t : ℕ} (sched : List ℕ) :
    ∀ s : RState V, ractive cs (sched.foldl (rstep cs) s) t = true → sched.count t ≤ rwork cs s sched := by
  induction sched with
  | nil => exact fun s h => by simp
  | cons u l ih =>
    intro s h
    have h1 := ih (rstep cs s u) h
    rw [rwork]
    by_cases e : u = t
    · subst e
      rw [List.count_cons_self, if_pos (ractive_back_run (u :: l) s h)]
      omega
    · rw [List.count_cons_of_ne e]
      omega

/-- A bound on the accesses of the reserve phase for `T` threads and cells below `M`. -/
def reserveBound (T M : ℕ) : ℕ := 2 * (T * M) + 2 * T * (M * T) + 1

/-- If every thread occurs often enough, all are through the reserve phase; `L` bounds the lengths of the lists. -/
theorem rdone_of_fair_len {neutral : V} {cs : List (Contender V)} {M L : ℕ} (hM : ∀ k ∈ cs, ∀ c ∈ k.cells, c < M)
    (hlen : ∀ k ∈ cs, k.cells.length ≤ L) {sched : List ℕ}
    (hf : ∀ t < cs.length, 2 * (cs.length * L) + 2 * cs.length * (M * cs.length) + 1 ≤ sched.count t) (t : ℕ) :
    rdone cs (reserve neutral cs sched) t := by
  intro k hk
  have hinv := rinv_run sched _ (rinv_start neutral cs)
  have ht : t < cs.length := (List.getElem?_eq_some_iff.mp hk).1
  have hno : ¬ ractive cs (reserve neutral cs sched) t = true := by
    intro ha
    have h1 := count_le_rwork sched _ ha
    have h2 := c40_reserve_terminates neutral cs hM sched
    have h3 : (∑ t ∈ Finset.range cs.length, ((cs[t]?.map fun k => k.cells.length).getD 0)) ≤ cs.length * L := by
      calc (∑ t ∈ Finset.range cs.length, ((cs[t]?.map fun k => k.cells.length).getD 0))
          ≤ ∑ t ∈ Finset.range cs.length, L := by
            apply Finset.sum_le_sum
            intro i _
            rcases e : cs[i]? with _ | k'
            · simp
            · simpa using hlen k' (List.mem_of_getElem? e)
        _ = cs.length * L := by simp
    have h4 := hf t ht
    omega
  unfold ractive at hno
  simp only [hk, decide_eq_true_eq] at hno
  have hle := hinv.le t k hk
  unfold reserve at hno ⊢
  cases hp : (sched.foldl (rstep cs) ⟨fun _ => neutral, fun _ => .load 0⟩).pc t with
  | load i =>
    rw [hp] at hle hno
    simp only [RPc.pos] at hle hno
    congr 1
    omega
  | cas i seen =>
    have := (hinv.cas t k i seen hk hp).1
    rw [hp] at hno
    exact absurd this hno

/-- If every thread occurs often enough, all are through the reserve phase. -/
theorem rdone_of_fair {neutral : V} {cs : List (Contender V)} {M : ℕ} (hM : ∀ k ∈ cs, ∀ c ∈ k.cells, c < M)
    (hnd : ∀ k ∈ cs, k.cells.Nodup) {sched : List ℕ}
    (hf : ∀ t < cs.length, reserveBound cs.length M ≤ sched.count t) (t : ℕ) :
    rdone cs (reserve neutral cs sched) t := by
  refine rdone_of_fair_len hM ?_ hf t
  intro k hk
  have : k.cells.toFinset ⊆ Finset.range M := by
    intro c hc
    exact Finset.mem_range.mpr (hM k hk c (List.mem_toFinset.mp hc))
  have := Finset.card_le_card this
  rwa [List.toFinset_card_of_nodup (hnd k hk), Finset.card_range] at this

theorem cstep_pc_ne {neutral : V} {cs : List (Contender V)} {s : CState V} {t u : ℕ} (h : t ≠ u) :
    (cstep neutral cs s u).pc t = s.pc t := by
  unfold cstep
  cases cs[u]? with
  | none => rfl
  | some k' =>
    simp only
    cases s.pc u with
    | test i fl =>
      simp only
      cases k'.cells[i]? with
      | none => rfl
      | some c =>
        simp only
        split <;> simp only [Function.update_of_ne h]
    | reset i fl =>
      simp only
      cases k'.cells[i]? with
      | none => rfl
      | some c => simp only [Function.update_of_ne h]

theorem cpos_back {neutral : V} {cs : List (Contender V)} {s : CState V} {t u : ℕ} {k : Contender V}
    (hk : cs[t]? = some k) (h : ((cstep neutral cs s u).pc t).pos < k.cells.length) :
    (s.pc t).pos < k.cells.length := by
  by_cases e : t = u
  · subst e
    by_contra hlt
    have hs : cstep neutral cs s t = s := by
      unfold cstep
      rw [hk]
      simp only
      cases hp : s.pc t with
      | test i fl =>
        rw [hp] at hlt
        simp only [CPc.pos] at hlt
        simp only [List.getElem?_eq_none (show k.cells.length ≤ i by omega)]
      | reset i fl =>
        rw [hp] at hlt
        simp only [CPc.pos] at hlt
        simp only [List.getElem?_eq_none (show k.cells.length ≤ i by omega)]
    rw [hs] at h
    exact hlt h
  · rwa [cstep_pc_ne e] at h

theorem cpos_back_run {neutral : V} {cs : List (Contender V)} {t : ℕ} {k : Contender V} (hk : cs[t]? = some k)
    (sched : List ℕ) : ∀ s : CState V, ((sched.foldl (cstep neutral cs) s).pc t).pos < k.cells.length →
      (s.pc t).pos < k.cells.length := by
  induction sched with
  | nil => exact fun s h => h
  | cons u l ih => exact fun s h => cpos_back hk (ih _ h)

theorem count_le_cwork {neutral : V} {cs : List (Contender V)} {t : ℕ} {k : Contender V} (hk : cs[t]? = some k)
    (sched : List ℕ) : ∀ s : CState V, ((sched.foldl (cstep neutral cs) s).pc t).pos < k.cells.length →
      sched.count t ≤ cwork neutral cs t k s sched := by
  induction sched with
  | nil => exact fun s h => by simp
  | cons u l ih =>
    intro s h
    have h1 := ih (cstep neutral cs s u) h
    rw [cwork]
    by_cases e : u = t
    · subst e
      rw [List.count_cons_self, if_pos ⟨rfl, cpos_back_run hk (u :: l) s h⟩]
      omega
    · rw [List.count_cons_of_ne e]
      omega

/-- If every thread occurs often enough, all are through the check phase. -/
theorem cdone_of_fair {neutral : V} {cs : List (Contender V)} (hid : GoodIds neutral cs)
    (hnd : ∀ k ∈ cs, k.cells.Nodup) (w : ℕ → V) {sched : List ℕ}
    (hf : ∀ (t : ℕ) (k : Contender V), cs[t]? = some k → 2 * k.cells.length < sched.count t) :
    CDone cs (check neutral cs w sched) := by
  intro t ht
  have hy : CHyp neutral cs := ⟨hid.inj, fun k hk => (hid.pos k hk).ne', hnd⟩
  have hinv := cinv_run hy sched _ (cinv_start (neutral := neutral) (cs := cs) w)
  have hk : cs[t]? = some cs[t] := List.getElem?_eq_getElem ht
  generalize cs[t] = k at hk
  have hno : ¬ ((check neutral cs w sched).pc t).pos < k.cells.length := by
    intro ha
    have h1 := count_le_cwork hk sched _ ha
    have h2 := c40_check_terminates neutral hk w sched
    have h3 := hf t k hk
    omega
  have hle := hinv.le t k hk
  unfold check at hno ⊢
  unfold won
  rw [hk]
  cases hp : (sched.foldl (cstep neutral cs) ⟨w, fun _ => .test 0 false⟩).pc t with
  | test i fl =>
    rw [hp] at hle hno
    simp only [CPc.pos] at hle hno
    have : i = k.cells.length := by omega
    simp [this]
  | reset i fl =>
    obtain ⟨c, h1, -⟩ := hinv.reset t k i fl hk hp
    rw [hp] at hno
    exact absurd (List.getElem?_eq_some_iff.mp h1).1 hno

end Verif.Reserve
