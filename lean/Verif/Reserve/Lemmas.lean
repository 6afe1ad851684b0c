import Verif.Reserve.Model
import Mathlib.Algebra.BigOperators.Group.Finset.Basic
import Mathlib.Algebra.Order.BigOperators.Group.Finset
import Mathlib.Data.List.Nodup
import Mathlib.Tactic.Ring
import Mathlib.Tactic.Linarith

set_option linter.unusedSectionVars false
set_option linter.unusedVariables false

/-!
Invariants of the reserve phase and of the check phase.
-/

namespace Verif.Reserve

variable {V : Type} [LinearOrder V]

/-- Position of a thread in its list. -/
def RPc.pos : RPc V → ℕ
  | .load i => i
  | .cas i _ => i

/-- Invariant of the reserve phase. -/
structure RInv (neutral : V) (cs : List (Contender V)) (s : RState V) : Prop where
  src : ∀ c, s.mem c = neutral ∨ ∃ k ∈ cs, c ∈ k.cells ∧ s.mem c = k.id
  le : ∀ t k, cs[t]? = some k → (s.pc t).pos ≤ k.cells.length
  past : ∀ (t : ℕ) (k : Contender V) (j c : ℕ), cs[t]? = some k → j < (s.pc t).pos → k.cells[j]? = some c →
    k.id ≤ s.mem c
  cas : ∀ (t : ℕ) (k : Contender V) (i : ℕ) (seen : V), cs[t]? = some k → s.pc t = .cas i seen →
    i < k.cells.length ∧ seen < k.id

theorem rinv_start (neutral : V) (cs : List (Contender V)) :
    RInv neutral cs ⟨fun _ => neutral, fun _ => .load 0⟩ :=
  ⟨fun _ => Or.inl rfl, fun _ _ _ => by simp [RPc.pos], fun t k j c _ hj => by simp [RPc.pos] at hj,
    fun t k i seen _ h => by simp at h⟩

theorem rinv_step {neutral : V} {cs : List (Contender V)} {s : RState V} (h : RInv neutral cs s) (t : ℕ) :
    RInv neutral cs (rstep cs s t) := by
  unfold rstep
  cases hk : cs[t]? with
  | none => exact h
  | some k =>
    simp only
    cases hp : s.pc t with
    | load i =>
      simp only
      cases hc : k.cells[i]? with
      | none => exact h
      | some c =>
        simp only
        have hi : i < k.cells.length := (List.getElem?_eq_some_iff.mp hc).1
        split
        · rename_i hlt
          refine ⟨h.src, ?_, ?_, ?_⟩
          · intro t' k' hk'
            by_cases ht : t' = t
            · subst ht
              rw [hk] at hk'
              simp only [Option.some.injEq] at hk'
              subst hk'
              simpa [RPc.pos] using hi.le
            · simpa [Function.update_of_ne ht] using h.le t' k' hk'
          · intro t' k' j c' hk' hj hc'
            by_cases ht : t' = t
            · subst ht
              refine h.past t' k' j c' hk' ?_ hc'
              simpa [hp, RPc.pos] using hj
            · refine h.past t' k' j c' hk' ?_ hc'
              simpa [Function.update_of_ne ht] using hj
          · intro t' k' i' seen hk' hpc
            by_cases ht : t' = t
            · subst ht
              rw [hk] at hk'
              simp only [Option.some.injEq] at hk'
              subst hk'
              simp only [Function.update_self, RPc.cas.injEq] at hpc
              obtain ⟨rfl, rfl⟩ := hpc
              exact ⟨hi, hlt⟩
            · simp only [Function.update_of_ne ht] at hpc
              exact h.cas t' k' i' seen hk' hpc
        · rename_i hge
          refine ⟨h.src, ?_, ?_, ?_⟩
          · intro t' k' hk'
            by_cases ht : t' = t
            · subst ht
              rw [hk] at hk'
              simp only [Option.some.injEq] at hk'
              subst hk'
              simpa [RPc.pos] using Nat.succ_le_of_lt hi
            · simpa [Function.update_of_ne ht] using h.le t' k' hk'
          · intro t' k' j c' hk' hj hc'
            by_cases ht : t' = t
            · subst ht
              simp only [Function.update_self, RPc.pos] at hj
              by_cases hji : j = i
              · subst hji
                rw [hk] at hk'
                simp only [Option.some.injEq] at hk'
                subst hk'
                rw [hc] at hc'
                simp only [Option.some.injEq] at hc'
                subst hc'
                exact not_lt.mp hge
              · refine h.past t' k' j c' hk' ?_ hc'
                simp only [hp, RPc.pos]
                omega
            · refine h.past t' k' j c' hk' ?_ hc'
              simpa [Function.update_of_ne ht] using hj
          · intro t' k' i' seen hk' hpc
            by_cases ht : t' = t
            · subst ht
              simp at hpc
            · simp only [Function.update_of_ne ht] at hpc
              exact h.cas t' k' i' seen hk' hpc
    | cas i seen =>
      simp only
      obtain ⟨hi, hlt⟩ := h.cas t k i seen hk hp
      cases hc : k.cells[i]? with
      | none => exact h
      | some c =>
        simp only
        split
        · rename_i heq
          have hmono : ∀ c', s.mem c' ≤ Function.update s.mem c k.id c' := by
            intro c'
            by_cases hcc : c' = c
            · subst hcc
              rw [Function.update_self, heq]
              exact hlt.le
            · rw [Function.update_of_ne hcc]
          refine ⟨?_, ?_, ?_, ?_⟩
          · intro c'
            by_cases hcc : c' = c
            · subst hcc
              right
              exact ⟨k, List.mem_of_getElem? hk, List.mem_of_getElem? hc, by simp⟩
            · simp only [Function.update_of_ne hcc]
              exact h.src c'
          · intro t' k' hk'
            by_cases ht : t' = t
            · subst ht
              rw [hk] at hk'
              simp only [Option.some.injEq] at hk'
              subst hk'
              simpa [RPc.pos] using Nat.succ_le_of_lt hi
            · simpa [Function.update_of_ne ht] using h.le t' k' hk'
          · intro t' k' j c' hk' hj hc'
            by_cases ht : t' = t
            · subst ht
              simp only [Function.update_self, RPc.pos] at hj
              by_cases hji : j = i
              · subst hji
                rw [hk] at hk'
                simp only [Option.some.injEq] at hk'
                subst hk'
                rw [hc] at hc'
                simp only [Option.some.injEq] at hc'
                subst hc'
                simp
              · refine (h.past t' k' j c' hk' ?_ hc').trans (hmono c')
                simp only [hp, RPc.pos]
                omega
            · refine (h.past t' k' j c' hk' ?_ hc').trans (hmono c')
              simpa [Function.update_of_ne ht] using hj
          · intro t' k' i' seen' hk' hpc
            by_cases ht : t' = t
            · subst ht
              simp at hpc
            · simp only [Function.update_of_ne ht] at hpc
              exact h.cas t' k' i' seen' hk' hpc
        · refine ⟨h.src, ?_, ?_, ?_⟩
          · intro t' k' hk'
            by_cases ht : t' = t
            · subst ht
              rw [hk] at hk'
              simp only [Option.some.injEq] at hk'
              subst hk'
              simpa [RPc.pos] using hi.le
            · simpa [Function.update_of_ne ht] using h.le t' k' hk'
          · intro t' k' j c' hk' hj hc'
            by_cases ht : t' = t
            · subst ht
              refine h.past t' k' j c' hk' ?_ hc'
              simpa [hp, RPc.pos] using hj
            · refine h.past t' k' j c' hk' ?_ hc'
              simpa [Function.update_of_ne ht] using hj
          · intro t' k' i' seen' hk' hpc
            by_cases ht : t' = t
            · subst ht
              simp at hpc
            · simp only [Function.update_of_ne ht] at hpc
              exact h.cas t' k' i' seen' hk' hpc

theorem rinv_run {neutral : V} {cs : List (Contender V)} (sched : List ℕ) (s : RState V) (h : RInv neutral cs s) :
    RInv neutral cs (sched.foldl (rstep cs) s) := by
  induction sched generalizing s with
  | nil => exact h
  | cons t l ih => exact ih _ (rinv_step h t)

/-- Specification of the reserve phase: each cell holds the greatest id of the contenders that have it, or the neutral
value if none has it. -/
structure Reserved (neutral : V) (cs : List (Contender V)) (mem : ℕ → V) : Prop where
  max : ∀ k ∈ cs, ∀ c ∈ k.cells, k.id ≤ mem c
  src : ∀ c, mem c = neutral ∨ ∃ k ∈ cs, c ∈ k.cells ∧ mem c = k.id

theorem reserve_reserved {neutral : V} {cs : List (Contender V)} {sched : List ℕ}
    (hd : ∀ t, rdone cs (reserve neutral cs sched) t) : Reserved neutral cs (reserve neutral cs sched).mem := by
  have h := rinv_run sched _ (rinv_start neutral cs)
  refine ⟨?_, h.src⟩
  intro k hk c hc
  obtain ⟨t, ht⟩ := List.mem_iff_getElem?.mp hk
  obtain ⟨j, hj⟩ := List.mem_iff_getElem?.mp hc
  refine h.past t k j c ht ?_ hj
  have := hd t k ht
  unfold reserve at this
  rw [this]
  exact (List.getElem?_eq_some_iff.mp hj).1

/-! ### The reserve phase ends -/

/-- Thread `t` has something to do. -/
def ractive (cs : List (Contender V)) (s : RState V) (t : ℕ) : Bool :=
  match cs[t]? with
  | none => false
  | some k => decide ((s.pc t).pos < k.cells.length)

/-- Number of memory accesses along a schedule made by threads that are not through. -/
def rwork (cs : List (Contender V)) : RState V → List ℕ → ℕ
  | _, [] => 0
  | s, t :: l => (if ractive cs s t then 1 else 0) + rwork cs (rstep cs s t) l

/-- Contenders above the value `m`. -/
def above (cs : List (Contender V)) (m : V) : ℕ := cs.countP fun k => decide (m < k.id)

theorem above_mono {cs : List (Contender V)} {m m' : V} (h : m ≤ m') : above cs m' ≤ above cs m := by
  unfold above
  apply List.countP_mono_left
  intro k _ hk
  simp only [decide_eq_true_eq] at hk ⊢
  exact lt_of_le_of_lt h hk

theorem above_lt {cs : List (Contender V)} {m : V} {k : Contender V} (hk : k ∈ cs) (h : m < k.id) :
    above cs k.id < above cs m := by
  induction cs with
  | nil => simp at hk
  | cons a l ih =>
    unfold above at ih ⊢
    rw [List.countP_cons, List.countP_cons]
    have hmono := above_mono (cs := l) h.le
    unfold above at hmono
    rw [List.mem_cons] at hk
    rcases hk with rfl | hk
    · simp only [lt_self_iff_false, decide_false, Bool.false_eq_true, if_false, Nat.add_zero, h, decide_true, if_true]
      omega
    · have := ih hk
      by_cases h1 : k.id < a.id
      · have h2 : m < a.id := h.trans h1
        simp only [h1, h2, decide_true, if_true]
        omega
      · simp only [h1, decide_false, Bool.false_eq_true, if_false]
        omega

/-- Potential of one thread. -/
def thr (k : Contender V) (mem : ℕ → V) : RPc V → ℕ
  | .load i => 2 * (k.cells.length - i)
  | .cas i seen => 2 * (k.cells.length - i - 1) + if mem (k.cells.getD i 0) = seen then 1 else 3

/-- Potential of the threads together. -/
def thrs (cs : List (Contender V)) (s : RState V) : ℕ :=
  ∑ t ∈ Finset.range cs.length, match cs[t]? with
    | none => 0
    | some k => thr k s.mem (s.pc t)

/-- Potential of the cells. -/
def cellPot (M : ℕ) (cs : List (Contender V)) (mem : ℕ → V) : ℕ := ∑ c ∈ Finset.range M, above cs (mem c)

theorem thrs_update {cs : List (Contender V)} {s : RState V} {t : ℕ} {k : Contender V} (hk : cs[t]? = some k)
    (p : RPc V) (h : thr k s.mem p < thr k s.mem (s.pc t)) :
    thrs cs ⟨s.mem, Function.update s.pc t p⟩ < thrs cs s := by
  have ht : t < cs.length := (List.getElem?_eq_some_iff.mp hk).1
  unfold thrs
  apply Finset.sum_lt_sum
  · intro i hi
    by_cases hit : i = t
    · subst hit
      simp only [hk, Function.update_self]
      exact h.le
    · simp only [Function.update_of_ne hit]
      exact le_refl _
  · refine ⟨t, Finset.mem_range.mpr ht, ?_⟩
    simp only [hk, Function.update_self]
    exact h

theorem thr_le_mem (k : Contender V) (mem mem' : ℕ → V) (p : RPc V) : thr k mem' p ≤ thr k mem p + 2 := by
  unfold thr
  split
  · omega
  · split <;> split <;> omega

theorem pot_step {neutral : V} {cs : List (Contender V)} {s : RState V} {M : ℕ} (h : RInv neutral cs s)
    (hM : ∀ k ∈ cs, ∀ c ∈ k.cells, c < M) {t : ℕ} (hact : ractive cs s t = true) :
    thrs cs (rstep cs s t) + 2 * cs.length * cellPot M cs (rstep cs s t).mem <
      thrs cs s + 2 * cs.length * cellPot M cs s.mem := by
  unfold ractive at hact
  unfold rstep
  cases hk : cs[t]? with
  | none => simp [hk] at hact
  | some k =>
    simp only [hk, decide_eq_true_eq] at hact
    have ht : t < cs.length := (List.getElem?_eq_some_iff.mp hk).1
    simp only
    cases hp : s.pc t with
    | load i =>
      simp only [hp, RPc.pos] at hact
      simp only
      have hc : k.cells[i]? = some k.cells[i] := List.getElem?_eq_getElem hact
      rw [hc]
      simp only
      split
      · apply Nat.add_lt_add_right
        apply thrs_update hk
        rw [hp]
        unfold thr
        simp only [List.getD_eq_getElem?_getD, hc, Option.getD_some, if_true]
        omega
      · apply Nat.add_lt_add_right
        apply thrs_update hk
        rw [hp]
        unfold thr
        simp only
        omega
    | cas i seen =>
      simp only [hp, RPc.pos] at hact
      simp only
      have hc : k.cells[i]? = some k.cells[i] := List.getElem?_eq_getElem hact
      rw [hc]
      simp only
      obtain ⟨_, hlt⟩ := h.cas t k i seen hk hp
      split
      · rename_i heq
        have hkm : k ∈ cs := List.mem_of_getElem? hk
        have hcM : k.cells[i] < M := hM k hkm _ (List.getElem_mem hact)
        have h1 : cellPot M cs (Function.update s.mem k.cells[i] k.id) < cellPot M cs s.mem := by
          unfold cellPot
          apply Finset.sum_lt_sum
          · intro c _
            by_cases hcc : c = k.cells[i]
            · subst hcc
              rw [Function.update_self]
              exact above_mono (by rw [heq]; exact hlt.le)
            · rw [Function.update_of_ne hcc]
          · refine ⟨k.cells[i], Finset.mem_range.mpr hcM, ?_⟩
            rw [Function.update_self]
            exact above_lt hkm (by rw [heq]; exact hlt)
        have h2 : thrs cs ⟨Function.update s.mem k.cells[i] k.id, Function.update s.pc t (.load (i + 1))⟩ <
            thrs cs s + 2 * cs.length := by
          have e : thrs cs s + 2 * cs.length = ∑ t ∈ Finset.range cs.length, ((match cs[t]? with
              | none => 0
              | some k => thr k s.mem (s.pc t)) + 2) := by
            unfold thrs
            rw [Finset.sum_add_distrib]
            simp [mul_comm]
          rw [e]
          unfold thrs
          apply Finset.sum_lt_sum
          · intro j hj
            cases hkj : cs[j]? with
            | none => simp
            | some kj =>
              simp only
              by_cases hjt : j = t
              · subst hjt
                rw [hk] at hkj
                simp only [Option.some.injEq] at hkj
                subst hkj
                rw [Function.update_self, hp]
                unfold thr
                simp only
                split <;> omega
              · rw [Function.update_of_ne hjt]
                exact thr_le_mem _ _ _ _
          · refine ⟨t, Finset.mem_range.mpr ht, ?_⟩
            rw [hk]
            simp only
            rw [Function.update_self, hp]
            unfold thr
            simp only
            split <;> omega
        have h3 : 2 * cs.length * (cellPot M cs (Function.update s.mem k.cells[i] k.id) + 1) ≤
            2 * cs.length * cellPot M cs s.mem := Nat.mul_le_mul_left _ h1
        rw [Nat.mul_add, Nat.mul_one] at h3
        show thrs cs ⟨Function.update s.mem k.cells[i] k.id, Function.update s.pc t (.load (i + 1))⟩ +
          2 * cs.length * cellPot M cs (Function.update s.mem k.cells[i] k.id) < _
        omega
      · rename_i hne
        apply Nat.add_lt_add_right
        apply thrs_update hk
        rw [hp]
        unfold thr
        simp only [List.getD_eq_getElem?_getD, hc, Option.getD_some, if_neg hne]
        omega

theorem rwork_le {neutral : V} {cs : List (Contender V)} {M : ℕ} (hM : ∀ k ∈ cs, ∀ c ∈ k.cells, c < M)
    (sched : List ℕ) (s : RState V) (h : RInv neutral cs s) :
    rwork cs s sched ≤ thrs cs s + 2 * cs.length * cellPot M cs s.mem := by
  induction sched generalizing s with
  | nil => simp [rwork]
  | cons t l ih =>
    have ih' := ih _ (rinv_step h t)
    rw [rwork]
    by_cases hact : ractive cs s t = true
    · have := pot_step h hM hact
      rw [if_pos hact]
      omega
    · rw [if_neg hact]
      have : rstep cs s t = s := by
        unfold rstep
        unfold ractive at hact
        cases hk : cs[t]? with
        | none => rfl
        | some k =>
          simp only [hk, decide_eq_true_eq, not_lt] at hact
          simp only
          cases hp : s.pc t with
          | load i =>
            simp only [hp, RPc.pos] at hact
            simp only
            rw [List.getElem?_eq_none hact]
          | cas i seen =>
            simp only [hp, RPc.pos] at hact
            simp only
            rw [List.getElem?_eq_none hact]
      rw [this] at ih'
      rw [this]
      omega

/-! ### Check phase -/

/-- Position of a thread in its list. -/
def CPc.pos : CPc → ℕ
  | .test i _ => i
  | .reset i _ => i

/-- The flag of a thread. -/
def CPc.flag : CPc → Bool
  | .test _ fl => fl
  | .reset _ fl => fl

/-- Invariant of the check phase; `w` are the cells at its start. -/
structure CInv (neutral : V) (cs : List (Contender V)) (w : ℕ → V) (s : CState V) : Prop where
  mem : ∀ c, s.mem c = w c ∨ s.mem c = neutral
  le : ∀ t k, cs[t]? = some k → (s.pc t).pos ≤ k.cells.length
  past : ∀ (t : ℕ) (k : Contender V) (j c : ℕ), cs[t]? = some k → j < (s.pc t).pos → k.cells[j]? = some c →
    w c = k.id → s.mem c = neutral
  todo : ∀ (t : ℕ) (k : Contender V) (j c : ℕ), cs[t]? = some k → (s.pc t).pos ≤ j → k.cells[j]? = some c →
    w c = k.id → s.mem c = k.id
  flag : ∀ t k, cs[t]? = some k →
    ((s.pc t).flag = true ↔ ∃ j c, j < (s.pc t).pos ∧ k.cells[j]? = some c ∧ w c ≠ k.id)
  reset : ∀ (t : ℕ) (k : Contender V) (i : ℕ) (fl : Bool), cs[t]? = some k → s.pc t = .reset i fl →
    ∃ c, k.cells[i]? = some c ∧ w c = k.id

theorem cinv_start {neutral : V} {cs : List (Contender V)} (w : ℕ → V) :
    CInv neutral cs w ⟨w, fun _ => .test 0 false⟩ :=
  ⟨fun _ => Or.inl rfl, fun _ _ _ => by simp [CPc.pos], fun t k j c _ hj => by simp [CPc.pos] at hj,
    fun t k j c _ _ _ h => h, fun t k _ => by simp [CPc.flag, CPc.pos], fun t k i fl _ h => by simp at h⟩

/-- What the check phase relies on. -/
structure CHyp (neutral : V) (cs : List (Contender V)) : Prop where
  ids : ∀ (t t' : ℕ) (k k' : Contender V), cs[t]? = some k → cs[t']? = some k' → k.id = k'.id → t = t'
  neutral : ∀ k ∈ cs, k.id ≠ neutral
  nodup : ∀ k ∈ cs, k.cells.Nodup

theorem cinv_step {neutral : V} {cs : List (Contender V)} (hy : CHyp neutral cs) {w : ℕ → V} {s : CState V}
    (h : CInv neutral cs w s) (t : ℕ) : CInv neutral cs w (cstep neutral cs s t) := by
  unfold cstep
  cases hk : cs[t]? with
  | none => exact h
  | some k =>
    simp only
    have hkm : k ∈ cs := List.mem_of_getElem? hk
    have same : ∀ k', cs[t]? = some k' → k' = k := by
      intro k' hk'
      rw [hk] at hk'
      simpa using hk'.symm
    cases hp : s.pc t with
    | test i fl =>
      simp only
      cases hc : k.cells[i]? with
      | none => exact h
      | some c =>
        simp only
        have hi : i < k.cells.length := (List.getElem?_eq_some_iff.mp hc).1
        split
        · rename_i heq
          have hw : w c = k.id := by
            rcases h.mem c with h1 | h1
            · rw [← h1, heq]
            · exact absurd (heq.symm.trans h1) (hy.neutral k hkm)
          have hpos : ∀ t', ((Function.update s.pc t (.reset i fl)) t').pos = (s.pc t').pos := by
            intro t'
            by_cases ht : t' = t
            · subst ht
              rw [Function.update_self, hp]
              rfl
            · rw [Function.update_of_ne ht]
          have hfl : ∀ t', ((Function.update s.pc t (.reset i fl)) t').flag = (s.pc t').flag := by
            intro t'
            by_cases ht : t' = t
            · subst ht
              rw [Function.update_self, hp]
              rfl
            · rw [Function.update_of_ne ht]
          refine ⟨h.mem, ?_, ?_, ?_, ?_, ?_⟩
          · intro t' k' hk'
            simp only [hpos]
            exact h.le t' k' hk'
          · intro t' k' j c' hk' hj
            simp only [hpos] at hj
            exact h.past t' k' j c' hk' hj
          · intro t' k' j c' hk' hj
            simp only [hpos] at hj
            exact h.todo t' k' j c' hk' hj
          · intro t' k' hk'
            simp only [hpos, hfl]
            exact h.flag t' k' hk'
          · intro t' k' i' fl' hk' hpc
            by_cases ht : t' = t
            · subst ht
              obtain rfl := same k' hk'
              simp only [Function.update_self, CPc.reset.injEq] at hpc
              obtain ⟨rfl, rfl⟩ := hpc
              exact ⟨c, hc, hw⟩
            · simp only [Function.update_of_ne ht] at hpc
              exact h.reset t' k' i' fl' hk' hpc
        · rename_i hne
          have hw : w c ≠ k.id := by
            intro hw
            exact hne (h.todo t k i c hk (by rw [hp]; exact le_refl _) hc hw)
          refine ⟨h.mem, ?_, ?_, ?_, ?_, ?_⟩
          · intro t' k' hk'
            by_cases ht : t' = t
            · subst ht
              obtain rfl := same k' hk'
              simpa [CPc.pos] using Nat.succ_le_of_lt hi
            · simpa [Function.update_of_ne ht] using h.le t' k' hk'
          · intro t' k' j c' hk' hj hc' hw'
            by_cases ht : t' = t
            · subst ht
              obtain rfl := same k' hk'
              simp only [Function.update_self, CPc.pos] at hj
              by_cases hji : j = i
              · subst hji
                rw [hc] at hc'
                simp only [Option.some.injEq] at hc'
                subst hc'
                exact absurd hw' hw
              · refine h.past t' k' j c' hk' ?_ hc' hw'
                rw [hp]
                simp only [CPc.pos]
                omega
            · simp only [Function.update_of_ne ht] at hj
              exact h.past t' k' j c' hk' hj hc' hw'
          · intro t' k' j c' hk' hj hc' hw'
            by_cases ht : t' = t
            · subst ht
              simp only [Function.update_self, CPc.pos] at hj
              refine h.todo t' k' j c' hk' ?_ hc' hw'
              rw [hp]
              simp only [CPc.pos]
              omega
            · simp only [Function.update_of_ne ht] at hj
              exact h.todo t' k' j c' hk' hj hc' hw'
          · intro t' k' hk'
            by_cases ht : t' = t
            · subst ht
              obtain rfl := same k' hk'
              simp only [Function.update_self, CPc.pos, CPc.flag, true_iff]
              exact ⟨i, c, by omega, hc, hw⟩
            · simp only [Function.update_of_ne ht]
              exact h.flag t' k' hk'
          · intro t' k' i' fl' hk' hpc
            by_cases ht : t' = t
            · subst ht
              simp at hpc
            · simp only [Function.update_of_ne ht] at hpc
              exact h.reset t' k' i' fl' hk' hpc
    | reset i fl =>
      simp only
      obtain ⟨c, hc, hw⟩ := h.reset t k i fl hk hp
      rw [hc]
      simp only
      have hi : i < k.cells.length := (List.getElem?_eq_some_iff.mp hc).1
      refine ⟨?_, ?_, ?_, ?_, ?_, ?_⟩
      · intro c'
        by_cases hcc : c' = c
        · subst hcc
          right
          simp
        · simp only [Function.update_of_ne hcc]
          exact h.mem c'
      · intro t' k' hk'
        by_cases ht : t' = t
        · subst ht
          obtain rfl := same k' hk'
          simpa [CPc.pos] using Nat.succ_le_of_lt hi
        · simpa [Function.update_of_ne ht] using h.le t' k' hk'
      · intro t' k' j c' hk' hj hc' hw'
        by_cases hcc : c' = c
        · subst hcc
          simp
        · simp only [Function.update_of_ne hcc]
          by_cases ht : t' = t
          · subst ht
            obtain rfl := same k' hk'
            simp only [Function.update_self, CPc.pos] at hj
            by_cases hji : j = i
            · subst hji
              rw [hc] at hc'
              simp only [Option.some.injEq] at hc'
              exact absurd hc'.symm hcc
            · refine h.past t' k' j c' hk' ?_ hc' hw'
              rw [hp]
              simp only [CPc.pos]
              omega
          · simp only [Function.update_of_ne ht] at hj
            exact h.past t' k' j c' hk' hj hc' hw'
      · intro t' k' j c' hk' hj hc' hw'
        have hold : (s.pc t').pos ≤ j := by
          by_cases ht : t' = t
          · subst ht
            simp only [Function.update_self, CPc.pos] at hj
            rw [hp]
            simp only [CPc.pos]
            omega
          · simpa only [Function.update_of_ne ht] using hj
        by_cases hcc : c' = c
        · exfalso
          subst hcc
          have : t' = t := hy.ids t' t k' k hk' hk (hw'.symm.trans hw)
          subst this
          obtain rfl := same k' hk'
          simp only [Function.update_self, CPc.pos] at hj
          have hj' : j < k'.cells.length := (List.getElem?_eq_some_iff.mp hc').1
          have : i = j := (List.Nodup.getElem_inj_iff (hy.nodup k' hkm)).mp (by
            have e1 := (List.getElem?_eq_some_iff.mp hc).2
            have e2 := (List.getElem?_eq_some_iff.mp hc').2
            rw [e1, e2])
          omega
        · simp only [Function.update_of_ne hcc]
          exact h.todo t' k' j c' hk' hold hc' hw'
      · intro t' k' hk'
        by_cases ht : t' = t
        · subst ht
          obtain rfl := same k' hk'
          have hf := h.flag t' k' hk'
          rw [hp] at hf
          simp only [CPc.flag, CPc.pos] at hf
          simp only [Function.update_self, CPc.pos, CPc.flag]
          rw [hf]
          constructor
          · rintro ⟨j, c', h1, h2⟩
            exact ⟨j, c', by omega, h2⟩
          · rintro ⟨j, c', h1, h2, h3⟩
            by_cases hji : j = i
            · subst hji
              rw [hc] at h2
              simp only [Option.some.injEq] at h2
              subst h2
              exact absurd hw h3
            · exact ⟨j, c', by omega, h2, h3⟩
        · simp only [Function.update_of_ne ht]
          exact h.flag t' k' hk'
      · intro t' k' i' fl' hk' hpc
        by_cases ht : t' = t
        · subst ht
          simp at hpc
        · simp only [Function.update_of_ne ht] at hpc
          exact h.reset t' k' i' fl' hk' hpc

theorem cinv_run {neutral : V} {cs : List (Contender V)} (hy : CHyp neutral cs) {w : ℕ → V} (sched : List ℕ)
    (s : CState V) (h : CInv neutral cs w s) : CInv neutral cs w (sched.foldl (cstep neutral cs) s) := by
  induction sched generalizing s with
  | nil => exact h
  | cons t l ih => exact ih _ (cinv_step hy h t)

/-- Number of memory accesses of thread `t` before it is through. -/
def cwork (neutral : V) (cs : List (Contender V)) (t : ℕ) (k : Contender V) : CState V → List ℕ → ℕ
  | _, [] => 0
  | s, u :: l => (if u = t ∧ (s.pc t).pos < k.cells.length then 1 else 0) +
      cwork neutral cs t k (cstep neutral cs s u) l

/-- Accesses left to a thread. -/
def cleft (k : Contender V) : CPc → ℕ
  | .test i _ => 2 * (k.cells.length - i)
  | .reset i _ => 2 * (k.cells.length - i) - 1

theorem cwork_le {neutral : V} {cs : List (Contender V)} {t : ℕ} {k : Contender V} (hk : cs[t]? = some k)
    (sched : List ℕ) (s : CState V) : cwork neutral cs t k s sched ≤ cleft k (s.pc t) := by
  induction sched generalizing s with
  | nil => simp [cwork]
  | cons u l ih =>
    rw [cwork]
    have ih' := ih (cstep neutral cs s u)
    suffices hs : (if u = t ∧ (s.pc t).pos < k.cells.length then 1 else 0) + cleft k ((cstep neutral cs s u).pc t) ≤
        cleft k (s.pc t) by omega
    by_cases hut : u = t
    · subst hut
      unfold cstep
      rw [hk]
      simp only
      cases hp : s.pc u with
      | test i fl =>
        simp only [CPc.pos, true_and]
        by_cases hi : i < k.cells.length
        · rw [if_pos hi, List.getElem?_eq_getElem hi]
          simp only
          split
          · simp only [Function.update_self, cleft]
            omega
          · simp only [Function.update_self, cleft]
            omega
        · rw [if_neg hi, List.getElem?_eq_none (by omega)]
          simp only [hp]
          omega
      | reset i fl =>
        simp only [CPc.pos, true_and]
        by_cases hi : i < k.cells.length
        · rw [if_pos hi, List.getElem?_eq_getElem hi]
          simp only [Function.update_self, cleft]
          omega
        · rw [if_neg hi, List.getElem?_eq_none (by omega)]
          simp only [hp]
          omega
    · have : (cstep neutral cs s u).pc t = s.pc t := by
        have hne : t ≠ u := fun h => hut h.symm
        unfold cstep
        cases cs[u]? with
        | none => rfl
        | some k' =>
          simp only
          cases s.pc u with
          | test i fl =>
            simp only
            cases k'.cells[i]? with
            | none => rfl
            | some c =>
              simp only
              split <;> simp only [Function.update_of_ne hne]
          | reset i fl =>
            simp only
            cases k'.cells[i]? with
            | none => rfl
            | some c => simp only [Function.update_of_ne hne]
      rw [this, if_neg (by tauto)]
      omega

end Verif.Reserve
