import Mathlib.Data.List.Basic
import Mathlib.Data.List.Range
import Mathlib.Order.Nat
import Mathlib.Data.Nat.Find
import Verif.Seb.PrefixModel

set_option linter.unusedSectionVars false
set_option linter.unusedVariables false

/-!
Property C35: the prefix-doubling loop has the same effect as the serial loop.
-/

namespace Verif.Seb

variable {σ : Type}

theorem serialFrom_add (process : σ → ℕ → Bool) (cleanUp : ℕ → σ → σ) (a b i : ℕ) (s : σ) :
    serialFrom process cleanUp (a + b) i s =
      ((serialFrom process cleanUp b (i + a) (serialFrom process cleanUp a i s).1).1,
        (serialFrom process cleanUp a i s).2 ++
          (serialFrom process cleanUp b (i + a) (serialFrom process cleanUp a i s).1).2) := by
  induction a generalizing i s with
  | zero => simp [serialFrom]
  | succ a ih =>
    have e : a + 1 + b = (a + b) + 1 := by omega
    have e2 : i + (a + 1) = i + 1 + a := by omega
    rw [e, serialFrom, serialFrom, e2]
    split
    · simp [ih]
    · rw [ih]

theorem serialFrom_none (process : σ → ℕ → Bool) (cleanUp : ℕ → σ → σ) (m i : ℕ) (s : σ)
    (h : ∀ j < m, process s (i + j) = false) : serialFrom process cleanUp m i s = (s, []) := by
  induction m generalizing i with
  | zero => rfl
  | succ m ih =>
    rw [serialFrom, if_neg (by simpa using h 0 (by omega))]
    exact ih (i + 1) fun j hj => by
      have := h (j + 1) (by omega)
      rwa [show i + 1 + j = i + (j + 1) by omega]

/-- `serial` keeps an invariant of the states and "no conflict before the current position". -/
theorem serialFrom_clean_inv (process : σ → ℕ → Bool) (cleanUp : ℕ → σ → σ) (n : ℕ) (I : σ → Prop)
    (H : ∀ i < n, ∀ s, I s → (∀ j < i, process s j = false) → process s i = true →
      I (cleanUp i s) ∧ ∀ j ≤ i, process (cleanUp i s) j = false)
    (m i : ℕ) (s : σ) (hI : I s) (hm : i + m ≤ n) (hs : ∀ j < i, process s j = false) :
    I (serialFrom process cleanUp m i s).1 ∧
      ∀ j < i + m, process (serialFrom process cleanUp m i s).1 j = false := by
  induction m generalizing i s with
  | zero => exact ⟨hI, by simpa [serialFrom] using hs⟩
  | succ m ih =>
    rw [serialFrom]
    have e : i + (m + 1) = i + 1 + m := by omega
    split
    · rename_i hp
      rw [e]
      have h := H i (by omega) s hI hs hp
      exact ih (i + 1) (cleanUp i s) h.1 (by omega) fun j hj => h.2 j (by omega)
    · rename_i hp
      rw [e]
      refine ih (i + 1) s hI (by omega) fun j hj => ?_
      rcases Nat.lt_succ_iff_lt_or_eq.mp hj with h | h
      · exact hs j h
      · rw [h]
        simpa using hp

theorem serialFrom_clean (process : σ → ℕ → Bool) (cleanUp : ℕ → σ → σ) (n : ℕ)
    (H : ∀ i < n, ∀ s, (∀ j < i, process s j = false) → process s i = true →
      ∀ j ≤ i, process (cleanUp i s) j = false)
    (m i : ℕ) (s : σ) (hm : i + m ≤ n) (hs : ∀ j < i, process s j = false) :
    ∀ j < i + m, process (serialFrom process cleanUp m i s).1 j = false :=
  (serialFrom_clean_inv process cleanUp n (fun _ => True)
    (fun i hi s _ h1 h2 => ⟨trivial, H i hi s h1 h2⟩) m i s trivial hm hs).2

theorem scan_get (process : σ → ℕ → Bool) (s : σ) (i m j : ℕ) (hj : j ≤ m) :
    (conflictScan process s i m)[j]? =
      some ((List.range j).filter fun k => process s (i + k)).length := by
  rw [conflictScan, List.getElem?_map, List.getElem?_range (by omega)]
  rfl

theorem filter_range_eq_zero (f : ℕ → Bool) (j : ℕ) :
    ((List.range j).filter f).length = 0 ↔ ∀ k < j, f k = false := by
  rw [List.length_eq_zero_iff, List.filter_eq_nil_iff]
  simp

/-- Exactly the first conflict writes `conflict`. -/
theorem conflictWriters_eq (process : σ → ℕ → Bool) (s : σ) (i m c : ℕ) (hc : c < m)
    (hp : process s (i + c) = true) (hfirst : ∀ k < c, process s (i + k) = false) :
    conflictWriters (conflictScan process s i m) m = [c] := by
  unfold conflictWriters
  have hiff : ∀ j ∈ List.range m, (decide ((conflictScan process s i m)[j]? = some 0 ∧
      (conflictScan process s i m)[j]? ≠ (conflictScan process s i m)[j + 1]?)) = decide (j = c) := by
    intro j hj
    rw [List.mem_range] at hj
    rw [scan_get _ _ _ _ _ (by omega), scan_get _ _ _ _ _ (by omega)]
    rw [decide_eq_decide]
    constructor
    · rintro ⟨h1, h2⟩
      have h0 := Option.some.inj h1
      rw [filter_range_eq_zero] at h0
      have hpj : process s (i + j) = true := by
        by_contra hcon
        apply h2
        rw [List.range_succ, List.filter_append]
        simp [hcon]
      rcases Nat.lt_trichotomy j c with h | h | h
      · rw [hfirst j h] at hpj
        cases hpj
      · exact h
      · have h3 := h0 c h
        simp only [hp] at h3
        cases h3
    · rintro rfl
      have h0 : ((List.range j).filter fun k => process s (i + k)).length = 0 := by
        rw [filter_range_eq_zero]
        exact hfirst
      refine ⟨by rw [h0], ?_⟩
      rw [h0, List.range_succ, List.filter_append]
      simp [hp]
  rw [List.filter_congr hiff]
  have : (List.range m).filter (fun j => decide (j = c)) = [c] := by
    have hn : (List.range m).Nodup := List.nodup_range
    have h1 : ((List.range m).filter (fun j => decide (j = c))).Perm [c] := by
      rw [List.perm_ext_iff_of_nodup (hn.filter _) (by simp)]
      intro x
      simp only [List.mem_filter, List.mem_range, decide_eq_true_eq, List.mem_singleton]
      constructor
      · exact fun h => h.2
      · rintro rfl
        exact ⟨hc, rfl⟩
    exact List.perm_singleton.mp h1
  exact this

theorem exists_first (f : ℕ → Bool) (m : ℕ) (h : ∃ k < m, f k = true) :
    ∃ c < m, f c = true ∧ ∀ k < c, f k = false := by
  classical
  have hex : ∃ k, k < m ∧ f k = true := by
    obtain ⟨k, h1, h2⟩ := h
    exact ⟨k, h1, h2⟩
  refine ⟨Nat.find hex, (Nat.find_spec hex).1, (Nat.find_spec hex).2, fun k hk => ?_⟩
  by_contra hc
  exact Nat.find_min hex hk ⟨lt_trans hk (Nat.find_spec hex).1, by simpa using hc⟩

theorem prefixLoop_eq (process : σ → ℕ → Bool) (cleanUp : ℕ → σ → σ) (pick : List ℕ → ℕ)
    (hpick : ∀ L, L ≠ [] → pick L ∈ L) (flagSize n PREFIX THRESH : ℕ) (hflag : n < flagSize)
    (hP0 : 0 < PREFIX) (hPn : PREFIX ≤ n) (I : σ → Prop)
    (H : ∀ i < n, ∀ s, I s → (∀ j < i, process s j = false) → process s i = true →
      I (cleanUp i s) ∧ ∀ j ≤ i, process (cleanUp i s) j = false)
    (fuel i : ℕ) (s : σ) (hI : I s) (hin : i ≤ n) (hs : ∀ j < i, process s j = false)
    (hfuel : 2 * (n - i) + (if process s i then 1 else 0) < fuel) :
    prefixLoop process cleanUp pick flagSize n PREFIX THRESH fuel i s =
      .ok (serialFrom process cleanUp (n - i) i s) := by
  induction fuel generalizing i s with
  | zero => omega
  | succ fuel ih =>
    rw [prefixLoop]
    by_cases hni : n ≤ i
    · rw [if_pos hni, show n - i = 0 by omega]
      rfl
    · rw [if_neg hni]
      have hpre1 : nextPrefix n PREFIX i ≤ n := by
        unfold nextPrefix
        split <;> omega
      have hpre2 : i < nextPrefix n PREFIX i := by
        unfold nextPrefix
        split <;> omega
      generalize hpre : nextPrefix n PREFIX i = pre at hpre1 hpre2
      simp only []
      rw [if_neg (by omega)]
      have hsplit : n - i = (pre - i) + (n - pre) := by omega
      have hnext : i + (pre - i) = pre := by omega
      have hser := serialFrom_add process cleanUp (pre - i) (n - pre) i s
      rw [← hsplit, hnext] at hser
      by_cases hth : pre - i < THRESH
      · have hcl := serialFrom_clean_inv process cleanUp n I H (pre - i) i s hI (by omega) hs
        rw [hnext] at hcl
        rw [if_pos hth, ih pre _ hcl.1 (by omega) hcl.2]
        · rw [hser]
          rfl
        · split <;> split at hfuel <;> omega
      · rw [if_neg hth, if_neg (by omega)]
        by_cases hex : ∃ k < pre - i, process s (i + k) = true
        · obtain ⟨c, hc, hpc, hfirst⟩ := exists_first (fun k => process s (i + k)) _ hex
          have hpos : 0 < ((conflictScan process s i (pre - i))[pre - i]?).getD 0 := by
            rw [scan_get _ _ _ _ _ le_rfl, Option.getD_some, Nat.pos_iff_ne_zero, Ne,
              filter_range_eq_zero]
            intro hall
            have := hall c hc
            simp only [hpc] at this
            cases this
          rw [if_pos hpos, conflictWriters_eq process s i (pre - i) c hc hpc hfirst]
          have hpk : pick [c] = c := by simpa using hpick [c] (by simp)
          simp only [hpk]
          have hsc : ∀ j < i + c, process s j = false := by
            intro j hj
            by_cases hji : j < i
            · exact hs j hji
            · have := hfirst (j - i) (by omega)
              rwa [show i + (j - i) = j by omega] at this
          obtain ⟨hIc, hclean⟩ := H (i + c) (by omega) s hI hsc hpc
          have hself : process (cleanUp (i + c) s) (i + c) = false := hclean _ le_rfl
          rw [ih (i + c) (cleanUp (i + c) s) hIc (by omega) fun j hj => hclean j (by omega)]
          · have e1 : n - i = c + (n - (i + c)) := by omega
            have e2 : n - (i + c) = (n - (i + c + 1)) + 1 := by omega
            rw [e1, serialFrom_add, serialFrom_none process cleanUp c i s hfirst]
            conv_rhs => rw [e2, serialFrom, if_pos hpc]
            conv_lhs => rw [e2, serialFrom, if_neg (by rw [hself]; simp)]
            rfl
          · rw [hself]
            simp only [Bool.false_eq_true, if_false]
            by_cases hc0 : c = 0
            · subst hc0
              rw [if_pos (by simpa using hpc)] at hfuel
              simp only [Nat.add_zero] at *
              omega
            · split at hfuel <;> omega
        · have hnone : ∀ k < pre - i, process s (i + k) = false := by
            intro k hk
            by_contra hcon
            exact hex ⟨k, hk, by simpa using hcon⟩
          rw [if_neg, ih pre s hI hpre1]
          · rw [hser, serialFrom_none process cleanUp _ i s hnone]
            rfl
          · intro j hj
            by_cases hji : j < i
            · exact hs j hji
            · have := hnone (j - i) (by omega)
              rwa [show i + (j - i) = j by omega] at this
          · split <;> split at hfuel <;> omega
          · rw [scan_get _ _ _ _ _ le_rfl, Option.getD_some, Nat.not_lt, Nat.le_zero,
              filter_range_eq_zero]
            exact hnone

/-- C35 with a restriction to the states that occur: the side condition on `cleanUp` is only needed in states that meet an
invariant, if `cleanUp` keeps the invariant. -/
theorem c35_prefix_eq_serial_inv (process : σ → ℕ → Bool) (cleanUp : ℕ → σ → σ) (pick : List ℕ → ℕ)
    (hpick : ∀ L, L ≠ [] → pick L ∈ L) (flagSize n PREFIX THRESH : ℕ) (hflag : n < flagSize)
    (hP0 : 0 < PREFIX) (hPT : PREFIX ≤ THRESH) (I : σ → Prop)
    (H : ∀ i < n, ∀ s, I s → (∀ j < i, process s j = false) → process s i = true →
      I (cleanUp i s) ∧ ∀ j ≤ i, process (cleanUp i s) j = false) (s : σ) (hI : I s) :
    parallelPrefix process cleanUp pick flagSize n PREFIX THRESH s =
      .ok (serialPrefix process cleanUp n s) := by
  unfold parallelPrefix
  by_cases h : n < THRESH
  · rw [if_pos h]
  · rw [if_neg h, prefixLoop_eq process cleanUp pick hpick flagSize n PREFIX THRESH hflag hP0 (by omega)
      I H _ 0 s hI (by omega) (by simp) (by split <;> omega)]
    rfl

/-- **C35**: on an array of any length `n`, for any threshold, any first prefix length between 1 and the
threshold, and any `process`/`cleanUp` pair such that cleaning up the first conflict `i` leaves no conflict
at positions up to `i`, the prefix-doubling loop performs the same clean-ups in the same order and ends in
the same state as the serial loop, whatever the order of the racing writes to `conflict`. -/
theorem c35_prefix_eq_serial (process : σ → ℕ → Bool) (cleanUp : ℕ → σ → σ) (pick : List ℕ → ℕ)
    (hpick : ∀ L, L ≠ [] → pick L ∈ L) (flagSize n PREFIX THRESH : ℕ) (hflag : n < flagSize)
    (hP0 : 0 < PREFIX) (hPT : PREFIX ≤ THRESH)
    (H : ∀ i < n, ∀ s, (∀ j < i, process s j = false) → process s i = true →
      ∀ j ≤ i, process (cleanUp i s) j = false) (s : σ) :
    parallelPrefix process cleanUp pick flagSize n PREFIX THRESH s =
      .ok (serialPrefix process cleanUp n s) :=
  c35_prefix_eq_serial_inv process cleanUp pick hpick flagSize n PREFIX THRESH hflag hP0 hPT (fun _ => True)
    (fun i hi s _ h1 h2 => ⟨trivial, H i hi s h1 h2⟩) s trivial

/-- The side condition on `cleanUp` is needed: when a clean-up leaves its own conflict, the serial loop
ends but the prefix-doubling loop tries the same position for ever. -/
theorem c35_needs_clean : ∃ (process : Unit → ℕ → Bool) (cleanUp : ℕ → Unit → Unit),
    ∀ fuel, prefixLoop process cleanUp (fun L => L.headD 0) 3 2 2 2 fuel 0 () = .error .fuel := by
  refine ⟨fun _ _ => true, fun _ s => s, fun fuel => ?_⟩
  induction fuel with
  | zero => rfl
  | succ fuel ih =>
    have hw : conflictWriters (conflictScan (fun (_ : Unit) _ => true) () 0 2) 2 = [0] := by decide
    have hf : ((conflictScan (fun (_ : Unit) _ => true) () 0 2)[2]?).getD 0 = 2 := by decide
    rw [prefixLoop]
    rw [if_neg (by omega)]
    simp only [nextPrefix, if_true, Nat.sub_zero, hf, hw, List.headD_cons, Nat.add_zero, ih]
    rfl

/-- Specification-level reading of the serial loop: it ends without conflicts. -/
theorem c35_serial_no_conflict (process : σ → ℕ → Bool) (cleanUp : ℕ → σ → σ) (n : ℕ)
    (H : ∀ i < n, ∀ s, (∀ j < i, process s j = false) → process s i = true →
      ∀ j ≤ i, process (cleanUp i s) j = false) (s : σ) :
    ∀ j < n, process (serialPrefix process cleanUp n s).1 j = false := by
  have := serialFrom_clean process cleanUp n H n 0 s (by omega) (by simp)
  rw [Nat.zero_add] at this
  exact this

/-- Non-trivial instance: the state is a bound, a position is in conflict if its value exceeds the bound, and
cleaning up raises the bound to the largest value so far; parallel rounds are really used. -/
example : parallelPrefix (fun (s : ℕ) j => decide (s < ([3, 1, 4, 1, 5, 9, 2, 6].getD j 0)))
    (fun j s => max s ([3, 1, 4, 1, 5, 9, 2, 6].getD j 0)) (fun L => L.headD 0) 9 8 2 2 0 =
      .ok (9, [0, 2, 4, 5]) ∧
    serialPrefix (fun (s : ℕ) j => decide (s < ([3, 1, 4, 1, 5, 9, 2, 6].getD j 0)))
      (fun j s => max s ([3, 1, 4, 1, 5, 9, 2, 6].getD j 0)) 8 0 = (9, [0, 2, 4, 5]) := by
  decide

/-- The hypothesis of `c35_prefix_eq_serial` holds for this instance. -/
example : ∀ i < 8, ∀ s : ℕ, (∀ j < i, decide (s < ([3, 1, 4, 1, 5, 9, 2, 6].getD j 0)) = false) →
    decide (s < ([3, 1, 4, 1, 5, 9, 2, 6].getD i 0)) = true →
    ∀ j ≤ i, decide (max s ([3, 1, 4, 1, 5, 9, 2, 6].getD i 0) < ([3, 1, 4, 1, 5, 9, 2, 6].getD j 0)) =
      false := by
  intro i hi s h1 h2 j hj
  rcases Nat.lt_or_eq_of_le hj with h | h
  · have := h1 j h
    simp only [decide_eq_false_iff_not, Nat.not_lt] at this ⊢
    exact le_trans this (le_max_left _ _)
  · subst h
    rw [decide_eq_false_iff_not, Nat.not_lt]
    exact le_max_right _ _

end Verif.Seb
