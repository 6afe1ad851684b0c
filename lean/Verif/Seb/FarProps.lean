import Mathlib.Algebra.BigOperators.Fin
import Verif.Seb.ScanProps

set_option linter.unusedSectionVars false
set_option linter.unusedVariables false

/-!
Property C37: what one orthant scan finds, without epsilon: in every orthant around the centre the farthest point outside
the ball.
-/

namespace Verif.Seb

variable {K : Type} [Field K] [LinearOrder K] [IsStrictOrderedRing K] {dim : ℕ}

theorem bits_inj : ∀ (n : ℕ) (f g : Fin n → Prop) [DecidablePred f] [DecidablePred g],
    (∑ i : Fin n, if f i then 2 ^ (i : ℕ) else 0) = (∑ i : Fin n, if g i then 2 ^ (i : ℕ) else 0) →
    ∀ i, f i ↔ g i := by
  intro n
  induction n with
  | zero => exact fun f g _ _ _ i => i.elim0
  | succ n ih =>
    intro f g _ _ h
    have key : ∀ (u : Fin (n + 1) → Prop) [DecidablePred u], (∑ i : Fin (n + 1), if u i then 2 ^ (i : ℕ) else 0) =
        (if u 0 then 1 else 0) + 2 * ∑ i : Fin n, if u i.succ then 2 ^ (i : ℕ) else 0 := by
      intro u _
      rw [Fin.sum_univ_succ, Finset.mul_sum]
      congr 1
      refine Finset.sum_congr rfl fun i _ => ?_
      split
      · rw [Fin.val_succ, pow_succ, Nat.mul_comm]
      · rfl
    rw [key f, key g] at h
    have h0 : f 0 ↔ g 0 := by
      by_cases a : f 0 <;> by_cases b : g 0 <;> simp only [a, b, if_true, if_false] at h ⊢ <;> omega
    have h1 := ih (fun i => f i.succ) (fun i => g i.succ) (by
      by_cases a : f 0
      · rw [if_pos a, if_pos (h0.mp a)] at h; omega
      · rw [if_neg a, if_neg (fun b => a (h0.mpr b))] at h; omega)
    intro i
    refine Fin.cases h0 (fun j => h1 j) i

theorem quadrant_inj (c p q : Point K dim) (h : quadrant c p = quadrant c q) (i : Fin dim) : p i < c i ↔ q i < c i :=
  bits_inj dim (fun i => p i < c i) (fun i => q i < c i) h i

/-- The table `t` holds at every orthant the position and distance of an array element there, and at the orthant of each
outside point at a position in `S` an element at least as far away. -/
def Far (c : Point K dim) (r2 : K) (A : List (Point K dim)) (t : Table K) (S : ℕ → Prop) : Prop :=
  (∀ o i D, t o = some (i, D) → i < A.length ∧ quadrant c (A.getD i 0) = o ∧ D = distSqr (A.getD i 0) c) ∧
    ∀ i, S i → r2 < distSqr (A.getD i 0) c →
      ∃ j D, t (quadrant c (A.getD i 0)) = some (j, D) ∧ distSqr (A.getD i 0) c ≤ D

theorem far_none (c : Point K dim) (r2 : K) (A : List (Point K dim)) : Far c r2 A (fun _ => none) fun _ => False :=
  ⟨fun o i D h => by simp at h, fun i h => h.elim⟩

theorem far_step (c : Point K dim) (r2 : K) (A : List (Point K dim)) (t : Table K) (S : ℕ → Prop) (i : ℕ)
    (hi : i < A.length) (h : Far c r2 A t S) : Far c r2 A (scanStep 0 c r2 A t i) fun j => S j ∨ j = i := by
  have up : ∀ (hold : ∀ j D, t (quadrant c (A.getD i 0)) = some (j, D) → D ≤ distSqr (A.getD i 0) c),
      Far c r2 A (Function.update t (quadrant c (A.getD i 0)) (some (i, distSqr (A.getD i 0) c))) fun j => S j ∨ j = i := by
    intro hold
    constructor
    · intro o j D hj
      by_cases ho : o = quadrant c (A.getD i 0)
      · subst ho
        rw [Function.update_self] at hj
        obtain ⟨rfl, rfl⟩ := Prod.mk.inj (Option.some.inj hj)
        exact ⟨hi, rfl, rfl⟩
      · rw [Function.update_of_ne ho] at hj
        exact h.1 o j D hj
    · intro j hj hw
      by_cases ho : quadrant c (A.getD j 0) = quadrant c (A.getD i 0)
      · rw [ho, Function.update_self]
        refine ⟨i, _, rfl, ?_⟩
        rcases hj with hj | rfl
        · obtain ⟨k, D, hk, hle⟩ := h.2 j hj hw
          rw [ho] at hk
          exact hle.trans (hold k D hk)
        · exact le_rfl
      · rw [Function.update_of_ne ho]
        rcases hj with hj | rfl
        · exact h.2 j hj hw
        · exact absurd rfl ho
  have keep : (r2 < distSqr (A.getD i 0) c →
      ∃ j D, t (quadrant c (A.getD i 0)) = some (j, D) ∧ distSqr (A.getD i 0) c ≤ D) → Far c r2 A t fun j => S j ∨ j = i := by
    intro hk
    refine ⟨h.1, ?_⟩
    rintro j (hj | rfl) hw
    · exact h.2 j hj hw
    · exact hk hw
  unfold scanStep
  simp only []
  by_cases hw : within 0 (distSqr (A.getD i 0) c) r2 = true
  · rw [if_pos hw]
    exact keep fun hlt => absurd ((within_zero _ _).mp hw) (not_le.mpr hlt)
  · rw [if_neg hw]
    rcases hj : t (quadrant c (A.getD i 0)) with _ | ⟨j, D'⟩
    · exact up fun j D h' => by rw [hj] at h'; cases h'
    · by_cases hD : within 0 (distSqr (A.getD i 0) c) D' = true
      · simp only [if_pos hD]
        exact keep fun _ => ⟨j, D', hj, (within_zero _ _).mp hD⟩
      · simp only [if_neg hD]
        refine up fun k D hk => ?_
        rw [hj] at hk
        obtain ⟨rfl, rfl⟩ := Prod.mk.inj (Option.some.inj hk)
        exact (not_le.mp fun hle => hD ((within_zero _ _).mpr hle)).le

theorem far_foldl (c : Point K dim) (r2 : K) (A : List (Point K dim)) (L : List ℕ) (t : Table K) (S : ℕ → Prop)
    (hL : ∀ i ∈ L, i < A.length) (h : Far c r2 A t S) :
    Far c r2 A (L.foldl (scanStep 0 c r2 A) t) fun j => S j ∨ j ∈ L := by
  induction L generalizing t S with
  | nil => simpa using h
  | cons a L ih =>
    rw [List.foldl_cons]
    have := ih _ _ (fun i hi => hL i (by simp [hi])) (far_step c r2 A t S a (hL a (by simp)) h)
    refine ⟨this.1, fun i hi => this.2 i ?_⟩
    rcases hi with hi | hi
    · exact Or.inl (Or.inl hi)
    · rcases List.mem_cons.mp hi with rfl | hi
      · exact Or.inl (Or.inr rfl)
      · exact Or.inr hi

theorem far_range (c : Point K dim) (r2 : K) (A : List (Point K dim)) (s e : ℕ) (he : e ≤ A.length) :
    Far c r2 A (scanRange 0 c r2 A s e) fun j => s ≤ j ∧ j < e := by
  have := far_foldl c r2 A (List.range' s (e - s)) (fun _ => none) _ (by
    intro i hi
    rw [List.mem_range'_1] at hi
    omega) (far_none c r2 A)
  refine ⟨this.1, fun i hi => this.2 i (Or.inr ?_)⟩
  rw [List.mem_range'_1]
  omega

theorem far_combine (c : Point K dim) (r2 : K) (A : List (Point K dim)) (g loc : Table K) (S T : ℕ → Prop)
    (hg : Far c r2 A g S) (hl : Far c r2 A loc T) : Far c r2 A (combine g loc) fun j => S j ∨ T j := by
  constructor
  · intro o i D h
    unfold combine at h
    split at h
    · exact hg.1 o i D h
    · rename_i i' D' h1
      split at h
      · exact hl.1 o i D (by rw [h1, h])
      · rename_i j D'' h2
        split at h
        · exact hl.1 o i D (by rw [h1, h])
        · exact hg.1 o i D (by rw [h2, h])
  · intro i hi hw
    unfold combine
    split
    · rename_i h1
      rcases hi with hi | hi
      · exact hg.2 i hi hw
      · obtain ⟨j, D, hj, _⟩ := hl.2 i hi hw
        rw [h1] at hj
        cases hj
    · rename_i i' D' h1
      have ht : T i → distSqr (A.getD i 0) c ≤ D' := by
        intro hi
        obtain ⟨j, D, hj, hle⟩ := hl.2 i hi hw
        rw [h1] at hj
        obtain ⟨rfl, rfl⟩ := Prod.mk.inj (Option.some.inj hj)
        exact hle
      split
      · rename_i h2
        refine ⟨i', D', rfl, ?_⟩
        rcases hi with hi | hi
        · obtain ⟨j, D, hj, _⟩ := hg.2 i hi hw
          rw [h2] at hj
          cases hj
        · exact ht hi
      · rename_i j D'' h2
        have hs : S i → distSqr (A.getD i 0) c ≤ D'' := by
          intro hi
          obtain ⟨k, D, hj, hle⟩ := hg.2 i hi hw
          rw [h2] at hj
          obtain ⟨rfl, rfl⟩ := Prod.mk.inj (Option.some.inj hj)
          exact hle
        split
        · rename_i hlt
          exact ⟨i', D', rfl, hi.elim (fun hi => (hs hi).trans hlt.le) ht⟩
        · rename_i hlt
          exact ⟨j, D'', rfl, hi.elim hs fun hi => (ht hi).trans (not_lt.mp hlt)⟩

theorem far_blocks (c : Point K dim) (r2 : K) (A : List (Point K dim)) (b : ℕ) (L : List ℕ) (g : Table K) (S : ℕ → Prop)
    (hg : Far c r2 A g S) :
    Far c r2 A (L.foldl (fun g p => combine g (scanRange 0 c r2 A (p * b) (min ((p + 1) * b) A.length))) g)
      fun i => S i ∨ ∃ p ∈ L, p * b ≤ i ∧ i < (p + 1) * b ∧ i < A.length := by
  induction L generalizing g S with
  | nil => simpa using hg
  | cons q L ih =>
    rw [List.foldl_cons]
    have := ih _ _ (far_combine c r2 A g _ _ _ hg (far_range c r2 A (q * b) (min ((q + 1) * b) A.length) (min_le_right _ _)))
    refine ⟨this.1, fun i hi => this.2 i ?_⟩
    rcases hi with hi | ⟨p, hp, h1, h2, h3⟩
    · exact Or.inl (Or.inl hi)
    · rcases List.mem_cons.mp hp with rfl | hp
      · exact Or.inl (Or.inr ⟨h1, lt_min h2 h3⟩)
      · exact Or.inr ⟨p, hp, h1, h2, h3⟩

/-- **C37** (one scan, without epsilon): for every array, ball and number of workers, in the serial and in the blocked
scan, every outside point is matched by a returned point in the same orthant around the centre which is at least as far
away. -/
theorem c37_farthest (W : ℕ) (hW : 0 < W) (c : Point K dim) (r2 : K) (A : List (Point K dim)) (q : Point K dim)
    (hq : q ∈ A) (hout : r2 < distSqr q c) :
    ∃ p ∈ ortScan 0 W c r2 A, (∀ i, p i < c i ↔ q i < c i) ∧ distSqr q c ≤ distSqr p c := by
  unfold ortScan
  simp only []
  set t : Table K := if A.length < 2000 then scanRange 0 c r2 A 0 A.length
    else (List.range W).foldl (fun g p => combine g (scanRange 0 c r2 A (p * ((A.length + W - 1) / W))
      (min ((p + 1) * ((A.length + W - 1) / W)) A.length))) fun _ => none with ht
  have hok : Far c r2 A t fun i => i < A.length := by
    rw [ht]
    split
    · have := far_range c r2 A 0 A.length le_rfl
      exact ⟨this.1, fun i hi => this.2 i ⟨Nat.zero_le _, hi⟩⟩
    · rename_i hlen
      have := far_blocks c r2 A ((A.length + W - 1) / W) (List.range W) (fun _ => none) _ (far_none c r2 A)
      refine ⟨this.1, fun i hi => this.2 i (Or.inr ?_)⟩
      set b := (A.length + W - 1) / W with hb
      have hb0 : 0 < b := Nat.div_pos (by omega) hW
      have hcov : A.length ≤ W * b := by
        have := Nat.div_add_mod (A.length + W - 1) W
        have := Nat.mod_lt (A.length + W - 1) hW
        rw [← hb] at *
        omega
      have hdm := Nat.div_add_mod i b
      have hml := Nat.mod_lt i hb0
      refine ⟨i / b, ?_, Nat.div_mul_le_self i b, ?_, hi⟩
      · rw [List.mem_range, Nat.div_lt_iff_lt_mul hb0]
        omega
      · rw [Nat.mul_comm] at hdm
        rw [Nat.add_mul, Nat.one_mul]
        omega
  obtain ⟨i, hi, rfl⟩ := List.mem_iff_getElem.mp hq
  have hget : A.getD i 0 = A[i] := List.getD_eq_getElem _ _ hi
  obtain ⟨j, D, hj, hle⟩ := hok.2 i hi (by rw [hget]; exact hout)
  obtain ⟨h1, h2, h3⟩ := hok.1 _ j D hj
  refine ⟨A.getD j 0, List.mem_filterMap.mpr ⟨quadrant c (A.getD i 0), List.mem_range.mpr (quadrant_lt _ _), by
    rw [hj]; rfl⟩, ?_, ?_⟩
  · rw [hget] at h2
    exact quadrant_inj c _ _ h2
  · rw [← hget, ← h3]
    exact hle

/-- Two points of one orthant outside the unit ball: the scan returns only the farther one. -/
example : ortScan (K := ℚ) (dim := 2) 0 96 ![0, 0] 1 [![2, 1], ![3, 3]] = [![3, 3]] := by
  decide +kernel

end Verif.Seb
