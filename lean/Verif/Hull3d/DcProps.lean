import Verif.Hull3d.DcModel
import Verif.Hull2d.DcProps

set_option linter.unusedSectionVars false
set_option linter.unusedVariables false

/-!
Property C48: the divide-and-conquer hull in space.
-/

namespace Verif.Hull3d

open Verif Hull2d

variable {V : Type}

theorem subVerts_congr (sub : List V → Except Err (List V)) (b : ℕ) (P P' : List V) (hl : P.length = P'.length)
    (is : List ℕ) (h : ∀ i ∈ is, (i + 1) * b ≤ P.length ∧ P.take ((i + 1) * b) = P'.take ((i + 1) * b)) :
    subVerts sub b P is = subVerts sub b P' is := by
  induction is with
  | nil => rfl
  | cons i is ih =>
    have ht := (h i (by simp)).2
    have hle := (h i (by simp)).1
    rw [subVerts, subVerts, ih fun j hj => h j (by simp [hj]), ← hl, min_eq_right hle, List.take_drop, List.take_drop]
    have e : i * b + ((i + 1) * b - i * b) = (i + 1) * b := by
      rw [Nat.add_mul, Nat.one_mul]
      omega
    rw [e, ht]

/-- C48 is false: with 1001 points and one worker the last point has no influence on the result, whatever the inner hull
routines do, when the sampled fraction is below 0.8. -/
theorem c48_tail_false {H : Type} (sub : List V → Except Err (List V)) (serial par : List V → Except Err H)
    (P : List V) (hP : P.length = 1000) (p q : V) :
    dcCompute3 sub serial par true 1 (P ++ [p]) = dcCompute3 sub serial par true 1 (P ++ [q]) := by
  have hb : Hull2d.blocks 1001 (1 * 8) = .ok 8 := rfl
  have hc : concurrentHull sub 1 (P ++ [p]) = concurrentHull sub 1 (P ++ [q]) := by
    unfold concurrentHull
    simp only [List.length_append, List.length_cons, List.length_nil, hP]
    rw [hb]
    show subVerts sub (1001 / 8) _ _ = subVerts sub (1001 / 8) _ _
    refine subVerts_congr sub _ _ _ (by simp) _ fun i hi => ?_
    have hi := List.mem_range.mp hi
    have hle : (i + 1) * (1001 / 8) ≤ 1000 := by
      have : (i + 1) * (1001 / 8) ≤ 8 * (1001 / 8) := Nat.mul_le_mul_right _ hi
      omega
    refine ⟨by simp only [List.length_append, List.length_cons, List.length_nil, hP]; omega, ?_⟩
    rw [List.take_append_of_le_length (by omega), List.take_append_of_le_length (by omega)]
  unfold dcCompute3
  have l1 : ∀ x : V, ¬ (P ++ [x]).length < 1000 := by
    intro x
    rw [List.length_append, hP]
    simp
  rw [hc, if_neg (l1 p), if_neg (l1 q)]
  rfl

theorem subVerts_ok {K : Type} [Field K] [LinearOrder K] [IsStrictOrderedRing K]
    (sub : List (Point K 3) → Except Err (List (Point K 3)))
    (P : List (Point K 3)) (hsub : ∀ Q : List (Point K 3), 10 ≤ Q.length → Q.Sublist P → ∃ out, sub Q = .ok out ∧ out ⊆ Q ∧
      ∀ p ∈ Q, p ∈ convexHull K {q | q ∈ out}) (b m : ℕ) (hb : 10 ≤ b) (hm : m ≤ P.length) (is : List ℕ)
    (his : ∀ i ∈ is, (i + 1) * b ≤ m) :
    ∃ U, subVerts sub b P is = .ok U ∧ U ⊆ P.take m ∧
      ∀ i ∈ is, ∀ j, i * b ≤ j → j < (i + 1) * b → ∀ hj : j < P.length, P[j] ∈ convexHull K {q | q ∈ U} := by
  induction is with
  | nil => exact ⟨[], rfl, by simp, by simp⟩
  | cons i is ih =>
    obtain ⟨U, hU, hlt, hcov⟩ := ih fun j hj => his j (by simp [hj])
    have him := his i (by simp)
    have hi := him.trans hm
    rw [subVerts, min_eq_right hi]
    have hsz : (i + 1) * b - i * b = b := by
      rw [Nat.add_mul, Nat.one_mul]
      omega
    have hib : i * b + b ≤ P.length := by
      rw [Nat.add_mul, Nat.one_mul] at hi
      exact hi
    rw [hsz]
    set Q := (P.drop (i * b)).take b with hQ
    have hQl : Q.length = b := by
      rw [hQ, List.length_take, List.length_drop]
      omega
    have hQP : Q ⊆ P.take m := by
      intro x hx
      rw [hQ, List.take_drop] at hx
      have hx := List.mem_of_mem_drop hx
      rw [show P.take (i * b + b) = (P.take m).take (i * b + b) by
        rw [List.take_take, min_eq_left]; rw [Nat.add_mul, Nat.one_mul] at him; exact him] at hx
      exact List.mem_of_mem_take hx
    obtain ⟨out, ho, h1, h2⟩ := hsub Q (by omega) ((List.take_sublist _ _).trans (List.drop_sublist _ _))
    rw [ho, hU]
    refine ⟨out ++ U, rfl, ?_, ?_⟩
    · intro x hx
      rcases List.mem_append.mp hx with hx | hx
      · exact hQP (h1 hx)
      · exact hlt hx
    · intro k hk j hj1 hj2 hj
      rcases List.mem_cons.mp hk with rfl | hk
      · rw [Nat.add_mul, Nat.one_mul] at hj2
        have hmem : P[j] ∈ Q := by
          rw [List.mem_iff_getElem?]
          refine ⟨j - k * b, ?_⟩
          rw [hQ, List.getElem?_take, if_pos (by omega), List.getElem?_drop,
            show k * b + (j - k * b) = j by omega]
          exact List.getElem?_eq_getElem hj
        exact convexHull_mono (fun q hq => List.mem_append.mpr (Or.inl hq)) (h2 _ hmem)
      · exact convexHull_mono (fun q hq => List.mem_append.mpr (Or.inr hq)) (hcov k hk j hj1 hj2 hj)

/-- **C48**, what holds: if the hull routine for a block returns points of the block that span it, the points kept are points of
the full blocks that span all points of the full blocks. What is missing: the last `n mod B` points (`c48_tail_false`); the inner
hull routines, which are assumed here, are put in in `c48_compute_partial`. -/
theorem c48_blocks_partial {K : Type} [Field K] [LinearOrder K] [IsStrictOrderedRing K]
    (sub : List (Point K 3) → Except Err (List (Point K 3)))
    (P : List (Point K 3)) (hsub : ∀ Q : List (Point K 3), 10 ≤ Q.length → Q.Sublist P → ∃ out, sub Q = .ok out ∧ out ⊆ Q ∧
      ∀ p ∈ Q, p ∈ convexHull K {q | q ∈ out}) (w : ℕ) (hw : 0 < w) (hn : 10 ≤ P.length) :
    ∃ B U, concurrentHull sub w P = .ok U ∧ (0 < B ∧ B ≤ w * 8 ∧ 10 ≤ P.length / B ∧
        ∀ B', B < B' → B' ≤ w * 8 → P.length / B' < 10) ∧ U ⊆ P.take (B * (P.length / B)) ∧
      ∀ j, ∀ hj : j < P.length, j < B * (P.length / B) → P[j] ∈ convexHull K {q | q ∈ U} := by
  obtain ⟨B, hB, hB0, hBk, hB10, hBmax⟩ := (blocks_spec P.length (w * 8)).2 hn (by omega)
  set b := P.length / B with hb
  have hBb : B * b ≤ P.length := Nat.mul_div_le _ _
  obtain ⟨U, hU, hsubU, hcov⟩ := subVerts_ok sub P hsub b (B * b) hB10 hBb (List.range B) (by
    intro i hi
    exact Nat.mul_le_mul_right b (List.mem_range.mp hi))
  refine ⟨B, U, ?_, ⟨hB0, hBk, hB10, hBmax⟩, hsubU, fun j hj hjb => ?_⟩
  · unfold concurrentHull
    rw [hB]
    exact hU
  · have hb0 : 0 < b := by omega
    refine hcov (j / b) (List.mem_range.mpr ((Nat.div_lt_iff_lt_mul hb0).mpr hjb)) j (Nat.div_mul_le_self _ _) ?_ hj
    have := Nat.div_add_mod j b
    have := Nat.mod_lt j hb0
    rw [Nat.add_mul, Nat.one_mul, Nat.mul_comm]
    omega

/-- The assumption on the block routine can be met. -/
example (P : List (Point ℚ 3)) : ∀ Q : List (Point ℚ 3), 10 ≤ Q.length → Q.Sublist P → ∃ out, (fun P => Except.ok P : List (Point ℚ 3) → Except Err _) Q =
    .ok out ∧ out ⊆ Q ∧ ∀ p ∈ Q, p ∈ convexHull ℚ {q | q ∈ out} :=
  fun Q _ _ => ⟨Q, rfl, fun _ h => h, fun p hp => subset_convexHull ℚ _ hp⟩

end Verif.Hull3d
