import Verif.Dataset.UniformLemmas
import Mathlib.Algebra.BigOperators.Fin
import Mathlib.Tactic.NormNum
import Mathlib.Tactic.FinCases
import Mathlib.Tactic.IntervalCases

set_option linter.unusedSectionVars false
set_option linter.unusedVariables false

/-! Property C72: the uniform data generators. -/

namespace Verif.Dataset

variable {d : ℕ} {g : Rng} {σ : Sched} {fuel n : ℕ} {t scale : ℝ}

/-- Every iteration of a parallel loop takes place once. -/
def Sched.OK (σ : Sched) : Prop := ∀ k m, (σ k m).Perm (List.range m)

/-- Squared distance from the origin. -/
def normSq (p : Pt d) : ℝ := ∑ i, p i ^ 2

/-- The scale asked for: the number of points, if it is negative. -/
noncomputable def scaleOf (n : ℕ) (scale : ℝ) : ℝ := if scale < 0 then n else scale

theorem scaleOf_nonneg (n : ℕ) (scale : ℝ) : 0 ≤ scaleOf n scale := by
  unfold scaleOf
  split_ifs with h
  · exact Nat.cast_nonneg n
  · exact not_lt.1 h

theorem len_sq (p : Pt d) : len p ^ 2 = normSq p := by
  unfold len normSq
  rw [Real.sq_sqrt (Finset.sum_nonneg fun i _ => mul_self_nonneg _)]
  exact Finset.sum_congr rfl fun i _ => by ring

theorem theScale_eq (n : ℕ) (scale : ℝ) : theScale n scale = scaleOf n scale := rfl

/-- C72, points in a ball: whatever is returned has `n` points, none of them further from the origin than the scale; and the generator
returns when every point has a candidate in the unit ball. -/
theorem c72_in_ball (hg : g.OK) (hσ : σ.OK) :
    (∀ P, uniformIn g fuel d σ n 0 scale = .ok P → P.length = n ∧ ∀ p ∈ P, normSq p ≤ scaleOf n scale ^ 2) ∧
    ((∀ i < n, ∃ k < fuel, normSq (randNd g d ((g.hash k + i) % 2 ^ 64)) ≤ 1) → ∃ P, uniformIn g fuel d σ n 0 scale = .ok P) := by
  have hmem : ∀ i, i ∈ σ 0 n ↔ i < n := fun i => (hσ 0 n).mem_iff.trans List.mem_range
  have hnd := (hσ 0 n).nodup_iff.2 List.nodup_range
  constructor
  · intro P h
    obtain ⟨h1, h2, _⟩ := parFor_returns _ _ P hnd h
    rw [List.length_replicate] at h1
    refine ⟨h1, fun p hp => ?_⟩
    obtain ⟨i, hi, rfl⟩ := List.mem_iff_getElem.1 hp
    obtain ⟨_, q, _, e2, e3⟩ := h2 i ((hmem i).2 (by omega))
    rw [Nat.zero_add, List.getElem?_eq_getElem hi] at e3
    cases e3
    rw [if_pos rfl] at e2
    rcases hv : randInUnitSphere g fuel d i with e | v
    · simp [hv, Except.map] at e2
    · simp only [hv, Except.map, Except.ok.injEq] at e2
      obtain ⟨hl, _⟩ := inSphereLoop_spec _ _ v hv
      rw [← e2, ← len_sq, len_smul, theScale_eq, abs_of_nonneg (scaleOf_nonneg _ _)]
      have h0 := len_nonneg v
      have h1 := scaleOf_nonneg n scale
      exact pow_le_pow_left₀ (by positivity) (by nlinarith) 2
  · intro hk
    obtain ⟨P, h, _⟩ := parFor_ok (off := 0) (f := fun i _ =>
      if (0 : ℕ) = 0 then (randInUnitSphere g fuel d i).map fun p => smul p (theScale n scale)
      else if (0 : ℕ) = 1 then .ok (smul (randNd g d i) (theScale n scale))
      else .error .throws) (σ 0 n) (List.replicate n (noPt d)) hnd (fun i hi => by
        rw [List.length_replicate]
        have := (hmem i).1 hi
        omega) (fun i hi p => by
        obtain ⟨k, h1, h2⟩ := hk i ((hmem i).1 hi)
        obtain ⟨v, hv⟩ := inSphereLoop_returns (g := g) (d := d) (i := i) fuel 0 k (Nat.zero_le _) (by omega) (by
          rw [← len_sq] at h2
          exact (pow_le_one_iff_of_nonneg (len_nonneg _) (by norm_num)).1 h2)
        refine ⟨smul v (theScale n scale), ?_⟩
        rw [if_pos rfl, show randInUnitSphere g fuel d i = .ok v from hv]
        rfl)
    exact ⟨P, h⟩

/-- C72, points in a cube: the generator returns `n` points, all with coordinates between `-scale` and `scale`. -/
theorem c72_in_cube (hg : g.OK) (hσ : σ.OK) :
    ∃ P, uniformIn g fuel d σ n 1 scale = .ok P ∧ P.length = n ∧ ∀ p ∈ P, ∀ i, |p i| ≤ scaleOf n scale := by
  have hmem : ∀ i, i ∈ σ 0 n ↔ i < n := fun i => (hσ 0 n).mem_iff.trans List.mem_range
  have hnd := (hσ 0 n).nodup_iff.2 List.nodup_range
  obtain ⟨P, h, h1, h2, _⟩ := parFor_ok (off := 0) (f := fun i _ =>
    if (1 : ℕ) = 0 then (randInUnitSphere g fuel d i).map fun p => smul p (theScale n scale)
    else if (1 : ℕ) = 1 then .ok (smul (randNd g d i) (theScale n scale))
    else .error .throws) (σ 0 n) (List.replicate n (noPt d)) hnd (fun i hi => by
      rw [List.length_replicate]
      have := (hmem i).1 hi
      omega) (fun i hi p => ⟨_, by rw [if_neg (by norm_num), if_pos rfl]⟩)
  rw [List.length_replicate] at h1
  refine ⟨P, h, h1, fun p hp j => ?_⟩
  obtain ⟨i, hi, rfl⟩ := List.mem_iff_getElem.1 hp
  obtain ⟨_, q, _, e2, e3⟩ := h2 i ((hmem i).2 (by omega))
  rw [Nat.zero_add, List.getElem?_eq_getElem hi] at e3
  cases e3
  rw [if_neg (by norm_num), if_pos rfl] at e2
  rw [Except.ok.injEq] at e2
  rw [← e2]
  show |randNd g d i j * theScale n scale| ≤ _
  rw [abs_mul, theScale_eq, abs_of_nonneg (scaleOf_nonneg _ _)]
  exact mul_le_of_le_one_left (scaleOf_nonneg _ _) (randNd_mem hg i j)

theorem outerCount_ok {n d : ℕ} (h0 : 0 ≤ t) (h1 : t < 1) :
    outerCount d n t = .ok ⌊(1 + t) ^ (d - 1) * n / ((1 + t) ^ (d - 1) + (1 - t) ^ (d - 1))⌋₊ ∧
      ⌊(1 + t) ^ (d - 1) * n / ((1 + t) ^ (d - 1) + (1 - t) ^ (d - 1))⌋₊ ≤ n := by
  have ha : 0 < (1 + t) ^ (d - 1) := by positivity
  have hb : 0 < (1 - t) ^ (d - 1) := pow_pos (by linarith) _
  have hx : 0 ≤ (1 + t) ^ (d - 1) * n / ((1 + t) ^ (d - 1) + (1 - t) ^ (d - 1)) := by positivity
  constructor
  · unfold outerCount
    simp only
    rw [if_neg (by linarith)]
  · apply Nat.floor_le_of_le
    rw [div_le_iff₀ (by positivity)]
    have : (0 : ℝ) ≤ n := Nat.cast_nonneg n
    nlinarith

/-- C72, points on a sphere: with a thickness of at least 0 and less than 1, whatever is returned has `n` points, at distances between
`(1 - thickness) scale` and `(1 + thickness) scale` from the origin: first the points outside the sphere (with the share of
the outer radius in the surface), then those inside. The generator returns when every point has a candidate in the unit ball and
no hash is converted to exactly half the maximum. -/
theorem c72_on_sphere (hg : g.OK) (hσ : σ.OK) (h0 : 0 ≤ t) (h1 : t < 1) :
    (∀ P, uniformOn g fuel d σ n 0 t scale = .ok P → P.length = n ∧
      (∀ p ∈ P, ((1 - t) * scaleOf n scale) ^ 2 ≤ normSq p ∧ normSq p ≤ ((1 + t) * scaleOf n scale) ^ 2) ∧
      ∃ n1 : ℕ, n1 = ⌊(1 + t) ^ (d - 1) * n / ((1 + t) ^ (d - 1) + (1 - t) ^ (d - 1))⌋₊ ∧
        (∀ p ∈ P.take n1, scaleOf n scale ^ 2 ≤ normSq p) ∧ (∀ p ∈ P.drop n1, normSq p ≤ scaleOf n scale ^ 2)) ∧
    (1 ≤ d → (∀ m, 2 * g.conv m ≠ g.conv (2 ^ 64 - 1)) →
      (∀ i < n, ∃ k < fuel, normSq (randNd g d ((g.hash k + i) % 2 ^ 64)) ≤ 1) → ∃ P, uniformOn g fuel d σ n 0 t scale = .ok P) := by
  obtain ⟨hc, hcn⟩ := outerCount_ok (n := n) (d := d) h0 h1
  generalize hn1 : ⌊(1 + t) ^ (d - 1) * n / ((1 + t) ^ (d - 1) + (1 - t) ^ (d - 1))⌋₊ = n1 at *
  have hr1 : (0 : ℝ) < 1 + t := by linarith
  have hr2 : (0 : ℝ) < 1 - t := by linarith
  have hor : ¬((1 : ℝ) + t = 0 ∨ (1 : ℝ) - t = 0) := by
    rintro (h | h) <;> linarith
  have hm0 : ∀ i, i ∈ σ 0 n1 ↔ i < n1 := fun i => (hσ 0 n1).mem_iff.trans List.mem_range
  have hm1 : ∀ i, i ∈ σ 1 (n - n1) ↔ i < n - n1 := fun i => (hσ 1 (n - n1)).mem_iff.trans List.mem_range
  have hd0 := (hσ 0 n1).nodup_iff.2 List.nodup_range
  have hd1 := (hσ 1 (n - n1)).nodup_iff.2 List.nodup_range
  have hS := scaleOf_nonneg n scale
  unfold uniformOn
  rw [if_pos rfl]
  unfold onSphere
  simp only
  rw [if_neg hor, hc]
  simp only [Except.bind]
  constructor
  · intro P h
    rcases hA : parFor 0 (fun i _ => (randOnUnitSphere g fuel d i (1 + t)).map fun p =>
      smul (smul p (1 - (1 - 1 / (1 + t)) * randFloat g i)) (theScale n scale)) (σ 0 n1) (List.replicate n (noPt d)) with e | P1
    · rw [hA] at h
      simp at h
    · rw [hA] at h
      simp only at h
      obtain ⟨a1, a2, _⟩ := parFor_returns _ _ P1 hd0 hA
      obtain ⟨b1, b2, b3⟩ := parFor_returns _ _ P hd1 h
      rw [List.length_replicate] at a1
      have outer : ∀ i p, i < n1 → P[i]? = some p → scaleOf n scale ^ 2 ≤ normSq p ∧ normSq p ≤ ((1 + t) * scaleOf n scale) ^ 2 := by
        intro i p hi hp
        rw [b3 i fun j _ => by omega] at hp
        obtain ⟨_, q, _, e2, e3⟩ := a2 i ((hm0 i).2 hi)
        rw [Nat.zero_add, hp] at e3
        cases e3
        rcases hv : randOnUnitSphere g fuel d i (1 + t) with e | v
        · simp [hv, Except.map] at e2
        · simp only [hv, Except.map, Except.ok.injEq] at e2
          have hl := randOn_spec hv
          rw [abs_of_pos hr1] at hl
          obtain ⟨f0, f1⟩ := randFloat_mem hg i
          have hs0 : 1 / (1 + t) ≤ 1 - (1 - 1 / (1 + t)) * randFloat g i := by
            have : 1 / (1 + t) ≤ 1 := by rw [div_le_one hr1]; linarith
            nlinarith
          have hs1 : 1 - (1 - 1 / (1 + t)) * randFloat g i ≤ 1 := by
            have : 1 / (1 + t) ≤ 1 := by rw [div_le_one hr1]; linarith
            nlinarith
          have hs2 : 0 < 1 / (1 + t) := by positivity
          rw [← e2, ← len_sq, len_smul, len_smul, hl, theScale_eq, abs_of_nonneg hS, abs_of_nonneg (by linarith)]
          generalize 1 - (1 - 1 / (1 + t)) * randFloat g i = s at *
          have k1 : 1 ≤ (1 + t) * s := by
            rw [div_le_iff₀ hr1] at hs0
            linarith
          have k2 : (1 + t) * s ≤ 1 + t := by nlinarith
          constructor
          · exact pow_le_pow_left₀ hS (by nlinarith) 2
          · exact pow_le_pow_left₀ (by positivity) (by nlinarith) 2
      have inner : ∀ i p, n1 ≤ i → i < n → P[i]? = some p →
          ((1 - t) * scaleOf n scale) ^ 2 ≤ normSq p ∧ normSq p ≤ scaleOf n scale ^ 2 := by
        intro i p hi hi' hp
        obtain ⟨_, q, _, e2, e3⟩ := b2 (i - n1) ((hm1 _).2 (by omega))
        rw [show n1 + (i - n1) = i by omega, hp] at e3
        rw [show n1 + (i - n1) = i by omega] at e2
        cases e3
        rcases hv : randOnUnitSphere g fuel d i (1 - t) with e | v
        · simp [hv, Except.map] at e2
        · simp only [hv, Except.map, Except.ok.injEq] at e2
          have hl := randOn_spec hv
          rw [abs_of_pos hr2] at hl
          obtain ⟨f0, f1⟩ := randFloat_mem hg i
          have hge : 1 ≤ 1 / (1 - t) := by rw [le_div_iff₀ hr2]; linarith
          have hs0 : 1 ≤ (1 / (1 - t) - 1) * randFloat g i + 1 := by nlinarith
          have hs1 : (1 / (1 - t) - 1) * randFloat g i + 1 ≤ 1 / (1 - t) := by nlinarith
          rw [← e2, ← len_sq, len_smul, len_smul, hl, theScale_eq, abs_of_nonneg hS, abs_of_nonneg (by linarith)]
          generalize (1 / (1 - t) - 1) * randFloat g i + 1 = s at *
          have k1 : (1 - t) * s ≤ 1 := by
            rw [le_div_iff₀ hr2] at hs1
            linarith
          have k2 : 1 - t ≤ (1 - t) * s := by nlinarith
          constructor
          · exact pow_le_pow_left₀ (by positivity) (by nlinarith) 2
          · exact pow_le_pow_left₀ (by positivity) (by nlinarith) 2
      have hlen : P.length = n := b1.trans a1
      refine ⟨hlen, ?_, n1, rfl, ?_, ?_⟩
      · intro p hp
        obtain ⟨i, hi, rfl⟩ := List.mem_iff_getElem.1 hp
        have hg' : P[i]? = some P[i] := List.getElem?_eq_getElem hi
        have q1 : ((1 - t) * scaleOf n scale) ^ 2 ≤ scaleOf n scale ^ 2 := pow_le_pow_left₀ (by positivity) (by nlinarith) 2
        have q2 : scaleOf n scale ^ 2 ≤ ((1 + t) * scaleOf n scale) ^ 2 := pow_le_pow_left₀ hS (by nlinarith) 2
        by_cases hi1 : i < n1
        · obtain ⟨u1, u2⟩ := outer i _ hi1 hg'
          exact ⟨q1.trans u1, u2⟩
        · obtain ⟨u1, u2⟩ := inner i _ (by omega) (by omega) hg'
          exact ⟨u1, u2.trans q2⟩
      · intro p hp
        obtain ⟨i, hi, rfl⟩ := List.mem_iff_getElem.1 hp
        rw [List.length_take] at hi
        rw [List.getElem_take]
        exact (outer i _ (by omega) (List.getElem?_eq_getElem (by omega))).1
      · intro p hp
        obtain ⟨i, hi, rfl⟩ := List.mem_iff_getElem.1 hp
        rw [List.length_drop] at hi
        rw [List.getElem_drop]
        exact (inner (n1 + i) _ (by omega) (by omega) (List.getElem?_eq_getElem (by omega))).2
  · intro hd hnz hk
    have hret : ∀ i < n, ∀ s, ∃ p, randOnUnitSphere g fuel d i s = .ok p := by
      intro i hi s
      obtain ⟨k, k1, k2⟩ := hk i hi
      rw [← len_sq] at k2
      exact randOn_returns hnz hg.pos.ne' hd s k1 ((pow_le_one_iff_of_nonneg (len_nonneg _) (by norm_num)).1 k2)
    obtain ⟨P1, hA, a1, _⟩ := parFor_ok (off := 0) (f := fun i _ => (randOnUnitSphere g fuel d i (1 + t)).map fun p =>
      smul (smul p (1 - (1 - 1 / (1 + t)) * randFloat g i)) (theScale n scale)) (σ 0 n1) (List.replicate n (noPt d)) hd0
      (fun i hi => by
        rw [List.length_replicate]
        have := (hm0 i).1 hi
        omega) (fun i hi p => by
        obtain ⟨q, hq⟩ := hret i (by have := (hm0 i).1 hi; omega) (1 + t)
        exact ⟨smul (smul q _) _, by rw [hq]; rfl⟩)
    rw [List.length_replicate] at a1
    obtain ⟨P, hB, _⟩ := parFor_ok (off := n1) (f := fun i _ => (randOnUnitSphere g fuel d (n1 + i) (1 - t)).map fun p =>
      smul (smul p ((1 / (1 - t) - 1) * randFloat g (n1 + i) + 1)) (theScale n scale)) (σ 1 (n - n1)) P1 hd1
      (fun i hi => by
        rw [a1]
        have := (hm1 i).1 hi
        omega) (fun i hi p => by
        obtain ⟨q, hq⟩ := hret (n1 + i) (by have := (hm1 i).1 hi; omega) (1 - t)
        exact ⟨smul (smul q _) _, by rw [hq]; rfl⟩)
    exact ⟨P, by rw [hA]; exact hB⟩

/-- C72, points on a cube: in dimension 2 and 3 and for every positive thickness the generator returns `n` points. They are dealt out to
the `2 d` faces in blocks of `n / (2 d)`, the last face gets the rest; a point of the face `x_c = ± scale` has that coordinate
within `thickness * scale` of it and the other coordinates between `-scale` and `scale`. -/
theorem c72_on_cube (hg : g.OK) (hσ : σ.OK) (hd : d = 2 ∨ d = 3) (ht : 0 < t) :
    ∃ P, uniformOn g fuel d σ n 1 t scale = .ok P ∧ P.length = n ∧
      ∀ face < 2 * d, ∀ i, face * (n / (2 * d)) ≤ i → i < n → (i < (face + 1) * (n / (2 * d)) ∨ face = 2 * d - 1) →
        ∃ p, P[i]? = some p ∧ ∀ j : Fin d,
          if j.val = d - 1 - face / 2 then
            |p j - (if face % 2 = 0 then scaleOf n scale else -scaleOf n scale)| ≤ t * scaleOf n scale
          else |p j| ≤ scaleOf n scale := by
  have hS := scaleOf_nonneg n scale
  have hmem : ∀ k m i, i ∈ σ k m ↔ i < m := fun k m i => (hσ k m).mem_iff.trans List.mem_range
  have hnd : ∀ k m, (σ k m).Nodup := fun k m => (hσ k m).nodup_iff.2 List.nodup_range
  have hfl : (faceList d t).length = 2 * d := by
    rcases hd with rfl | rfl <;> simp [faceList]
  have hft : ∀ f ∈ faceList d t, f.2.1 < f.2.2 := by
    intro f hf
    rcases hd with rfl | rfl
    · simp only [faceList, if_pos, List.mem_cons, List.not_mem_nil, or_false] at hf
      rcases hf with rfl | rfl | rfl | rfl <;> simp only <;> linarith
    · simp only [faceList, if_neg (show ¬(3 : ℕ) = 2 by norm_num), List.mem_cons, List.not_mem_nil, or_false] at hf
      rcases hf with rfl | rfl | rfl | rfl | rfl | rfl <;> simp only <;> linarith
  have hget : ∀ face < 2 * d, (faceList d t)[face]? = some (d - 1 - face / 2,
      (if face % 2 = 0 then 1 else -1) - t, (if face % 2 = 0 then 1 else -1) + t) := by
    intro face hf
    rcases hd with rfl | rfl
    · interval_cases face <;> simp [faceList]
    · interval_cases face <;> simp [faceList]
  have hdiv : (2 * d - 1) * (n / (2 * d)) ≤ n := by
    refine le_trans (Nat.mul_le_mul_right _ (by omega : 2 * d - 1 ≤ 2 * d)) (Nat.mul_div_le n (2 * d))
  obtain ⟨P1, a1, a2, a3, _⟩ := parFor_ok (off := 0) (f := fun i _ => .ok (randNd g d i)) (σ 0 n) (List.replicate n (noPt d)) (hnd 0 n)
    (fun i hi => by
      rw [List.length_replicate]
      have := (hmem 0 n i).1 hi
      omega) (fun i hi p => ⟨_, rfl⟩)
  rw [List.length_replicate] at a2
  obtain ⟨P2, b1, b2, _, b4⟩ := faces_ok hg hσ (n := n) (m := n / (2 * d)) (faceList d t) (by
    intro h
    rw [h] at hfl
    simp at hfl
    omega) hft 1 0 P1 a2 (by rw [hfl]; omega)
  obtain ⟨P, c1, c2, c3, _⟩ := parFor_ok (off := 0) (f := fun _ p => .ok (smul p (theScale n scale))) (σ 7 n) P2 (hnd 7 n)
    (fun i hi => by
      have := (hmem 7 n i).1 hi
      omega) (fun i hi p => ⟨_, rfl⟩)
  refine ⟨P, ?_, c2.trans b2, ?_⟩
  · unfold uniformOn
    rw [if_neg (by norm_num), if_pos rfl]
    unfold onCube
    rw [if_pos hd, a1]
    simp only [Except.bind]
    rw [b1]
    exact c1
  · intro face hf i hi hin hi2
    obtain ⟨p, v, d1, d2, d3, d4⟩ := b4 face _ _ _ (hget face hf) i (by omega) hin (by
      rcases hi2 with h | h
      · left; omega
      · right; omega)
    obtain ⟨_, q, _, e2, e3⟩ := a3 i ((hmem 0 n i).2 hin)
    rw [Nat.zero_add, d1] at e3
    obtain ⟨p2, q2, f1, f2, f3⟩ := c3 i ((hmem 7 n i).2 hin)
    rw [Nat.zero_add] at f1 f3
    rw [d2] at f1
    rw [Option.some.injEq] at f1 e3
    rw [Except.ok.injEq] at f2 e2
    refine ⟨q2, f3, fun j => ?_⟩
    rw [← f2, ← f1]
    unfold smul setCoord
    rw [theScale_eq]
    split_ifs with hj hp hp
    · rw [if_pos hp] at d3 d4
      rw [show v * scaleOf n scale - scaleOf n scale = (v - 1) * scaleOf n scale by ring, abs_mul, abs_of_nonneg hS]
      refine mul_le_mul_of_nonneg_right ?_ hS
      rw [abs_le]
      constructor <;> linarith
    · rw [if_neg hp] at d3 d4
      rw [show v * scaleOf n scale - -scaleOf n scale = (v + 1) * scaleOf n scale by ring, abs_mul, abs_of_nonneg hS]
      refine mul_le_mul_of_nonneg_right ?_ hS
      rw [abs_le]
      constructor <;> linarith
    · rw [e3, ← e2, abs_mul, abs_of_nonneg hS]
      exact mul_le_of_le_one_left hS (randNd_mem hg i j)

/-- **C72 fails on a cube of thickness 0** (or less): the generator throws for every positive number of points, while on a sphere
thickness 0 is fine. -/
theorem c72_thin_cube_false (hσ : σ.OK) (hd : d = 2 ∨ d = 3) (ht : t ≤ 0) (hn : 0 < n) :
    uniformOn g fuel d σ n 1 t scale = .error .throws := by
  have hmem : ∀ k m i, i ∈ σ k m ↔ i < m := fun k m i => (hσ k m).mem_iff.trans List.mem_range
  have hnd : ∀ k m, (σ k m).Nodup := fun k m => (hσ k m).nodup_iff.2 List.nodup_range
  have hfl : (faceList d t).length = 2 * d := by
    rcases hd with rfl | rfl <;> simp [faceList]
  have hft : ∀ f ∈ faceList d t, f.2.2 ≤ f.2.1 := by
    intro f hf
    rcases hd with rfl | rfl
    · simp only [faceList, if_pos, List.mem_cons, List.not_mem_nil, or_false] at hf
      rcases hf with rfl | rfl | rfl | rfl <;> simp only <;> linarith
    · simp only [faceList, if_neg (show ¬(3 : ℕ) = 2 by norm_num), List.mem_cons, List.not_mem_nil, or_false] at hf
      rcases hf with rfl | rfl | rfl | rfl | rfl | rfl <;> simp only <;> linarith
  have hdiv : (2 * d - 1) * (n / (2 * d)) ≤ n := by
    refine le_trans (Nat.mul_le_mul_right _ (by omega : 2 * d - 1 ≤ 2 * d)) (Nat.mul_div_le n (2 * d))
  obtain ⟨P1, a1, a2, _⟩ := parFor_ok (off := 0) (f := fun i _ => .ok (randNd g d i)) (σ 0 n) (List.replicate n (noPt d)) (hnd 0 n)
    (fun i hi => by
      rw [List.length_replicate]
      have := (hmem 0 n i).1 hi
      omega) (fun i hi p => ⟨_, rfl⟩)
  rw [List.length_replicate] at a2
  have := faces_throws (g := g) hσ (n := n) (m := n / (2 * d)) (faceList d t) (by
    intro h
    rw [h] at hfl
    simp at hfl
    omega) hft 1 0 P1 a2 (by rw [hfl]; omega) hn
  unfold uniformOn
  rw [if_neg (by norm_num), if_pos rfl]
  unfold onCube
  rw [if_pos hd, a1]
  simp only [Except.bind]
  rw [this]

/-- Other shapes throw: on the surface always, inside for every positive number of points. -/
theorem c72_shapes (hσ : σ.OK) {shape : ℕ} (hs : 2 ≤ shape) :
    uniformOn g fuel d σ n shape t scale = .error .throws ∧ (0 < n → uniformIn g fuel d σ n shape scale = .error .throws) := by
  constructor
  · unfold uniformOn
    rw [if_neg (by omega), if_neg (by omega)]
  · intro hn
    have hmem : ∀ i, i ∈ σ 0 n ↔ i < n := fun i => (hσ 0 n).mem_iff.trans List.mem_range
    refine parFor_throws (fun he => ?_) (fun i hi => by
      rw [List.length_replicate]
      have := (hmem i).1 hi
      omega) fun i _ p => by rw [if_neg (by omega), if_neg (by omega)]
    have := (hmem 0).2 hn
    rw [he] at this
    cases this

/-! ### Concrete cases -/

/-- All hashes are `2^63`; the conversion is exact. -/
noncomputable def rng1 : Rng := ⟨fun _ => 2 ^ 63, fun n => n⟩

theorem rng1_ok : rng1.OK where
  hash := fun _ => by show 2 ^ 63 < 2 ^ 64; norm_num
  zero := Nat.cast_zero
  mono := Nat.mono_cast
  pos := by show (0 : ℝ) < ((2 ^ 64 - 1 : ℕ) : ℝ); norm_num

theorem rng1_half (m : ℕ) : 2 * rng1.conv m ≠ rng1.conv (2 ^ 64 - 1) := by
  show 2 * (m : ℝ) ≠ ((2 ^ 64 - 1 : ℕ) : ℝ)
  intro h
  have : 2 * m = 2 ^ 64 - 1 := by exact_mod_cast h
  omega

/-- The parallel loops run from the last iteration to the first. -/
def lastFirst : Sched := fun _ m => (List.range m).reverse

theorem lastFirst_ok : lastFirst.OK := fun _ _ => List.reverse_perm _

theorem rng1_near (k : ℕ) : normSq (randNd rng1 2 k) ≤ 1 := by
  have : ∀ j : Fin 2, randNd rng1 2 k j = 1 / 18446744073709551615 := by
    intro j
    show 2 * (((2 ^ 63 : ℕ) : ℝ) / ((2 ^ 64 - 1 : ℕ) : ℝ)) - 1 = _
    norm_num
  unfold normSq
  rw [Fin.sum_univ_two, this, this]
  norm_num

/-- The hypotheses of all the theorems hold for ten points in the plane and thickness 1/2. -/
example : (∃ P, uniformIn rng1 1 2 lastFirst 10 0 1 = .ok P) ∧ (∃ P, uniformOn rng1 1 2 lastFirst 10 0 (1 / 2) 1 = .ok P) ∧
    (∃ P, uniformOn rng1 1 2 lastFirst 10 1 (1 / 2) 1 = .ok P) := by
  refine ⟨(c72_in_ball rng1_ok lastFirst_ok).2 fun i _ => ⟨0, by norm_num, rng1_near _⟩,
    (c72_on_sphere rng1_ok lastFirst_ok (by norm_num) (by norm_num)).2 (by norm_num) rng1_half fun i _ => ⟨0, by norm_num, rng1_near _⟩,
    ?_⟩
  obtain ⟨P, h, _⟩ := c72_on_cube (g := rng1) (fuel := 1) (σ := lastFirst) (d := 2) (n := 10) (scale := 1) (t := 1 / 2) rng1_ok
    lastFirst_ok (.inl rfl) (by norm_num)
  exact ⟨P, h⟩

/-- **C72 fails on a sphere of thickness above 1.** In the plane, thickness 2 and ten points: the number of points outside is fifteen, and
the loop writes outside the sequence. -/
theorem c72_thick_sphere_false : uniformOn rng1 1 2 lastFirst 10 0 2 1 = .error .ub := by
  have hc : outerCount 2 10 2 = .ok 15 := by
    unfold outerCount
    norm_num
  unfold uniformOn
  rw [if_pos rfl]
  unfold onSphere
  simp only
  rw [if_neg (by norm_num), hc]
  simp only [Except.bind]
  rw [parFor_ub (off := 0) (lastFirst 0 15) (List.replicate 10 (noPt 2)) ⟨14, by simp [lastFirst], by simp⟩]
  intro i _ p
  obtain ⟨q, hq⟩ := randOn_returns (g := rng1) rng1_half rng1_ok.pos.ne' (d := 2) (by norm_num) (fuel := 1) (i := i) (k := 0) (1 + 2)
    (by norm_num) (by
      have := rng1_near ((rng1.hash 0 + i) % 2 ^ 64)
      rw [← len_sq] at this
      exact (pow_le_one_iff_of_nonneg (len_nonneg _) (by norm_num)).1 this)
  exact ⟨smul (smul q _) _, by rw [hq]; rfl⟩

end Verif.Dataset
