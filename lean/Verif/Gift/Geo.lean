import Mathlib.Tactic.Linarith
import Mathlib.Tactic.LinearCombination
import Verif.Gift.Model
import Verif.QHull.Extreme

set_option linter.unusedSectionVars false
set_option linter.unusedVariables false

/-!
Pivoting: the point of largest angle over an edge of a supporting plane gives a supporting plane.
-/

namespace Verif.Gift

open Verif Verif.Hull3d Verif.QHull

/-- Contract of `parlay::max_element` on `n` elements. -/
def PickOk (n : ℕ) (pick : (ℕ → ℝ) → ℕ) : Prop := ∀ key : ℕ → ℝ, pick key < n ∧ ∀ i < n, key i ≤ key (pick key)

/-- Contract of `parlay::min_element` on `n` elements. -/
def LowOk (n : ℕ) (low : (ℕ → ℝ) → ℕ) : Prop := ∀ key : ℕ → ℝ, low key < n ∧ ∀ i < n, key (low key) ≤ key i

/-- The smaller cosine has the smaller cotangent, in the upper half plane. -/
theorem cot_le {xc yc xq yq U : ℝ} (hU : 0 < U) (hc : 0 ≤ yc) (hq : 0 ≤ yq)
    (h : xq * √(xc ^ 2 + U * yc ^ 2) ≤ xc * √(xq ^ 2 + U * yq ^ 2)) : xq * yc ≤ xc * yq := by
  by_contra hlt
  push Not at hlt
  have hC : 0 ≤ xc ^ 2 + U * yc ^ 2 := by positivity
  have hQ : 0 ≤ xq ^ 2 + U * yq ^ 2 := by positivity
  set C := √(xc ^ 2 + U * yc ^ 2) with hCd
  set Q := √(xq ^ 2 + U * yq ^ 2) with hQd
  have hC2 : C ^ 2 = xc ^ 2 + U * yc ^ 2 := Real.sq_sqrt hC
  have hQ2 : Q ^ 2 = xq ^ 2 + U * yq ^ 2 := Real.sq_sqrt hQ
  have hC0 : 0 ≤ C := Real.sqrt_nonneg _
  have hQ0 : 0 ≤ Q := Real.sqrt_nonneg _
  rcases lt_or_ge 0 xq with hx | hx
  · rcases le_or_gt xc 0 with hx' | hx'
    · have hyc : 0 < yc := by
        rcases hc.lt_or_eq with h1 | h1
        · exact h1
        · exfalso
          rw [← h1] at hlt
          have : xq * C ≤ xc * Q := h
          have h2 : xc * Q ≤ 0 := mul_nonpos_of_nonpos_of_nonneg hx' hQ0
          have h3 : 0 ≤ xq * C := mul_nonneg hx.le hC0
          have hQp : 0 < Q := by
            have : 0 < Q ^ 2 := by rw [hQ2]; positivity
            exact lt_of_le_of_ne hQ0 (by rintro h0; rw [← h0] at this; simp at this)
          have hxc : xc < 0 := by nlinarith
          have : xc * Q < 0 := mul_neg_of_neg_of_pos hxc hQp
          linarith
      have hCp : 0 < C := by
        have : 0 < C ^ 2 := by rw [hC2]; positivity
        exact lt_of_le_of_ne hC0 (by rintro h0; rw [← h0] at this; simp at this)
      have h2 : xc * Q ≤ 0 := mul_nonpos_of_nonpos_of_nonneg hx' hQ0
      have h3 : 0 < xq * C := mul_pos hx hCp
      linarith
    · -- both positive
      have h1 : (xq * C) ^ 2 ≤ (xc * Q) ^ 2 := pow_le_pow_left₀ (mul_nonneg hx.le hC0) h 2
      rw [mul_pow, mul_pow, hC2, hQ2] at h1
      have h2 : (xc * yq) ^ 2 < (xq * yc) ^ 2 := pow_lt_pow_left₀ hlt (mul_nonneg hx'.le hq) (by norm_num)
      nlinarith
  · have h1 : xc * yq < 0 := lt_of_lt_of_le hlt (mul_nonpos_of_nonpos_of_nonneg hx hc)
    have hxc : xc < 0 := by
      by_contra hn
      exact absurd h1 (not_lt.mpr (mul_nonneg (not_lt.mp hn) hq))
    have h2 : (-xc * Q) ^ 2 ≤ (-xq * C) ^ 2 := by
      apply pow_le_pow_left₀ (mul_nonneg (by linarith) hQ0)
      linarith
    rw [mul_pow, mul_pow, hC2, hQ2] at h2
    have h3 : (-xq * yc) ^ 2 < (-xc * yq) ^ 2 := by
      apply pow_lt_pow_left₀ _ (mul_nonneg (by linarith) hc) (by norm_num)
      linarith
    nlinarith

/-! ### The vectors of `facetAngle` -/

section
variable (a1 b1 c1 : P3 ℝ)

/-- The normal of the triangle with the edge `a1 b1` and the corner `c`. -/
noncomputable def nrm (c : P3 ℝ) : P3 ℝ := cross3 (fun i => b1 i - a1 i) fun i => c i - a1 i

theorem dot3 (p q : P3 ℝ) : dot p q = p 0 * q 0 + p 1 * q 1 + p 2 * q 2 := by
  unfold dot
  rw [Fin.sum_univ_three]

theorem nrm0 (c : P3 ℝ) : nrm a1 b1 c 0 = (b1 1 - a1 1) * (c 2 - a1 2) - (b1 2 - a1 2) * (c 1 - a1 1) := rfl
theorem nrm1 (c : P3 ℝ) : nrm a1 b1 c 1 = (b1 2 - a1 2) * (c 0 - a1 0) - (b1 0 - a1 0) * (c 2 - a1 2) := rfl
theorem nrm2 (c : P3 ℝ) : nrm a1 b1 c 2 = (b1 0 - a1 0) * (c 1 - a1 1) - (b1 1 - a1 1) * (c 0 - a1 0) := rfl

/-- Squared length of the edge. -/
noncomputable def len2 : ℝ := (b1 0 - a1 0) ^ 2 + (b1 1 - a1 1) ^ 2 + (b1 2 - a1 2) ^ 2

theorem lagrange (c : P3 ℝ) : dot (nrm a1 b1 c1) (nrm a1 b1 c1) * dot (nrm a1 b1 c) (nrm a1 b1 c) =
    dot (nrm a1 b1 c1) (nrm a1 b1 c) ^ 2 + len2 a1 b1 * vol a1 b1 c1 c ^ 2 := by
  simp only [dot3, nrm0, nrm1, nrm2]
  unfold len2 vol
  ring

theorem cross_vol (q c : P3 ℝ) : dot (nrm a1 b1 c1) (nrm a1 b1 q) * vol a1 b1 c1 c -
    dot (nrm a1 b1 c1) (nrm a1 b1 c) * vol a1 b1 c1 q = dot (nrm a1 b1 c1) (nrm a1 b1 c1) * vol a1 b1 q c := by
  simp only [dot3, nrm0, nrm1, nrm2]
  unfold vol
  ring

theorem dot_self_nonneg (p : P3 ℝ) : 0 ≤ dot p p := by
  rw [dot3]; nlinarith [sq_nonneg (p 0), sq_nonneg (p 1), sq_nonneg (p 2)]

theorem facetAngle_eq (c : P3 ℝ) : facetAngle a1 b1 c1 c =
    if dot (nrm a1 b1 c1) (nrm a1 b1 c1) * dot (nrm a1 b1 c) (nrm a1 b1 c) = 0 then 0
    else Real.arccos (dot (nrm a1 b1 c1) (nrm a1 b1 c) /
      √(dot (nrm a1 b1 c1) (nrm a1 b1 c1) * dot (nrm a1 b1 c) (nrm a1 b1 c))) := rfl

theorem len2_nonneg : 0 ≤ len2 a1 b1 := by unfold len2; positivity

theorem len2_pos (h : 0 < dot (nrm a1 b1 c1) (nrm a1 b1 c1)) : 0 < len2 a1 b1 := by
  rcases (len2_nonneg a1 b1).lt_or_eq with h1 | h1
  · exact h1
  · exfalso
    have e : (b1 0 - a1 0) ^ 2 + (b1 1 - a1 1) ^ 2 + (b1 2 - a1 2) ^ 2 = 0 := h1.symm
    have h0 : b1 0 - a1 0 = 0 := by nlinarith [sq_nonneg (b1 0 - a1 0), sq_nonneg (b1 1 - a1 1), sq_nonneg (b1 2 - a1 2)]
    have h1 : b1 1 - a1 1 = 0 := by nlinarith [sq_nonneg (b1 0 - a1 0), sq_nonneg (b1 1 - a1 1), sq_nonneg (b1 2 - a1 2)]
    have h2 : b1 2 - a1 2 = 0 := by nlinarith [sq_nonneg (b1 0 - a1 0), sq_nonneg (b1 1 - a1 1), sq_nonneg (b1 2 - a1 2)]
    rw [dot3, nrm0, nrm1, nrm2, h0, h1, h2] at h
    simp at h

variable {a1 b1 c1}

theorem dot_zero_of {p q : P3 ℝ} (h : dot p p = 0) : dot q p = 0 := by
  rw [dot3] at *
  have h0 : p 0 = 0 := by nlinarith [sq_nonneg (p 0), sq_nonneg (p 1), sq_nonneg (p 2)]
  have h1 : p 1 = 0 := by nlinarith [sq_nonneg (p 0), sq_nonneg (p 1), sq_nonneg (p 2)]
  have h2 : p 2 = 0 := by nlinarith [sq_nonneg (p 0), sq_nonneg (p 1), sq_nonneg (p 2)]
  rw [h0, h1, h2]; ring

theorem dot_comm3 (p q : P3 ℝ) : dot p q = dot q p := by
  rw [dot3, dot3]; ring

/-- A point off the plane has a positive angle. -/
theorem angle_pos {c : P3 ℝ} (h : vol a1 b1 c1 c ≠ 0) : 0 < facetAngle a1 b1 c1 c := by
  have hL := lagrange a1 b1 c1 c
  have hn1 : dot (nrm a1 b1 c1) (nrm a1 b1 c1) ≠ 0 := by
    intro h0
    have e := cross_vol a1 b1 c1 c1 c
    have hz : vol a1 b1 c1 c1 = 0 := by unfold vol; ring
    have h1 := h
    -- vol is a component of the normal
    have : vol a1 b1 c1 c = dot (nrm a1 b1 c1) (fun i => c i - a1 i) := by
      rw [dot3, nrm0, nrm1, nrm2]; unfold vol; ring
    rw [this, dot_comm3, dot_zero_of h0] at h1
    exact h1 rfl
  have hp1 : 0 < dot (nrm a1 b1 c1) (nrm a1 b1 c1) := lt_of_le_of_ne (dot_self_nonneg _) (Ne.symm hn1)
  have hU := len2_pos a1 b1 c1 hp1
  have hpos : 0 < dot (nrm a1 b1 c1) (nrm a1 b1 c1) * dot (nrm a1 b1 c) (nrm a1 b1 c) := by
    rw [hL]; positivity
  rw [facetAngle_eq, if_neg hpos.ne', Real.arccos_pos, div_lt_one (Real.sqrt_pos.mpr hpos)]
  apply Real.lt_sqrt_of_sq_lt
  rw [hL]
  have : 0 < len2 a1 b1 * vol a1 b1 c1 c ^ 2 := by positivity
  linarith

/-- A positive angle needs two proper triangles. -/
theorem angle_proper {c : P3 ℝ} (h : 0 < facetAngle a1 b1 c1 c) :
    0 < dot (nrm a1 b1 c1) (nrm a1 b1 c1) ∧ 0 < dot (nrm a1 b1 c) (nrm a1 b1 c) := by
  rw [facetAngle_eq] at h
  split at h
  · exact absurd h (lt_irrefl _)
  · rename_i h0
    exact ⟨lt_of_le_of_ne (dot_self_nonneg _) (by rintro h1; rw [← h1] at h0; simp at h0),
      lt_of_le_of_ne (dot_self_nonneg _) (by rintro h1; rw [← h1] at h0; simp at h0)⟩

theorem nrm_self : dot (nrm a1 b1 a1) (nrm a1 b1 a1) = 0 := by
  rw [dot3, nrm0, nrm1, nrm2]; ring

theorem nrm_self' : dot (nrm a1 b1 b1) (nrm a1 b1 b1) = 0 := by
  rw [dot3, nrm0, nrm1, nrm2]; ring

/-- The third corner itself has angle 0. -/
theorem angle_self : facetAngle a1 b1 c1 c1 = 0 := by
  rw [facetAngle_eq]
  split
  · rfl
  · rename_i h0
    rw [Real.sqrt_mul_self (dot_self_nonneg _), div_self (by rintro h1; rw [h1] at h0; simp at h0), Real.arccos_one]

/-- The comparison of cosines behind a comparison of angles. -/
theorem angle_le_cos {q c : P3 ℝ} (hq : 0 < facetAngle a1 b1 c1 q) (h : facetAngle a1 b1 c1 c ≤ facetAngle a1 b1 c1 q) :
    dot (nrm a1 b1 c1) (nrm a1 b1 q) * √(dot (nrm a1 b1 c1) (nrm a1 b1 c) ^ 2 + len2 a1 b1 * vol a1 b1 c1 c ^ 2) ≤
      dot (nrm a1 b1 c1) (nrm a1 b1 c) * √(dot (nrm a1 b1 c1) (nrm a1 b1 q) ^ 2 + len2 a1 b1 * vol a1 b1 c1 q ^ 2) := by
  obtain ⟨h1, h2⟩ := angle_proper hq
  rw [← lagrange, ← lagrange]
  have hQ : 0 < dot (nrm a1 b1 c1) (nrm a1 b1 c1) * dot (nrm a1 b1 q) (nrm a1 b1 q) := mul_pos h1 h2
  rcases (dot_self_nonneg (nrm a1 b1 c)).lt_or_eq with h3 | h3
  · have hC : 0 < dot (nrm a1 b1 c1) (nrm a1 b1 c1) * dot (nrm a1 b1 c) (nrm a1 b1 c) := mul_pos h1 h3
    rw [facetAngle_eq, facetAngle_eq, if_neg hC.ne', if_neg hQ.ne'] at h
    have bound : ∀ r : P3 ℝ, 0 < dot (nrm a1 b1 c1) (nrm a1 b1 c1) * dot (nrm a1 b1 r) (nrm a1 b1 r) →
        |dot (nrm a1 b1 c1) (nrm a1 b1 r) / √(dot (nrm a1 b1 c1) (nrm a1 b1 c1) * dot (nrm a1 b1 r) (nrm a1 b1 r))| ≤ 1 := by
      intro r hr
      rw [abs_div, abs_of_pos (Real.sqrt_pos.mpr hr), div_le_one (Real.sqrt_pos.mpr hr)]
      apply Real.abs_le_sqrt
      rw [lagrange]
      have := mul_nonneg (len2_nonneg a1 b1) (sq_nonneg (vol a1 b1 c1 r))
      linarith
    have hc := abs_le.mp (bound c hC)
    have hq' := abs_le.mp (bound q hQ)
    have h4 := (Real.strictAntiOn_arccos.le_iff_ge ⟨hc.1, hc.2⟩ ⟨hq'.1, hq'.2⟩).mp h
    rw [div_le_div_iff₀ (Real.sqrt_pos.mpr hQ) (Real.sqrt_pos.mpr hC)] at h4
    exact h4
  · rw [dot_zero_of (q := nrm a1 b1 c1) h3.symm, ← h3]
    simp

/-- The pivot, points on the non-negative side. -/
theorem pivot_nonneg {q c : P3 ℝ} (hq : 0 < facetAngle a1 b1 c1 q) (h : facetAngle a1 b1 c1 c ≤ facetAngle a1 b1 c1 q)
    (sq : 0 ≤ vol a1 b1 c1 q) (sc : 0 ≤ vol a1 b1 c1 c) : vol a1 b1 q c ≤ 0 := by
  obtain ⟨h1, h2⟩ := angle_proper hq
  have h3 := cot_le (len2_pos a1 b1 c1 h1) sc sq (angle_le_cos hq h)
  have h4 := cross_vol a1 b1 c1 q c
  by_contra hn
  have := mul_pos h1 (not_le.mp hn)
  linarith

/-- The pivot, points on the non-positive side. -/
theorem pivot_nonpos {q c : P3 ℝ} (hq : 0 < facetAngle a1 b1 c1 q) (h : facetAngle a1 b1 c1 c ≤ facetAngle a1 b1 c1 q)
    (sq : vol a1 b1 c1 q ≤ 0) (sc : vol a1 b1 c1 c ≤ 0) : 0 ≤ vol a1 b1 q c := by
  obtain ⟨h1, h2⟩ := angle_proper hq
  have h0 := angle_le_cos hq h
  rw [← neg_sq (vol a1 b1 c1 c), ← neg_sq (vol a1 b1 c1 q)] at h0
  have h3 := cot_le (len2_pos a1 b1 c1 h1) (neg_nonneg.mpr sc) (neg_nonneg.mpr sq) h0
  have h4 := cross_vol a1 b1 c1 q c
  by_contra hn
  have := mul_neg_of_pos_of_neg h1 (not_le.mp hn)
  linarith

end

end Verif.Gift
