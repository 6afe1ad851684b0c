import Verif.Float.Round
import Mathlib.Analysis.Real.Sqrt

set_option linter.unusedSectionVars false
set_option linter.unusedVariables false

/-!
Rounding to nearest and the square root: a floating-point number is not larger than the rounded root of its
rounded square.
-/

namespace Verif.Float

/-- `include/pargeo/point.h:32-36` (`double`): what is assumed of the rounding where a computed number is used
again as a length. A rounded number is not rounded again, and the rounded root of the rounded square of a
non-negative floating-point number is not smaller than the number. -/
structure IsRootRounding (fl : ℝ → ℝ) : Prop extends IsMonoRounding fl where
  idem : ∀ x, fl (fl x) = fl x
  root : ∀ r, 0 ≤ r → fl r = r → r ≤ fl (Real.sqrt (fl (r * r)))

/-- Exact arithmetic is such a rounding. -/
theorem isRootRounding_id : IsRootRounding id :=
  ⟨isRounding_id.toIsMonoRounding, fun _ => rfl, fun r h _ => (Real.sqrt_mul_self h).ge⟩

section
variable {p : ℕ}

theorem Repr.neg {x : ℝ} (h : Repr p x) : Repr p (-x) := by
  obtain ⟨m, e, hm, rfl⟩ := h
  exact ⟨-m, e, by rwa [abs_neg], by push_cast; ring⟩

theorem rnePos_isRepr (hp : 1 ≤ p) {x : ℝ} (hx : 0 ≤ x) : Repr p (rnePos p x) := by
  rcases eq_or_lt_of_le hx with rfl | hx
  · exact ⟨0, 0, by simp, by simp [rnePos]⟩
  rw [rnePos_eq hx]
  have h0 := rhe_nonneg (x := x / (2 : ℝ) ^ expo p x) (by positivity)
  have h1 := rhe_mono (scaled_bounds hp hx).2.le
  have h3 : rhe (((2 ^ p : ℕ) : ℝ)) = ((2 ^ p : ℕ) : ℤ) := by
    have := rhe_int ((2 ^ p : ℕ) : ℤ)
    rwa [Int.cast_natCast] at this
  rw [h3] at h1
  push_cast at h1
  generalize rhe (x / (2 : ℝ) ^ expo p x) = m at *
  rcases lt_or_eq_of_le h1 with h | h
  · exact ⟨m, _, by rwa [abs_of_nonneg h0], rfl⟩
  · refine ⟨1, p + expo p x, ?_, ?_⟩
    · rw [abs_one]
      exact one_lt_pow₀ (by norm_num) (by omega)
    · rw [h, zpow_add₀ (by norm_num), zpow_natCast]
      push_cast
      ring

/-- The result of rounding is a floating-point number. -/
theorem rne_isRepr (hp : 1 ≤ p) (x : ℝ) : Repr p (rne p x) := by
  unfold rne
  split
  · exact (rnePos_isRepr hp (by linarith)).neg
  · exact rnePos_isRepr hp (by linarith)

/-- A positive floating-point number with the first of its `p` bits set. -/
theorem repr_normal (hp : 1 ≤ p) {r : ℝ} (hr : 0 < r) (h : rne p r = r) :
    ∃ m e : ℤ, (2 : ℝ) ^ (p - 1) ≤ m ∧ (m : ℝ) < (2 : ℝ) ^ p ∧ r = m * (2 : ℝ) ^ e := by
  rw [rne_of_nonneg hr.le, rnePos_eq hr] at h
  obtain ⟨h1, h2⟩ := scaled_bounds hp hr
  have hs := two_pow_expo_pos (p := p) r
  have hm : r / (2 : ℝ) ^ expo p r = rhe (r / (2 : ℝ) ^ expo p r) := by
    rw [div_eq_iff hs.ne']
    exact h.symm
  refine ⟨rhe (r / (2 : ℝ) ^ expo p r), expo p r, ?_, ?_, h.symm⟩
  · rw [← hm]
    exact_mod_cast h1
  · rw [← hm]
    exact_mod_cast h2

/-- The rounded root of the rounded square of a floating-point number is not smaller than the number. -/
theorem rne_root (hp : 1 ≤ p) {r : ℝ} (h0 : 0 ≤ r) (h : rne p r = r) :
    r ≤ rne p (Real.sqrt (rne p (r * r))) := by
  rcases eq_or_lt_of_le h0 with rfl | hr
  · have hf := (isRounding_rne hp).toIsMonoRounding
    exact hf.nonneg (Real.sqrt_nonneg _)
  rcases le_or_gt r (Real.sqrt (rne p (r * r))) with hc | hc
  · have := rne_mono hp hc
    rwa [h] at this
  obtain ⟨m, e, h1, h2, he⟩ := repr_normal hp hr h
  have hE : (0 : ℝ) < (2 : ℝ) ^ e := by positivity
  have hm2 : (m : ℝ) ≤ (2 : ℝ) ^ p - 1 := by
    have : m < 2 ^ p := by exact_mod_cast h2
    have : m ≤ 2 ^ p - 1 := by omega
    exact_mod_cast this
  rcases eq_or_lt_of_le h1 with heq | hlt
  · -- a power of two: the square is exact
    exfalso
    have hsq : Repr p (r * r) := by
      refine ⟨1, 2 * e + 2 * ((p - 1 : ℕ) : ℤ), ?_, ?_⟩
      · rw [abs_one]
        exact one_lt_pow₀ (by norm_num) (by omega)
      · rw [he, ← heq, zpow_add₀ (by norm_num), two_mul, two_mul, zpow_add₀ (by norm_num),
          zpow_add₀ (by norm_num), zpow_natCast]
        push_cast
        ring
    rw [rne_repr hp hsq, Real.sqrt_mul_self h0] at hc
    exact lt_irrefl _ hc
  · have hm1 : (2 : ℝ) ^ (p - 1) ≤ m - 1 := by
      have : (2 : ℤ) ^ (p - 1) < m := by exact_mod_cast hlt
      have : (2 : ℤ) ^ (p - 1) ≤ m - 1 := by omega
      exact_mod_cast this
    have hu : (2 : ℝ)⁻¹ ^ p * (2 : ℝ) ^ p = 1 := by
      rw [← mul_pow]
      norm_num
    have hup : (2 : ℝ)⁻¹ ^ p * (2 : ℝ) ^ (p - 1) = 1 / 2 := by
      obtain ⟨n, rfl⟩ : ∃ n, p = n + 1 := ⟨p - 1, by omega⟩
      rw [Nat.add_sub_cancel, pow_succ, mul_right_comm, ← mul_pow]
      norm_num
    have hupos : (0 : ℝ) < (2 : ℝ)⁻¹ ^ p := by positivity
    have herr := (abs_le.mp ((isRounding_rne hp).err (r * r))).1
    rw [abs_of_nonneg (mul_self_nonneg r)] at herr
    -- the lower bound of the root
    have hlow : ((m : ℝ) - 1 / 2) * (2 : ℝ) ^ e < Real.sqrt (rne p (r * r)) := by
      have hpos : 0 ≤ ((m : ℝ) - 1 / 2) * (2 : ℝ) ^ e := by
        have : (1 : ℝ) ≤ (2 : ℝ) ^ (p - 1) := one_le_pow₀ (by norm_num)
        exact mul_nonneg (by linarith) hE.le
      rw [Real.lt_sqrt hpos]
      refine lt_of_lt_of_le ?_ (by linarith : r * r - (2 : ℝ)⁻¹ ^ p * (r * r) ≤ rne p (r * r))
      generalize (2 : ℝ)⁻¹ ^ p = u at *
      have h3 : u * m ≤ 1 - u := by
        have := mul_le_mul_of_nonneg_left hm2 hupos.le
        linarith
      have h4 : 1 / 2 ≤ u * m := by
        have := mul_le_mul_of_nonneg_left h1 hupos.le
        linarith
      have hm0 : (0 : ℝ) ≤ m := by
        have : (0 : ℝ) < (2 : ℝ) ^ (p - 1) := by positivity
        linarith
      have h5 : u * m * m ≤ (1 - u) * m := mul_le_mul_of_nonneg_right h3 hm0
      have h6 : ((m : ℝ) - 1 / 2) ^ 2 < m * m - u * (m * m) := by nlinarith
      rw [he]
      have h7 : (((m : ℝ) - 1 / 2) * (2 : ℝ) ^ e) ^ 2 = ((m : ℝ) - 1 / 2) ^ 2 * ((2 : ℝ) ^ e * (2 : ℝ) ^ e) := by
        ring
      have h8 : (m : ℝ) * (2 : ℝ) ^ e * (m * (2 : ℝ) ^ e) - u * (m * (2 : ℝ) ^ e * (m * (2 : ℝ) ^ e)) =
          (m * m - u * (m * m)) * ((2 : ℝ) ^ e * (2 : ℝ) ^ e) := by ring
      rw [h7, h8]
      exact mul_lt_mul_of_pos_right h6 (mul_pos hE hE)
    have hev : rne p (Real.sqrt (rne p (r * r))) =
        rhe (Real.sqrt (rne p (r * r)) / (2 : ℝ) ^ e) * (2 : ℝ) ^ e := by
      apply rne_eval e
      · refine le_trans (le_of_eq ?_) (le_trans (mul_le_mul_of_nonneg_right (by linarith : (2 : ℝ) ^ (p - 1) ≤ m - 1 / 2)
          hE.le) hlow.le)
        rw [← zpow_natCast, ← zpow_add₀ (by norm_num)]
        congr 1
        omega
      · refine hc.trans_le ?_
        rw [he, zpow_add₀ (by norm_num), zpow_natCast, mul_comm]
        exact mul_le_mul_of_nonneg_left h2.le hE.le
    rw [hev]
    generalize Real.sqrt (rne p (r * r)) = s at *
    have h9 : (m : ℝ) - 1 / 2 < s / (2 : ℝ) ^ e := by rwa [lt_div_iff₀ hE]
    have h10 := (abs_le.mp (rhe_err (s / (2 : ℝ) ^ e))).1
    have h11 : (m : ℝ) - 1 < rhe (s / (2 : ℝ) ^ e) := by linarith
    have h12 : m - 1 < rhe (s / (2 : ℝ) ^ e) := by exact_mod_cast h11
    have h13 : m ≤ rhe (s / (2 : ℝ) ^ e) := by omega
    have h14 : (m : ℝ) ≤ rhe (s / (2 : ℝ) ^ e) := by exact_mod_cast h13
    nth_rewrite 1 [he]
    exact mul_le_mul_of_nonneg_right h14 hE.le

/-- Rounding to nearest with `p` bits, ties to even, is such a rounding. -/
theorem isRootRounding_rne (hp : 1 ≤ p) : IsRootRounding (rne p) :=
  ⟨(isRounding_rne hp).toIsMonoRounding, fun x => rne_repr hp (rne_isRepr hp x), fun r => rne_root hp⟩

end

end Verif.Float
