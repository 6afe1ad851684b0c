import Mathlib.Analysis.Convex.Combination
import Mathlib.Tactic.FieldSimp
import Mathlib.Tactic.LinearCombination
import Verif.RandInc.Start

set_option linter.unusedSectionVars false
set_option linter.unusedVariables false

/-!
Directions in a quadrant, and triangles.
-/

namespace Verif.RandInc

open Verif Verif.Hull2d

variable {K : Type} [Field K] [LinearOrder K] [IsStrictOrderedRing K]

theorem rot_zero (i : Fin 4) {v : Point K 2} (h1 : rx i v = 0) (h2 : ry i v = 0) : v = 0 := by
  funext j
  fin_cases i <;> fin_cases j <;> simp_all [rx, ry]

theorem dir_add (i : Fin 4) {a b : Point K 2} (ha : Dir i a) (hb : Dir i b) : Dir i (a + b) := by
  obtain ⟨a1, a2⟩ := ha
  obtain ⟨b1, b2⟩ := hb
  have e1 : rx i (a + b) = rx i a + rx i b := by fin_cases i <;> simp [rx] <;> ring
  have e2 : ry i (a + b) = ry i a + ry i b := by fin_cases i <;> simp [ry] <;> ring
  exact ⟨by rw [e1]; linarith, by rw [e2]; linarith⟩

theorem dir_smul (i : Fin 4) {a : Point K 2} {c : K} (hc : 0 ≤ c) (ha : Dir i a) : Dir i (c • a) := by
  obtain ⟨a1, a2⟩ := ha
  have e1 : rx i (c • a) = c * rx i a := by fin_cases i <;> simp [rx]
  have e2 : ry i (c • a) = c * ry i a := by fin_cases i <;> simp [ry]
  exact ⟨by rw [e1]; exact mul_nonneg hc a1, by rw [e2]; exact mul_nonneg hc a2⟩

theorem dir_ne (i : Fin 4) {a : Point K 2} (ha : Dir i a) (hn : a ≠ 0) : 0 < rx i a ∨ 0 < ry i a := by
  by_contra hc
  push Not at hc
  exact hn (rot_zero i (le_antisymm hc.1 ha.1) (le_antisymm hc.2 ha.2))

/-- Two opposite directions of a quadrant vanish. -/
theorem dir_salient (i : Fin 4) {a b : Point K 2} (ha : Dir i a) (hb : Dir i b) (h : a + b = 0) : a = 0 := by
  have e : a = -b := eq_neg_of_add_eq_zero_left h
  have e1 : rx i a = -rx i b := by rw [e]; fin_cases i <;> simp [rx]
  have e2 : ry i a = -ry i b := by rw [e]; fin_cases i <;> simp [ry]
  obtain ⟨a1, a2⟩ := ha
  obtain ⟨b1, b2⟩ := hb
  exact rot_zero i (by linarith) (by linarith)

theorem cr_swap (a b : Point K 2) : cr a b = -cr b a := by unfold cr; ring

theorem cr_add (a b c : Point K 2) : cr a (b + c) = cr a b + cr a c := by
  unfold cr; simp only [Pi.add_apply]; ring

theorem cr_sub (a b c : Point K 2) : cr a (b - c) = cr a b - cr a c := by
  unfold cr; simp only [Pi.sub_apply]; ring

theorem cr_comb (α β : K) (a b c : Point K 2) : cr (α • a + β • b) c = α * cr a c + β * cr b c := by
  unfold cr; simp only [Pi.add_apply, Pi.smul_apply, smul_eq_mul]; ring

theorem plucker (a b c d : Point K 2) : cr a b * cr c d = cr a c * cr b d - cr a d * cr b c := by
  unfold cr; ring

/-- Turning right is transitive within a quadrant. -/
theorem cr_trans (i : Fin 4) {x d y : Point K 2} (hx : Dir i x) (hd : Dir i d) (hy : Dir i y) (hn : d ≠ 0) (h1 : cr x d ≤ 0)
    (h2 : cr d y ≤ 0) : cr x y ≤ 0 := by
  rw [cr_rot i] at h1 h2 ⊢
  have hn' := dir_ne i hd hn
  obtain ⟨x1, x2⟩ := hx
  obtain ⟨d1, d2⟩ := hd
  obtain ⟨y1, y2⟩ := hy
  generalize rx i x = X1 at *
  generalize ry i x = X2 at *
  generalize rx i d = D1 at *
  generalize ry i d = D2 at *
  generalize rx i y = Y1 at *
  generalize ry i y = Y2 at *
  rcases hn' with h | h
  · have : D1 * (X1 * Y2 - X2 * Y1) ≤ 0 := by nlinarith [mul_nonneg x1 (neg_nonneg.mpr h2), mul_nonneg y1 (neg_nonneg.mpr h1)]
    by_contra hc
    push Not at hc
    nlinarith [mul_pos h hc]
  · have : D2 * (X1 * Y2 - X2 * Y1) ≤ 0 := by nlinarith [mul_nonneg x2 (neg_nonneg.mpr h2), mul_nonneg y2 (neg_nonneg.mpr h1)]
    by_contra hc
    push Not at hc
    nlinarith [mul_pos h hc]

theorem cr_trans_lt (i : Fin 4) {x d y : Point K 2} (hx : Dir i x) (hd : Dir i d) (hy : Dir i y) (hn : y ≠ 0) (h1 : cr x d < 0)
    (h2 : cr d y ≤ 0) : cr x y < 0 := by
  rw [cr_rot i] at h1 h2 ⊢
  have hn' := dir_ne i hy hn
  obtain ⟨x1, x2⟩ := hx
  obtain ⟨d1, d2⟩ := hd
  obtain ⟨y1, y2⟩ := hy
  generalize rx i x = X1 at *
  generalize ry i x = X2 at *
  generalize rx i d = D1 at *
  generalize ry i d = D2 at *
  generalize rx i y = Y1 at *
  generalize ry i y = Y2 at *
  have hD : 0 < D1 := by
    rcases d1.lt_or_eq with h | h
    · exact h
    · rw [← h] at h1
      have := mul_nonneg x1 d2
      linarith
  have hY : 0 < Y1 := by
    rcases y1.lt_or_eq with h | h
    · exact h
    · rw [← h] at h2 hn'
      rcases hn' with hn' | hn'
      · exact absurd hn' (lt_irrefl _)
      · have := mul_pos hD hn'
        linarith
  have : D1 * (X1 * Y2 - X2 * Y1) < 0 := by nlinarith [mul_nonneg x1 (neg_nonneg.mpr h2), mul_pos hY (neg_pos.mpr h1)]
  by_contra hc
  push Not at hc
  nlinarith [mul_nonneg hD.le hc]

/-- A vector between two directions is a combination of them. -/
theorem cone (i : Fin 4) {d1 d2 S : Point K 2} (h1 : Dir i d1) (h2 : Dir i d2) (n1 : d1 ≠ 0) (n2 : d2 ≠ 0) (h12 : cr d1 d2 ≤ 0)
    (hS1 : cr d1 S ≤ 0) (hS2 : 0 ≤ cr d2 S) (hS : cr d1 S < 0 ∨ 0 < cr d2 S) :
    ∃ α β : K, 0 ≤ α ∧ 0 ≤ β ∧ S = α • d1 + β • d2 := by
  rcases h12.lt_or_eq with hD | hD
  · refine ⟨cr S d2 / cr d1 d2, cr d1 S / cr d1 d2, ?_, ?_, ?_⟩
    · rw [cr_swap S d2]; exact div_nonneg_of_nonpos (by linarith) hD.le
    · exact div_nonneg_of_nonpos hS1 hD.le
    · have hne : cr d1 d2 ≠ 0 := hD.ne
      funext j
      fin_cases j
      · simp only [Pi.add_apply, Pi.smul_apply, smul_eq_mul, Fin.zero_eta]
        rw [div_mul_eq_mul_div, div_mul_eq_mul_div, ← add_div, eq_div_iff hne]
        unfold cr
        ring
      · simp only [Pi.add_apply, Pi.smul_apply, smul_eq_mul, Fin.mk_one]
        rw [div_mul_eq_mul_div, div_mul_eq_mul_div, ← add_div, eq_div_iff hne]
        unfold cr
        ring
  · exfalso
    have n1' := dir_ne i h1 n1
    have n2' := dir_ne i h2 n2
    rw [cr_rot i] at hD hS1 hS2 hS
    rw [cr_rot i d2 S] at hS
    obtain ⟨a1, a2⟩ := h1
    obtain ⟨b1, b2⟩ := h2
    generalize rx i d1 = A1 at *
    generalize ry i d1 = A2 at *
    generalize rx i d2 = B1 at *
    generalize ry i d2 = B2 at *
    generalize rx i S = S1 at *
    generalize ry i S = S2 at *
    have k1 : B1 * (A1 * S2 - A2 * S1) = A1 * (B1 * S2 - B2 * S1) := by linear_combination S1 * hD
    have k2 : B2 * (A1 * S2 - A2 * S1) = A2 * (B1 * S2 - B2 * S1) := by linear_combination S2 * hD
    generalize A1 * S2 - A2 * S1 = U at *
    generalize B1 * S2 - B2 * S1 = V at *
    have u1 := mul_nonneg b1 (neg_nonneg.mpr hS1)
    have u2 := mul_nonneg b2 (neg_nonneg.mpr hS1)
    have v1 := mul_nonneg a1 hS2
    have v2 := mul_nonneg a2 hS2
    rcases hS with hS | hS
    · rcases n2' with h | h
      · nlinarith [mul_pos h (neg_pos.mpr hS)]
      · nlinarith [mul_pos h (neg_pos.mpr hS)]
    · rcases n1' with h | h
      · nlinarith [mul_pos h hS]
      · nlinarith [mul_pos h hS]

theorem area_mid (a b c : Point K 2) : triArea a b c = cr (b - a) (c - b) := by
  unfold triArea cr; simp only [Pi.sub_apply]; ring

/-- A point to the right of the three sides of a clockwise triangle is in it. -/
theorem triangle {a b c p : Point K 2} (hT : triArea a b c < 0) (h1 : triArea a b p ≤ 0) (h2 : triArea b c p ≤ 0)
    (h3 : triArea c a p ≤ 0) {S : Set (Point K 2)} (ha : a ∈ convexHull K S) (hb : b ∈ convexHull K S) (hc : c ∈ convexHull K S) :
    p ∈ convexHull K S := by
  have hne : triArea a b c ≠ 0 := hT.ne
  have hne' : (b 0 - a 0) * (c 1 - a 1) - (b 1 - a 1) * (c 0 - a 0) ≠ 0 := hne
  have key := (convex_convexHull K S).sum_mem (t := Finset.univ) (w := ![triArea b c p / triArea a b c, triArea c a p / triArea a b c,
    triArea a b p / triArea a b c]) (z := ![a, b, c]) ?_ ?_ ?_
  · convert key using 1
    rw [Fin.sum_univ_three]
    funext j
    fin_cases j
    · simp only [Matrix.cons_val_zero, Matrix.cons_val_one, Matrix.cons_val, Pi.add_apply, Pi.smul_apply, smul_eq_mul, Fin.zero_eta]
      unfold triArea
      field_simp
      ring
    · simp only [Matrix.cons_val_zero, Matrix.cons_val_one, Matrix.cons_val, Pi.add_apply, Pi.smul_apply, smul_eq_mul, Fin.mk_one]
      unfold triArea
      field_simp
      ring
  · intro j _
    fin_cases j
    · exact div_nonneg_of_nonpos h2 hT.le
    · exact div_nonneg_of_nonpos h3 hT.le
    · exact div_nonneg_of_nonpos h1 hT.le
  · rw [Fin.sum_univ_three]
    simp only [Matrix.cons_val_zero, Matrix.cons_val_one, Matrix.cons_val]
    unfold triArea
    field_simp
    ring
  · intro j _
    fin_cases j
    · exact ha
    · exact hb
    · exact hc

/-- `triArea a b ·` is at most 0 on the hull if it is on the points. -/
theorem hull_right {a b p : Point K 2} {S : Set (Point K 2)} (h : ∀ q ∈ S, triArea a b q ≤ 0) (hp : p ∈ convexHull K S) :
    triArea a b p ≤ 0 := by
  have hcv : Convex K {q : Point K 2 | triArea a b q ≤ 0} := by
    intro x hx y hy α β hα hβ hαβ
    rw [Set.mem_ofPred_eq] at hx hy ⊢
    have e : triArea a b (α • x + β • y) = α * triArea a b x + β * triArea a b y := by
      unfold triArea
      simp only [Pi.add_apply, Pi.smul_apply, smul_eq_mul]
      have : β = 1 - α := by linarith
      subst this
      ring
    rw [e]
    nlinarith [mul_nonneg hα (neg_nonneg.mpr hx), mul_nonneg hβ (neg_nonneg.mpr hy)]
  exact convexHull_min h hcv hp

end Verif.RandInc
