import Verif.Delaunay.ShapeModel
import Verif.Delaunay.GeomLemmas
import Mathlib.Analysis.Real.Pi.Bounds
import Mathlib.Tactic.LinearCombination
import Mathlib.Tactic.FieldSimp

set_option linter.unusedSectionVars false
set_option linter.unusedVariables false

/-!
C98: the measures of triangles (normalised area, normalised in-circle test, angle, minimum angle check, circumcentre).
-/

namespace Verif.Delaunay

/-- Specification: `o` is as far from `a` as from `b` and `c`. -/
def Equidistant (o a b c : P2 ℝ) : Prop := sqd o a = sqd o b ∧ sqd o a = sqd o c

/-- Specification: `φ` is the angle at `a` between the directions to `b` and `c`, in radians. -/
def IsAngle (a b c : P2 ℝ) (φ : ℝ) : Prop :=
  0 ≤ φ ∧ φ ≤ Real.pi ∧
    (b.x - a.x) * (c.x - a.x) + (b.y - a.y) * (c.y - a.y) = Real.sqrt (sqd a b) * Real.sqrt (sqd a c) * Real.cos φ

theorem ne_iff_coord {a b : P2 ℝ} : a ≠ b ↔ 0 < sqd a b := by
  constructor
  · intro h
    rcases (sqd_nonneg a b).lt_or_eq with h1 | h1
    · exact h1
    · exfalso
      apply h
      unfold sqd at h1
      have e1 : a.x - b.x = 0 := by nlinarith [sq_nonneg (a.x - b.x), sq_nonneg (a.y - b.y)]
      have e2 : a.y - b.y = 0 := by nlinarith [sq_nonneg (a.x - b.x), sq_nonneg (a.y - b.y)]
      cases a; cases b
      simp only [P2.mk.injEq]
      constructor <;> simp only at e1 e2 <;> linarith
  · rintro h rfl
    simp [sqd] at h

theorem len_eq (a b : P2 ℝ) : len a b = Real.sqrt (sqd a b) := by
  unfold len sqd
  congr 1
  ring

theorem len_pos {a b : P2 ℝ} (h : a ≠ b) : 0 < len a b := by
  rw [len_eq]
  exact Real.sqrt_pos.2 (ne_iff_coord.1 h)

theorem len_sq (a b : P2 ℝ) : len a b ^ 2 = sqd a b := by
  rw [len_eq, Real.sq_sqrt (sqd_nonneg a b)]

theorem len_comm (a b : P2 ℝ) : len a b = len b a := by
  rw [len_eq, len_eq]
  congr 1
  unfold sqd
  ring

theorem ratio_pos {x y : ℝ} (h : 0 < y) : ratio x y = some (x / y) := by simp [ratio, h.ne']

theorem abs_div_le_one {x y : ℝ} (hy : 0 < y) (h : x ^ 2 ≤ y ^ 2) : -1 ≤ x / y ∧ x / y ≤ 1 := by
  have := abs_le_of_sq_le_sq h hy.le
  rw [abs_le] at this
  constructor
  · rw [le_div_iff₀ hy]; linarith
  · rw [div_le_one hy]; linarith

/-! ### Circumcentre -/

/-- C98, circumcentre: of three points not on a line it is the point as far from each of them, and no other point is. -/
theorem c98_circumcenter {a b c : P2 ℝ} (h : area a b c ≠ 0) :
    ∃ o, triangleCircumcenter a b c = some o ∧ ∀ p, Equidistant p a b c ↔ p = o := by
  have hc : 2 * ((b.x - a.x) * (c.y - a.y) - (b.y - a.y) * (c.x - a.x)) ≠ 0 := by
    have e : (b.x - a.x) * (c.y - a.y) - (b.y - a.y) * (c.x - a.x) = area a b c := by unfold area; ring
    rw [e]
    simpa using h
  unfold triangleCircumcenter
  simp only [ratio, if_neg hc, Option.bind_some, Option.map_some, Option.some.injEq, exists_eq_left']
  intro p
  constructor
  · rintro ⟨h1, h2⟩
    unfold sqd at h1 h2
    cases p with
    | mk x y =>
    simp only [P2.mk.injEq]
    simp only at h1 h2
    constructor
    · rw [← sub_eq_iff_eq_add', eq_div_iff hc]
      linear_combination (-(c.y - a.y)) * (-h1) + (b.y - a.y) * (-h2)
    · rw [← sub_eq_iff_eq_add', eq_div_iff hc]
      linear_combination (c.x - a.x) * (-h1) - (b.x - a.x) * (-h2)
  · rintro rfl
    generalize hX : ((c.y - a.y) * ((b.x - a.x) * (b.x - a.x) + (b.y - a.y) * (b.y - a.y)) -
      (b.y - a.y) * ((c.x - a.x) * (c.x - a.x) + (c.y - a.y) * (c.y - a.y))) /
      (2 * ((b.x - a.x) * (c.y - a.y) - (b.y - a.y) * (c.x - a.x))) = X
    generalize hY : ((b.x - a.x) * ((c.x - a.x) * (c.x - a.x) + (c.y - a.y) * (c.y - a.y)) -
      (c.x - a.x) * ((b.x - a.x) * (b.x - a.x) + (b.y - a.y) * (b.y - a.y))) /
      (2 * ((b.x - a.x) * (c.y - a.y) - (b.y - a.y) * (c.x - a.x))) = Y
    rw [div_eq_iff hc] at hX hY
    unfold Equidistant sqd
    simp only
    constructor
    · apply mul_left_cancel₀ hc
      linear_combination (-2 * (b.x - a.x)) * hX + (-2 * (b.y - a.y)) * hY
    · apply mul_left_cancel₀ hc
      linear_combination (-2 * (c.x - a.x)) * hX + (-2 * (c.y - a.y)) * hY

/-- Three points on a line have no circumcentre, and the code divides by zero. -/
theorem c98_circumcenter_line {a b c : P2 ℝ} (h : area a b c = 0) : triangleCircumcenter a b c = none := by
  have hc : 2 * ((b.x - a.x) * (c.y - a.y) - (b.y - a.y) * (c.x - a.x)) = 0 := by
    have e : (b.x - a.x) * (c.y - a.y) - (b.y - a.y) * (c.x - a.x) = area a b c := by unfold area; ring
    rw [e, h, mul_zero]
  unfold triangleCircumcenter
  simp [ratio, hc]

/-! ### Normalised area -/

/-- C98, normalised area: between -1 and 1, positive exactly for a counterclockwise triple, and the sine of the angle at `a`. -/
theorem c98_area {a b c : P2 ℝ} (hb : a ≠ b) (hc : a ≠ c) :
    ∃ v, triAreaNormalized a b c = some v ∧ -1 ≤ v ∧ v ≤ 1 ∧ (0 < v ↔ 0 < area a b c) ∧ (v = 0 ↔ area a b c = 0) ∧
      ∀ φ, IsAngle a b c φ → |v| = Real.sin φ := by
  have hp : 0 < len a b * len a c := mul_pos (len_pos hb) (len_pos hc)
  have key : area a b c ^ 2 + dotV a b a c ^ 2 = (len a b * len a c) ^ 2 := by
    rw [mul_pow, len_sq, len_sq]
    unfold area dotV sqd
    ring
  have hb1 := abs_div_le_one hp (show area a b c ^ 2 ≤ _ by nlinarith [sq_nonneg (dotV a b a c)])
  refine ⟨_, ratio_pos hp, hb1.1, hb1.2, by rw [div_pos_iff_of_pos_right hp], by simp [hp.ne'], ?_⟩
  intro φ hφ
  have h3 : dotV a b a c = len a b * len a c * Real.cos φ := by rw [len_eq, len_eq]; exact hφ.2.2
  have hs := Real.sin_nonneg_of_nonneg_of_le_pi hφ.1 hφ.2.1
  rw [← abs_of_nonneg hs, ← sq_eq_sq_iff_abs_eq_abs, div_pow, div_eq_iff (pow_pos hp 2).ne', Real.sin_sq]
  rw [h3] at key
  linear_combination key

/-! ### Normalised in-circle test -/

theorem liftLen_sq (a d : P2 ℝ) : liftLen a d ^ 2 = sqd a d + sqd a d ^ 2 := by
  unfold liftLen
  rw [Real.sq_sqrt (add_nonneg (add_nonneg (mul_self_nonneg _) (mul_self_nonneg _)) (mul_self_nonneg _))]
  unfold sqd
  ring

theorem liftLen_pos {a d : P2 ℝ} (h : a ≠ d) : 0 < liftLen a d := by
  have h1 := ne_iff_coord.1 h
  have h2 := liftLen_sq a d
  have h3 : 0 ≤ liftLen a d := Real.sqrt_nonneg _
  rcases h3.lt_or_eq with h4 | h4
  · exact h4
  · rw [← h4] at h2
    nlinarith

/-- The volume spanned by three vectors is at most the product of their lengths. -/
theorem hadamard (x1 y1 z1 x2 y2 z2 x3 y3 z3 : ℝ) :
    ((y1 * z2 - z1 * y2) * x3 + (z1 * x2 - x1 * z2) * y3 + (x1 * y2 - y1 * x2) * z3) ^ 2 ≤
      (x1 ^ 2 + y1 ^ 2 + z1 ^ 2) * (x2 ^ 2 + y2 ^ 2 + z2 ^ 2) * (x3 ^ 2 + y3 ^ 2 + z3 ^ 2) := by
  have cs : ∀ p q r x y z : ℝ, (p * x + q * y + r * z) ^ 2 ≤ (p ^ 2 + q ^ 2 + r ^ 2) * (x ^ 2 + y ^ 2 + z ^ 2) := by
    intro p q r x y z
    nlinarith [sq_nonneg (p * y - q * x), sq_nonneg (p * z - r * x), sq_nonneg (q * z - r * y)]
  have h1 := cs (y1 * z2 - z1 * y2) (z1 * x2 - x1 * z2) (x1 * y2 - y1 * x2) x3 y3 z3
  have h2 : (y1 * z2 - z1 * y2) ^ 2 + (z1 * x2 - x1 * z2) ^ 2 + (x1 * y2 - y1 * x2) ^ 2 ≤
      (x1 ^ 2 + y1 ^ 2 + z1 ^ 2) * (x2 ^ 2 + y2 ^ 2 + z2 ^ 2) := by
    nlinarith [sq_nonneg (x1 * x2 + y1 * y2 + z1 * z2)]
  exact h1.trans (mul_le_mul_of_nonneg_right h2 (by positivity))

theorem circ_hadamard (a b c d : P2 ℝ) : circ a b c d ^ 2 ≤ (liftLen a d * liftLen b d * liftLen c d) ^ 2 := by
  rw [mul_pow, mul_pow, liftLen_sq, liftLen_sq, liftLen_sq]
  have h := hadamard (a.x - d.x) (a.y - d.y) (sqd a d) (b.x - d.x) (b.y - d.y) (sqd b d) (c.x - d.x) (c.y - d.y) (sqd c d)
  have e : circ a b c d = (((a.y - d.y) * sqd b d - sqd a d * (b.y - d.y)) * (c.x - d.x) +
      (sqd a d * (b.x - d.x) - (a.x - d.x) * sqd b d) * (c.y - d.y) +
      ((a.x - d.x) * (b.y - d.y) - (a.y - d.y) * (b.x - d.x)) * sqd c d) := by
    unfold circ sqd
    ring
  rw [e]
  exact h

/-- The determinant measures the power of `d` with respect to the circle about `o` through the three corners. -/
theorem circ_power {o a b c : P2 ℝ} (h : Equidistant o a b c) (d : P2 ℝ) :
    circ a b c d = area a b c * (sqd o a - sqd o d) := by
  obtain ⟨h1, h2⟩ := h
  have e1 : sqd o a - sqd o b = 0 := by linarith
  have e2 : sqd o a - sqd o c = 0 := by linarith
  have key : circ a b c d =
      area a b c * (sqd o a - sqd o d) + (sqd o a - sqd o b) * area a c d - (sqd o a - sqd o c) * area a b d := by
    unfold circ area sqd
    ring
  rw [key, e1, e2]
  ring

/-- C98, normalised in-circle test: defined unless `d` is a corner; between -1 and 1; for a counterclockwise triangle positive exactly
strictly inside the circle through its corners, and zero exactly on it. -/
theorem c98_inCircle_partial {a b c d : P2 ℝ} (ha : a ≠ d) (hb : b ≠ d) (hc : c ≠ d) :
    ∃ v, inCircleNormalized a b c d = some v ∧ -1 ≤ v ∧ v ≤ 1 ∧
      (0 < area a b c → ∀ o, Equidistant o a b c → (0 < v ↔ sqd o d < sqd o a) ∧ (v = 0 ↔ sqd o d = sqd o a)) := by
  have hp : 0 < liftLen a d * liftLen b d * liftLen c d := mul_pos (mul_pos (liftLen_pos ha) (liftLen_pos hb)) (liftLen_pos hc)
  have h1 := abs_div_le_one hp (circ_hadamard a b c d)
  refine ⟨_, ratio_pos hp, h1.1, h1.2, ?_⟩
  intro hA o ho
  have e := circ_power ho d
  rw [div_pos_iff_of_pos_right hp, div_eq_zero_iff, or_iff_left hp.ne', e]
  constructor
  · rw [mul_pos_iff_of_pos_left hA, sub_pos]
  · rw [mul_eq_zero, or_iff_right hA.ne', sub_eq_zero]
    exact eq_comm

/-- C98: at a corner the quotient is 0/0. -/
theorem c98_inCircle_corner (a b c : P2 ℝ) : inCircleNormalized a b c a = none := by
  have : liftLen a a = 0 := by simp [liftLen]
  simp [inCircleNormalized, ratio, this]

theorem coord_div_le {a d : P2 ℝ} {ρ : ℝ} (hρ : 0 < ρ) (h : ρ ^ 2 ≤ sqd a d) :
    |(a.x - d.x) / liftLen a d| ≤ 1 / ρ ∧ |(a.y - d.y) / liftLen a d| ≤ 1 / ρ ∧ |sqd a d / liftLen a d| ≤ 1 := by
  have h0 : 0 < sqd a d := lt_of_lt_of_le (by positivity) h
  have hl : 0 < liftLen a d := liftLen_pos (ne_iff_coord.2 h0)
  have hs := liftLen_sq a d
  have hx : (a.x - d.x) ^ 2 ≤ sqd a d := by unfold sqd; nlinarith [sq_nonneg (a.y - d.y)]
  have hy : (a.y - d.y) ^ 2 ≤ sqd a d := by unfold sqd; nlinarith [sq_nonneg (a.x - d.x)]
  have aux : ∀ x : ℝ, x ^ 2 ≤ sqd a d → |x / liftLen a d| ≤ 1 / ρ := by
    intro x hx
    apply abs_le_of_sq_le_sq _ (by positivity)
    rw [div_pow, div_pow, one_pow, div_le_div_iff₀ (by positivity) (by positivity), hs]
    nlinarith
  refine ⟨aux _ hx, aux _ hy, ?_⟩
  apply abs_le_of_sq_le_sq _ (by positivity)
  rw [div_pow, div_le_iff₀ (by positivity), hs]
  nlinarith

/-- C98: the comment says that -1 is out at infinity. It is not: far from the three corners the value is close to zero. -/
theorem c98_infinity_false {a b c d : P2 ℝ} {ρ : ℝ} (hρ : 0 < ρ) (ha : ρ ^ 2 ≤ sqd a d) (hb : ρ ^ 2 ≤ sqd b d)
    (hc : ρ ^ 2 ≤ sqd c d) : ∃ v, inCircleNormalized a b c d = some v ∧ |v| ≤ 6 / ρ ^ 2 := by
  have h0 : 0 < ρ ^ 2 := by positivity
  have la := liftLen_pos (ne_iff_coord.2 (h0.trans_le ha))
  have lb := liftLen_pos (ne_iff_coord.2 (h0.trans_le hb))
  have lc := liftLen_pos (ne_iff_coord.2 (h0.trans_le hc))
  refine ⟨_, ratio_pos (mul_pos (mul_pos la lb) lc), ?_⟩
  obtain ⟨a1, a2, a3⟩ := coord_div_le hρ ha
  obtain ⟨b1, b2, b3⟩ := coord_div_le hρ hb
  obtain ⟨c1, c2, c3⟩ := coord_div_le hρ hc
  have e : circ a b c d / (liftLen a d * liftLen b d * liftLen c d) =
      (a.y - d.y) / liftLen a d * ((c.x - d.x) / liftLen c d) * (sqd b d / liftLen b d) -
      (b.y - d.y) / liftLen b d * ((c.x - d.x) / liftLen c d) * (sqd a d / liftLen a d) +
      (b.x - d.x) / liftLen b d * ((c.y - d.y) / liftLen c d) * (sqd a d / liftLen a d) -
      (a.x - d.x) / liftLen a d * ((c.y - d.y) / liftLen c d) * (sqd b d / liftLen b d) +
      (a.x - d.x) / liftLen a d * ((b.y - d.y) / liftLen b d) * (sqd c d / liftLen c d) -
      (a.y - d.y) / liftLen a d * ((b.x - d.x) / liftLen b d) * (sqd c d / liftLen c d) := by
    have := la.ne'
    have := lb.ne'
    have := lc.ne'
    field_simp
    unfold circ sqd
    ring
  have aux : ∀ p q r : ℝ, |p| ≤ 1 / ρ → |q| ≤ 1 / ρ → |r| ≤ 1 → |p * q * r| ≤ 1 / ρ ^ 2 := by
    intro p q r hp hq hr
    rw [abs_mul, abs_mul]
    calc |p| * |q| * |r| ≤ 1 / ρ * (1 / ρ) * 1 := by gcongr
      _ = 1 / ρ ^ 2 := by ring
  rw [e]
  have t1 := abs_le.1 (aux _ _ _ a2 c1 b3)
  have t2 := abs_le.1 (aux _ _ _ b2 c1 a3)
  have t3 := abs_le.1 (aux _ _ _ b1 c2 a3)
  have t4 := abs_le.1 (aux _ _ _ a1 c2 b3)
  have t5 := abs_le.1 (aux _ _ _ a1 b2 c3)
  have t6 := abs_le.1 (aux _ _ _ a2 b1 c3)
  have e6 : 6 / ρ ^ 2 = 6 * (1 / ρ ^ 2) := by ring
  rw [e6, abs_le]
  constructor <;> linarith [t1.1, t1.2, t2.1, t2.2, t3.1, t3.2, t4.1, t4.2, t5.1, t5.2, t6.1, t6.2]

/-! ### Angles -/

theorem cos_bound {a b c : P2 ℝ} (hb : a ≠ b) (hc : a ≠ c) :
    -1 ≤ dotV a b a c / (len a b * len a c) ∧ dotV a b a c / (len a b * len a c) ≤ 1 := by
  apply abs_div_le_one (mul_pos (len_pos hb) (len_pos hc))
  rw [mul_pow, len_sq, len_sq]
  unfold dotV sqd
  nlinarith [sq_nonneg ((b.x - a.x) * (c.y - a.y) - (b.y - a.y) * (c.x - a.x))]

/-- The quotient is the cosine of the angle. -/
theorem isAngle_cos {a b c : P2 ℝ} (hb : a ≠ b) (hc : a ≠ c) {φ : ℝ} (h : IsAngle a b c φ) :
    dotV a b a c / (len a b * len a c) = Real.cos φ := by
  rw [div_eq_iff (mul_pos (len_pos hb) (len_pos hc)).ne', len_eq, len_eq]
  unfold dotV
  rw [h.2.2]
  ring

/-- Every corner has an angle. -/
theorem isAngle_exists {a b c : P2 ℝ} (hb : a ≠ b) (hc : a ≠ c) : ∃ φ, IsAngle a b c φ := by
  obtain ⟨h1, h2⟩ := cos_bound hb hc
  refine ⟨Real.arccos (dotV a b a c / (len a b * len a c)), Real.arccos_nonneg _, Real.arccos_le_pi _, ?_⟩
  rw [Real.cos_arccos h1 h2, ← len_eq, ← len_eq, mul_div_cancel₀ _ (mul_pos (len_pos hb) (len_pos hc)).ne']
  rfl

/-- C98, angle: the result exceeds the angle in degrees by at most 0.0002, because of the constant 3.14159. -/
theorem c98_angle_partial {a b c : P2 ℝ} (hb : a ≠ b) (hc : a ≠ c) {φ : ℝ} (h : IsAngle a b c φ) :
    ∃ t, angle a b c = some t ∧ φ * 180 / Real.pi ≤ t ∧ t ≤ φ * 180 / Real.pi + 0.0002 := by
  have hr := isAngle_cos hb hc h
  refine ⟨180 / 3.14159 * φ, ?_, ?_, ?_⟩
  · unfold angle
    rw [ratio_pos (mul_pos (len_pos hb) (len_pos hc)), Option.map_some, hr, Real.arccos_cos h.1 h.2.1]
  · have := Real.pi_gt_d6
    rw [div_le_iff₀ Real.pi_pos]
    have : 180 / 3.14159 * φ * Real.pi = φ * 180 * (Real.pi / 3.14159) := by ring
    rw [this]
    apply le_mul_of_one_le_right (by have := h.1; positivity)
    rw [le_div_iff₀ (by norm_num)]
    linarith
  · have h1 := Real.pi_gt_d6
    have h2 := Real.pi_lt_d6
    have e : 180 / 3.14159 * φ - φ * 180 / Real.pi = (φ / Real.pi) * (180 / 3.14159 * (Real.pi - 3.14159)) := by
      field_simp
    have h3 : φ / Real.pi ≤ 1 := (div_le_one Real.pi_pos).2 h.2.1
    have h4 : 0 ≤ φ / Real.pi := div_nonneg h.1 Real.pi_pos.le
    have h5 : 180 / 3.14159 * (Real.pi - 3.14159) ≤ 0.0002 := by
      rw [div_mul_eq_mul_div, div_le_iff₀ (by norm_num)]
      linarith
    have h6 : 0 ≤ 180 / 3.14159 * (Real.pi - 3.14159) := by
      apply mul_nonneg (by norm_num)
      linarith
    nlinarith

/-- C98: no angle but zero is exactly right. -/
theorem c98_angle_false {a b c : P2 ℝ} (hb : a ≠ b) (hc : a ≠ c) {φ : ℝ} (h : IsAngle a b c φ) (h0 : φ ≠ 0) :
    angle a b c ≠ some (φ * 180 / Real.pi) := by
  have hr := isAngle_cos hb hc h
  unfold angle
  rw [ratio_pos (mul_pos (len_pos hb) (len_pos hc)), Option.map_some, hr, Real.arccos_cos h.1 h.2.1]
  intro e
  have e := Option.some.inj e
  have h1 := Real.pi_gt_d6
  have hp := Real.pi_pos.ne'
  field_simp at e
  have : Real.pi = 3.14159 := by
    norm_num at e ⊢
    linarith
  linarith

theorem exceeds_cos {x y φ t : ℝ} (hy : 0 < y) (h : x / y = Real.cos φ) (h0 : 0 ≤ φ) (h1 : φ ≤ Real.pi) (t0 : 0 ≤ t)
    (t1 : t ≤ Real.pi) : exceeds (ratio x y) (Real.cos t) = true ↔ φ < t := by
  rw [ratio_pos hy, h]
  unfold exceeds
  simp only [decide_eq_true_eq, gt_iff_lt]
  exact Real.strictAntiOn_cos.lt_iff_gt ⟨t0, t1⟩ ⟨h0, h1⟩

/-- C98, minimum angle check: true exactly if one of the three angles is below the bound, converted with 3.14159. -/
theorem c98_minAngle_partial {a b c : P2 ℝ} (hab : a ≠ b) (hac : a ≠ c) (hbc : b ≠ c) {φ1 φ2 φ3 ang : ℝ}
    (h1 : IsAngle a b c φ1) (h2 : IsAngle b c a φ2) (h3 : IsAngle c a b φ3) (g0 : 0 ≤ ang) (g1 : ang ≤ 180) :
    minAngleCheck a b c ang = true ↔
      φ1 < ang * 3.14159 / 180 ∨ φ2 < ang * 3.14159 / 180 ∨ φ3 < ang * 3.14159 / 180 := by
  have t0 : 0 ≤ ang * 3.14159 / 180 := by positivity
  have t1 : ang * 3.14159 / 180 ≤ Real.pi := by
    have := Real.pi_gt_d6
    rw [div_le_iff₀ (by norm_num)]
    nlinarith
  have e1 := exceeds_cos (mul_pos (len_pos hab) (len_pos hac)) (isAngle_cos hab hac h1) h1.1 h1.2.1 t0 t1
  have r2 : -dotV a b b c / (len a b * len b c) = Real.cos φ2 := by
    rw [← isAngle_cos hbc hab.symm h2, len_comm a b, mul_comm]
    congr 1
    unfold dotV
    ring
  have e2 := exceeds_cos (mul_pos (len_pos hab) (len_pos hbc)) r2 h2.1 h2.2.1 t0 t1
  have r3 : dotV a c b c / (len a c * len b c) = Real.cos φ3 := by
    rw [← isAngle_cos hac.symm hbc.symm h3, len_comm a c, len_comm b c]
    congr 1
    unfold dotV
    ring
  have e3 := exceeds_cos (mul_pos (len_pos hac) (len_pos hbc)) r3 h3.1 h3.2.1 t0 t1
  unfold minAngleCheck
  simp only [Bool.or_eq_true]
  rw [e1, e2, e3]
  tauto

/-- C98: the check can miss an angle below the bound, by the error of 3.14159. -/
theorem c98_minAngle_false : ∃ (a b c : P2 ℝ) (φ ang : ℝ), a ≠ b ∧ a ≠ c ∧ b ≠ c ∧ IsAngle a b c φ ∧ 0 ≤ ang ∧ ang ≤ 180 ∧
    φ * 180 / Real.pi < ang ∧ minAngleCheck a b c ang = false := by
  have q2 : Real.sqrt 2 * Real.sqrt 2 = 2 := Real.mul_self_sqrt (by norm_num)
  have A1 : IsAngle ⟨0, 0⟩ ⟨1, 0⟩ ⟨1, 1⟩ (Real.pi / 4) := by
    refine ⟨by positivity, by linarith [Real.pi_pos], ?_⟩
    rw [Real.cos_pi_div_four]
    norm_num [sqd]
    linarith
  have A2 : IsAngle ⟨1, 0⟩ ⟨1, 1⟩ ⟨0, 0⟩ (Real.pi / 2) := by
    refine ⟨by positivity, by linarith [Real.pi_pos], ?_⟩
    rw [Real.cos_pi_div_two]
    norm_num [sqd]
  have A3 : IsAngle ⟨1, 1⟩ ⟨0, 0⟩ ⟨1, 0⟩ (Real.pi / 4) := by
    refine ⟨by positivity, by linarith [Real.pi_pos], ?_⟩
    rw [Real.cos_pi_div_four]
    norm_num [sqd]
    linarith
  have n1 : (⟨0, 0⟩ : P2 ℝ) ≠ ⟨1, 0⟩ := by simp
  have n2 : (⟨0, 0⟩ : P2 ℝ) ≠ ⟨1, 1⟩ := by simp
  have n3 : (⟨1, 0⟩ : P2 ℝ) ≠ ⟨1, 1⟩ := by simp
  have hpi := Real.pi_gt_d6
  refine ⟨⟨0, 0⟩, ⟨1, 0⟩, ⟨1, 1⟩, Real.pi / 4, 45.00002, n1, n2, n3, A1, by norm_num, by norm_num, ?_, ?_⟩
  · have : Real.pi / 4 * 180 / Real.pi = 45 := by
      have := Real.pi_pos.ne'
      field_simp
      norm_num
    rw [this]
    norm_num
  · rw [Bool.eq_false_iff]
    intro h
    rw [c98_minAngle_partial n1 n2 n3 A1 A2 A3 (by norm_num) (by norm_num)] at h
    rcases h with h | h | h <;> norm_num at h <;> linarith

/-- The hypotheses are met: a right triangle, its circumcentre, and a point inside the circle. -/
example : area (⟨0, 0⟩ : P2 ℝ) ⟨2, 0⟩ ⟨0, 2⟩ ≠ 0 ∧ Equidistant ⟨1, 1⟩ ⟨0, 0⟩ ⟨2, 0⟩ ⟨0, 2⟩ ∧
    (⟨0, 0⟩ : P2 ℝ) ≠ ⟨1, 1⟩ ∧ sqd (⟨1, 1⟩ : P2 ℝ) ⟨1, 1⟩ < sqd (⟨1, 1⟩ : P2 ℝ) ⟨0, 0⟩ := by
  refine ⟨?_, ?_, ?_, ?_⟩ <;> norm_num [area, Equidistant, sqd]

/-- The hypotheses of the angle are met: a right angle. -/
example : IsAngle ⟨0, 0⟩ ⟨1, 0⟩ ⟨0, 1⟩ (Real.pi / 2) ∧ Real.pi / 2 ≠ 0 := by
  refine ⟨⟨by positivity, by linarith [Real.pi_pos], ?_⟩, by positivity⟩
  rw [Real.cos_pi_div_two]
  norm_num

/-- The hypotheses of the far point are met. -/
example : (0 : ℝ) < 10 ∧ (10 : ℝ) ^ 2 ≤ sqd (⟨0, 0⟩ : P2 ℝ) ⟨10, 10⟩ ∧ (10 : ℝ) ^ 2 ≤ sqd (⟨1, 0⟩ : P2 ℝ) ⟨10, 10⟩ ∧
    (10 : ℝ) ^ 2 ≤ sqd (⟨0, 1⟩ : P2 ℝ) ⟨10, 10⟩ := by
  norm_num [sqd]

/-- The hypotheses on a line are met. -/
example : area (⟨0, 0⟩ : P2 ℝ) ⟨1, 1⟩ ⟨2, 2⟩ = 0 := by norm_num [area]

end Verif.Delaunay
