import Verif.Delaunay.BoundaryModel
import Verif.Delaunay.LoopLemmas
import Verif.Delaunay.MeshProps
import Mathlib.Analysis.Real.Pi.Bounds
import Mathlib.Analysis.SpecialFunctions.Trigonometric.Bounds

set_option linter.unusedSectionVars false
set_option linter.unusedVariables false

/-!
The fan over points on a circle is a Delaunay triangulation, and the boundary of `generate_boundary` has all points
inside.
-/

namespace Verif.Delaunay

open Real

theorem sin_sum (x y : ℝ) : sin (2 * x) + sin (2 * y) - sin (2 * (x + y)) = 4 * sin x * sin y * sin (x + y) := by
  rw [sin_two_mul, sin_two_mul, sin_two_mul, sin_add, cos_add]
  have h1 := sin_sq_add_cos_sq x
  have h2 := sin_sq_add_cos_sq y
  linear_combination (-2 * sin y * cos y) * h1 + (-2 * sin x * cos x) * h2

theorem area_circle (c : P2 ℝ) (r a b d : ℝ) : area (circlePoint c r a) (circlePoint c r b) (circlePoint c r d) =
    4 * r ^ 2 * sin ((b - a) / 2) * sin ((d - b) / 2) * sin ((d - a) / 2) := by
  have h := sin_sum ((b - a) / 2) ((d - b) / 2)
  have e1 : 2 * ((b - a) / 2) = b - a := by ring
  have e2 : 2 * ((d - b) / 2) = d - b := by ring
  have e3 : (b - a) / 2 + (d - b) / 2 = (d - a) / 2 := by ring
  have e4 : 2 * ((d - a) / 2) = d - a := by ring
  rw [e3, e1, e2, e4, sin_sub, sin_sub, sin_sub] at h
  unfold area circlePoint
  linear_combination r ^ 2 * h

theorem sqd_circle (c : P2 ℝ) (r a : ℝ) : sqd c (circlePoint c r a) = r ^ 2 := by
  unfold sqd circlePoint
  have := sin_sq_add_cos_sq a
  simp only
  linear_combination r ^ 2 * this

theorem circ_circle (o : P2 ℝ) (r a b c d : ℝ) :
    circ (circlePoint o r a) (circlePoint o r b) (circlePoint o r c) (circlePoint o r d) = 0 := by
  rw [circ_centre _ _ _ _ o, sqd_circle, sqd_circle, sqd_circle, sqd_circle]
  have := area_sum (circlePoint o r a) (circlePoint o r b) (circlePoint o r c) (circlePoint o r d)
  linear_combination r ^ 2 * this

/-- A point near the centre is to the left of a chord. -/
theorem area_chord (c p : P2 ℝ) (r a b : ℝ) : area (circlePoint c r a) (circlePoint c r b) p =
    2 * r * sin ((b - a) / 2) * (r * cos ((b - a) / 2) -
      ((p.x - c.x) * cos ((a + b) / 2) + (p.y - c.y) * sin ((a + b) / 2))) := by
  have ea : a = (a + b) / 2 - (b - a) / 2 := by ring
  have eb : b = (a + b) / 2 + (b - a) / 2 := by ring
  have ca : cos a = cos ((a + b) / 2) * cos ((b - a) / 2) + sin ((a + b) / 2) * sin ((b - a) / 2) := by
    rw [← cos_sub, ← ea]
  have sa : sin a = sin ((a + b) / 2) * cos ((b - a) / 2) - cos ((a + b) / 2) * sin ((b - a) / 2) := by
    rw [← sin_sub, ← ea]
  have cb : cos b = cos ((a + b) / 2) * cos ((b - a) / 2) - sin ((a + b) / 2) * sin ((b - a) / 2) := by
    rw [← cos_add, ← eb]
  have sb : sin b = sin ((a + b) / 2) * cos ((b - a) / 2) + cos ((a + b) / 2) * sin ((b - a) / 2) := by
    rw [← sin_add, ← eb]
  unfold area circlePoint
  simp only
  rw [ca, sa, cb, sb]
  have := sin_sq_add_cos_sq ((a + b) / 2)
  linear_combination (2 * r ^ 2 * sin ((b - a) / 2) * cos ((b - a) / 2)) * this

theorem chord_pos {c p : P2 ℝ} {r a b e : ℝ} (hr : 0 < r) (h1 : 0 < (b - a) / 2) (h2 : (b - a) / 2 < 0.32)
    (he : 0 ≤ e) (hp : (p.x - c.x) ^ 2 + (p.y - c.y) ^ 2 ≤ e ^ 2) (her : e ≤ 0.15 * r) :
    0 < area (circlePoint c r a) (circlePoint c r b) p := by
  rw [area_chord]
  have hs : 0 < sin ((b - a) / 2) := sin_pos_of_pos_of_lt_pi h1 (by linarith [pi_gt_three])
  have hc : 1 - ((b - a) / 2) ^ 2 / 2 ≤ cos ((b - a) / 2) := one_sub_sq_div_two_le_cos
  have hc' : 0.9 ≤ cos ((b - a) / 2) := by nlinarith
  have hw : (p.x - c.x) * cos ((a + b) / 2) + (p.y - c.y) * sin ((a + b) / 2) ≤ e := by
    have h := sin_sq_add_cos_sq ((a + b) / 2)
    refine le_of_abs_le (abs_le_of_sq_le_sq ?_ he)
    have : ((p.x - c.x) * cos ((a + b) / 2) + (p.y - c.y) * sin ((a + b) / 2)) ^ 2 +
        ((p.x - c.x) * sin ((a + b) / 2) - (p.y - c.y) * cos ((a + b) / 2)) ^ 2 =
        (p.x - c.x) ^ 2 + (p.y - c.y) ^ 2 := by
      linear_combination ((p.x - c.x) ^ 2 + (p.y - c.y) ^ 2) * h
    nlinarith [sq_nonneg ((p.x - c.x) * sin ((a + b) / 2) - (p.y - c.y) * cos ((a + b) / 2))]
  have : 0 < r * cos ((b - a) / 2) - ((p.x - c.x) * cos ((a + b) / 2) + (p.y - c.y) * sin ((a + b) / 2)) := by
    nlinarith
  positivity

/-! ### The fan -/

section
variable {pos : ℕ → P2 ℝ} {n N ts : ℕ} {m : Mesh} {c : P2 ℝ} {r : ℝ} {θ : ℕ → ℝ}

/-- Angles in increasing order, within one turn. -/
def Turn (N : ℕ) (θ : ℕ → ℝ) : Prop := ∀ i j, i < j → j < N → 0 < (θ j - θ i) / 2 ∧ (θ j - θ i) / 2 < π

theorem Turn.sin_pos (h : Turn N θ) {i j : ℕ} (hij : i < j) (hj : j < N) : 0 < sin ((θ j - θ i) / 2) :=
  sin_pos_of_pos_of_lt_pi (h i j hij hj).1 (h i j hij hj).2

theorem Turn.area_pos (h : Turn N θ) (hr : 0 < r) {i j k : ℕ} (hij : i < j) (hjk : j < k) (hk : k < N) :
    0 < area (circlePoint c r (θ i)) (circlePoint c r (θ j)) (circlePoint c r (θ k)) := by
  rw [area_circle]
  have h1 := h.sin_pos hij (by omega)
  have h2 := h.sin_pos hjk hk
  have h3 := h.sin_pos (hij.trans hjk) hk
  positivity

theorem Turn.area_nonneg (h : Turn N θ) (hr : 0 < r) {i j k : ℕ} (hij : i ≤ j) (hjk : j ≤ k) (hk : k < N) :
    0 ≤ area (circlePoint c r (θ i)) (circlePoint c r (θ j)) (circlePoint c r (θ k)) := by
  rcases hij.eq_or_lt with rfl | hij
  · rw [area_circle]
    simp
  rcases hjk.eq_or_lt with rfl | hjk
  · rw [area_circle]
    simp
  exact (h.area_pos hr hij hjk hk).le

theorem area_cycle {K : Type} [Field K] (a b c : P2 K) : area b c a = area a b c := by
  unfold area
  ring

theorem Turn.edge (h : Turn N θ) (hr : 0 < r) {i k : ℕ} (hi : i + 1 < N) (hk : k < N) :
    0 ≤ area (circlePoint c r (θ i)) (circlePoint c r (θ (i + 1))) (circlePoint c r (θ k)) := by
  by_cases hki : k ≤ i
  · rw [area_cycle]
    exact h.area_nonneg hr hki (Nat.le_succ i) hi
  · exact h.area_nonneg hr (Nat.le_succ i) (by omega) hk

/-- The outline edges of a fan. -/
theorem Fan.outline (hN : 3 ≤ N) (hF : Fan m (fun i => i + n) ts (N - 2)) {x : ℕ}
    (hx : x ∈ Finset.Ico ts (ts + (N - 2))) {i : Fin 3} (hn : m.ngh x i = none) :
    (∃ k, k + 1 < N ∧ m.vtx x (i + 2) = k + n ∧ m.vtx x i = k + 1 + n) ∨
      (m.vtx x (i + 2) = N - 1 + n ∧ m.vtx x i = n) := by
  rw [Finset.mem_Ico] at hx
  obtain ⟨k, rfl⟩ := Nat.exists_eq_add_of_le hx.1
  obtain ⟨⟨v0, v1, v2⟩, n0, n1, n2⟩ := hF k (by omega)
  have e1 : (0 : Fin 3) + 2 = 2 := by decide
  have e2 : (1 : Fin 3) + 2 = 0 := by decide
  have e3 : (2 : Fin 3) + 2 = 1 := by decide
  rcases fin3_cases 0 i with rfl | rfl | rfl
  · right
    rw [n0] at hn
    split at hn
    · simp at hn
    · rw [e1, v0, v2]
      refine ⟨?_, by simp⟩
      simp only
      omega
  · left
    rw [show (0 : Fin 3) + 1 = 1 by decide] at *
    rw [n1] at hn
    split at hn
    · simp at hn
    · have : k = 0 := by omega
      subst this
      exact ⟨0, by omega, by rw [e2, v0], by rw [v1]⟩
  · left
    rw [show (0 : Fin 3) + 2 = 2 by decide] at *
    exact ⟨k + 1, by omega, by rw [e3, v1], by rw [v2]⟩

/-- The fan over points on a circle is a Delaunay triangulation. -/
theorem fan_delaunay (hN : 3 ≤ N) (hr : 0 < r) (hθ : Turn N θ) (hpos : ∀ i < N, pos (i + n) = circlePoint c r (θ i))
    (hF : Fan m (fun i => i + n) ts (N - 2)) (hW : WF (Finset.Ico ts (ts + (N - 2))) m)
    (hV : VertexPointers (Finset.Ico ts (ts + (N - 2))) ((Finset.range N).image fun i => i + n) m) :
    IsDelaunay pos (Finset.Ico ts (ts + (N - 2))) ((Finset.range N).image fun i => i + n) m := by
  have hfan : ∀ x ∈ Finset.Ico ts (ts + (N - 2)), ∃ k, k + 2 < N ∧ x = ts + k ∧
      m.vtx x 0 = n ∧ m.vtx x 1 = k + 1 + n ∧ m.vtx x 2 = k + 2 + n := by
    intro x hx
    rw [Finset.mem_Ico] at hx
    obtain ⟨k, rfl⟩ := Nat.exists_eq_add_of_le hx.1
    obtain ⟨⟨v0, v1, v2⟩, -⟩ := hF k (by omega)
    exact ⟨k, by omega, rfl, by rw [v0]; simp, v1, v2⟩
  have hp0 : pos n = circlePoint c r (θ 0) := by
    have := hpos 0 (by omega)
    rwa [Nat.zero_add] at this
  have hq : ∀ q ∈ (Finset.range N).image fun i => i + n, ∃ k < N, pos q = circlePoint c r (θ k) := by
    intro q hq
    rw [Finset.mem_image] at hq
    obtain ⟨k, hk, rfl⟩ := hq
    rw [Finset.mem_range] at hk
    exact ⟨k, hk, hpos k hk⟩
  refine IsDelaunay.of_tests ?_ hV ?_ ?_ ?_ ?_ ?_ ?_
  · intro x hx k
    obtain ⟨j, hj, rfl, v0, v1, v2⟩ := hfan x hx
    rw [Finset.mem_image]
    rcases fin3_cases 0 k with rfl | rfl | rfl
    · exact ⟨0, by simp; omega, by rw [v0]; simp⟩
    · exact ⟨j + 1, by simp; omega, by rw [show (0 : Fin 3) + 1 = 1 by decide, v1]⟩
    · exact ⟨j + 2, by simp; omega, by rw [show (0 : Fin 3) + 2 = 2 by decide, v2]⟩
  · intro x hx
    obtain ⟨j, hj, rfl, v0, v1, v2⟩ := hfan x hx
    rw [v0, v1, v2, hp0, hpos _ (by omega), hpos _ (by omega)]
    exact hθ.area_pos hr (by omega) (by omega) (by omega)
  · intro x hx y hy hxy
    have key : ∀ x ∈ Finset.Ico ts (ts + (N - 2)), ∀ y ∈ Finset.Ico ts (ts + (N - 2)), x < y → ∀ k,
        area (pos (m.vtx x (0 + 2))) (pos (m.vtx x 0)) (pos (m.vtx y k)) ≤ 0 := by
      intro x hx y hy hlt k
      obtain ⟨j, hj, rfl, v0, v1, v2⟩ := hfan x hx
      obtain ⟨i, hi, rfl, w0, w1, w2⟩ := hfan y hy
      rw [show (0 : Fin 3) + 2 = 2 by decide, v0, v2, area_swap, neg_nonpos, hp0, hpos _ (by omega)]
      rcases fin3_cases 0 k with rfl | rfl | rfl
      · rw [w0, hp0, area_circle]
        simp
      · rw [show (0 : Fin 3) + 1 = 1 by decide, w1, hpos _ (by omega)]
        exact hθ.area_nonneg hr (by omega) (by omega) (by omega)
      · rw [show (0 : Fin 3) + 2 = 2 by decide, w2, hpos _ (by omega)]
        exact hθ.area_nonneg hr (by omega) (by omega) (by omega)
    rcases lt_or_gt_of_ne hxy with g | g
    · exact Or.inl ⟨0, key x hx y hy g⟩
    · exact Or.inr ⟨0, key y hy x hx g⟩
  · intro x hx i y hn
    obtain ⟨hy, j, -, e1, e2⟩ := hW.twin x hx i y hn
    exact ⟨hy, j, e1, e2⟩
  · intro x hx y hy i j e1 e2
    obtain ⟨a, ha, rfl, v0, v1, v2⟩ := hfan x hx
    obtain ⟨b, hb, rfl, w0, w1, w2⟩ := hfan y hy
    obtain ⟨-, n0, n1, n2⟩ := hF a (by omega)
    have q0 : (0 : Fin 3) + 2 = 2 := by decide
    have q1 : (1 : Fin 3) + 2 = 0 := by decide
    have q2 : (2 : Fin 3) + 2 = 1 := by decide
    have hi := fin3_cases 0 i
    have hj := fin3_cases 0 j
    rw [show (0 : Fin 3) + 1 = 1 by decide, show (0 : Fin 3) + 2 = 2 by decide] at hi hj
    rcases hi with rfl | rfl | rfl <;> rcases hj with rfl | rfl | rfl <;>
      simp only [q0, q1, q2, v0, v1, v2, w0, w1, w2] at e1 e2
    · omega
    · rw [n0, if_pos (by omega)]
      congr 1
      omega
    · omega
    · rw [n1, if_pos (by omega)]
      congr 1
      omega
    · omega
    · omega
    · omega
    · omega
    · omega
  · intro x hx q hq'
    obtain ⟨j, hj, rfl, v0, v1, v2⟩ := hfan x hx
    obtain ⟨k, hk, e⟩ := hq q hq'
    rw [v0, v1, v2, hp0, hpos _ (by omega), hpos _ (by omega), e, circ_circle]
  · intro x hx i hn q hq'
    obtain ⟨k, hk, e⟩ := hq q hq'
    rw [e]
    rcases Fan.outline hN hF hx hn with ⟨j, hj, e1, e2⟩ | ⟨e1, e2⟩
    · rw [e1, e2, hpos _ (by omega), hpos _ (by omega)]
      exact hθ.edge hr hj hk
    · rw [e1, e2, hpos _ (by omega), hp0, area_cycle, area_cycle]
      exact hθ.area_nonneg hr (Nat.zero_le k) (by omega) (by omega)

end

end Verif.Delaunay
