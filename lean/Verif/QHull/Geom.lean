import Mathlib.Tactic.Linarith
import Mathlib.Tactic.LinearCombination
import Mathlib.Tactic.Ring
import Mathlib.Tactic.FieldSimp
import Mathlib.Tactic.Positivity
import Mathlib.Data.List.MinMax
import Mathlib.Data.Finset.Max
import Mathlib.Algebra.BigOperators.Fin
import Verif.QHull.Model

set_option linter.unusedSectionVars false
set_option linter.unusedVariables false

/-!
Geometry of triangles around the origin, for the quickhull in space.
-/

namespace Verif.QHull

open Verif Verif.Hull3d

variable {K : Type} [Field K] [LinearOrder K]

theorem sv_poly (a b c p : P3 K) : sv a b c p =
    (a 0 - p 0) * ((b 1 - a 1) * (c 2 - a 2) - (b 2 - a 2) * (c 1 - a 1)) +
    (a 1 - p 1) * ((b 2 - a 2) * (c 0 - a 0) - (b 0 - a 0) * (c 2 - a 2)) +
    (a 2 - p 2) * ((b 0 - a 0) * (c 1 - a 1) - (b 1 - a 1) * (c 0 - a 0)) := by
  unfold sv dot cross3
  rw [Fin.sum_univ_three]
  simp

theorem sv_cyc (a b c p : P3 K) : sv b c a p = sv a b c p := by
  simp only [sv_poly]; ring

theorem sv_swap (a b c p : P3 K) : sv b a c p = -sv a b c p := by
  simp only [sv_poly]; ring

theorem sv_swap_last (a b c p : P3 K) : sv a b p c = -sv a b c p := by
  simp only [sv_poly]; ring

theorem sv_a (a b c : P3 K) : sv a b c a = 0 := by
  simp only [sv_poly]; ring

theorem sv_b (a b c : P3 K) : sv a b c b = 0 := by
  simp only [sv_poly]; ring

theorem sv_c (a b c : P3 K) : sv a b c c = 0 := by
  simp only [sv_poly]; ring

theorem sv_zero (a b c : P3 K) : sv a b c 0 = det3 a b c := by
  simp only [sv_poly, det3, Pi.zero_apply]; ring

theorem det3_cyc (a b c : P3 K) : det3 b c a = det3 a b c := by
  unfold det3; ring

theorem det3_swap (a b c : P3 K) : det3 b a c = -det3 a b c := by
  unfold det3; ring

theorem det3_swap_last (a b c : P3 K) : det3 a c b = -det3 a b c := by
  unfold det3; ring

theorem det3_same (a b : P3 K) : det3 a a b = 0 := by
  unfold det3; ring

theorem det3_same' (a b : P3 K) : det3 b a a = 0 := by
  unfold det3; ring

theorem det3_same'' (a b : P3 K) : det3 a b a = 0 := by
  unfold det3; ring

/-- The volume is an affine function of the last point. -/
theorem sv_affine (a b c : P3 K) : ∃ (n : P3 K) (n0 : K), ∀ p, sv a b c p = n0 + (n 0 * p 0 + n 1 * p 1 + n 2 * p 2) := by
  refine ⟨fun i => -cross3 (fun i => b i - a i) (fun i => c i - a i) i, det3 a b c, fun p => ?_⟩
  rw [sv_poly]
  unfold cross3 det3
  simp
  ring

theorem affine_cramer (a b c q n : P3 K) (n0 : K) :
    det3 a b c * (n0 + (n 0 * q 0 + n 1 * q 1 + n 2 * q 2)) = n0 * sv a b c q +
      det3 q b c * (n0 + (n 0 * a 0 + n 1 * a 1 + n 2 * a 2)) + det3 a q c * (n0 + (n 0 * b 0 + n 1 * b 1 + n 2 * b 2)) +
      det3 a b q * (n0 + (n 0 * c 0 + n 1 * c 1 + n 2 * c 2)) := by
  rw [sv_poly]
  unfold det3
  ring

/-- Cramer's rule for the volume over another triangle. -/
theorem sv_cramer (a b c q x y z : P3 K) :
    det3 a b c * sv x y z q = det3 x y z * sv a b c q + det3 q b c * sv x y z a + det3 a q c * sv x y z b +
      det3 a b q * sv x y z c := by
  obtain ⟨n, n0, h⟩ := sv_affine x y z
  have h0 : det3 x y z = n0 := by
    rw [← sv_zero, h]; simp
  rw [h0, h q, h a, h b, h c]
  exact affine_cramer a b c q n n0

/-- Two triangles over a common edge and the triangle over that edge with a third point. -/
theorem sv_horizon (a b c x p q : P3 K) :
    sv a b c p * sv b a x q - sv b a x p * sv a b c q = -sv b a x c * sv a b p q := by
  simp only [sv_poly]
  generalize hb0 : b 0 - a 0 = b0
  generalize hb1 : b 1 - a 1 = b1
  generalize hb2 : b 2 - a 2 = b2
  have e0 : b 0 = a 0 + b0 := by rw [← hb0]; ring
  have e1 : b 1 = a 1 + b1 := by rw [← hb1]; ring
  have e2 : b 2 = a 2 + b2 := by rw [← hb2]; ring
  have ec0 : c 0 = a 0 + (c 0 - a 0) := by ring
  rw [e0, e1, e2]
  ring

variable [IsStrictOrderedRing K]

/-- `q` is in the cone of the triangle seen from the origin, for a triangle with negative determinant. -/
def InCone (a b c q : P3 K) : Prop := det3 a b q ≤ 0 ∧ det3 b c q ≤ 0 ∧ det3 c a q ≤ 0

/-- Strictly inside. -/
def InConeStrict (a b c q : P3 K) : Prop := det3 a b q < 0 ∧ det3 b c q < 0 ∧ det3 c a q < 0

/-- How far beyond the plane of the triangle a point is, relative to the distance of the origin. -/
def ht (a b c q : P3 K) : K := sv a b c q / (-det3 a b c)

theorem ht_pos_iff {a b c q : P3 K} (h : det3 a b c < 0) : 0 < ht a b c q ↔ 0 < sv a b c q := by
  unfold ht
  rw [div_pos_iff_of_pos_right (by linarith)]

theorem ht_cyc (a b c q : P3 K) : ht b c a q = ht a b c q := by
  unfold ht; rw [sv_cyc, det3_cyc]

/-- Crossing an edge that separates the triangle from `q` leads to a triangle further below `q`. -/
theorem ht_lt {a b c x q : P3 K} (hf : det3 a b c < 0) (hg : det3 b a x < 0) (hc : sv b a x c < 0)
    (hq : 0 < det3 a b q) : ht a b c q < ht b a x q := by
  unfold ht
  rw [div_lt_div_iff₀ (by linarith) (by linarith)]
  have h := sv_cramer a b c q b a x
  rw [sv_b, sv_a, mul_zero, mul_zero, add_zero, add_zero] at h
  nlinarith [mul_neg_of_pos_of_neg hq hc]

/-- If `q` is in the cone over a triangle, no triangle with the vertices of the first on its inner side is further below. -/
theorem ht_le {a b c x y z q : P3 K} (hf : det3 a b c < 0) (hg : det3 x y z < 0) (ha : sv x y z a ≤ 0)
    (hb : sv x y z b ≤ 0) (hc : sv x y z c ≤ 0) (hq : InCone a b c q) : ht x y z q ≤ ht a b c q := by
  unfold ht
  rw [div_le_div_iff₀ (by linarith) (by linarith)]
  have h := sv_cramer a b c q x y z
  obtain ⟨h1, h2, h3⟩ := hq
  rw [← det3_cyc q b c, show det3 a q c = det3 c a q by rw [← det3_cyc a q c, ← det3_cyc q c a]] at h
  nlinarith [mul_nonneg_of_nonpos_of_nonpos h1 hc, mul_nonneg_of_nonpos_of_nonpos h2 ha,
    mul_nonneg_of_nonpos_of_nonpos h3 hb]

/-- Two triangles whose cones share a point strictly inside one of them are in one plane. -/
theorem cone_unique {a b c x y z q : P3 K} (hf : det3 a b c < 0) (hg : det3 x y z < 0) (ha : sv x y z a ≤ 0)
    (hb : sv x y z b ≤ 0) (hc : sv x y z c ≤ 0) (hx : sv a b c x ≤ 0) (hy : sv a b c y ≤ 0) (hz : sv a b c z ≤ 0)
    (hq : InConeStrict a b c q) (hq' : InCone x y z q) : sv x y z a = 0 ∧ sv x y z b = 0 ∧ sv x y z c = 0 := by
  have h1 := ht_le hg hf hx hy hz hq'
  unfold ht at h1
  rw [div_le_div_iff₀ (by linarith) (by linarith)] at h1
  have h := sv_cramer a b c q x y z
  obtain ⟨q1, q2, q3⟩ := hq
  rw [← det3_cyc q b c, show det3 a q c = det3 c a q by rw [← det3_cyc a q c, ← det3_cyc q c a]] at h
  have m1 := mul_nonneg_of_nonpos_of_nonpos q1.le hc
  have m2 := mul_nonneg_of_nonpos_of_nonpos q2.le ha
  have m3 := mul_nonneg_of_nonpos_of_nonpos q3.le hb
  have s1 : det3 a b q * sv x y z c = 0 := by nlinarith
  have s2 : det3 b c q * sv x y z a = 0 := by nlinarith
  have s3 : det3 c a q * sv x y z b = 0 := by nlinarith
  refine ⟨?_, ?_, ?_⟩
  · rcases mul_eq_zero.mp s2 with h | h
    · exact absurd h q2.ne
    · exact h
  · rcases mul_eq_zero.mp s3 with h | h
    · exact absurd h q3.ne
    · exact h
  · rcases mul_eq_zero.mp s1 with h | h
    · exact absurd h q1.ne
    · exact h

/-- The new triangle over a horizon edge: the origin is strictly inside. -/
theorem horizon_det {a b c x p : P3 K} (hf : det3 a b c < 0) (hg : det3 b a x < 0) (hc : sv b a x c < 0)
    (hp : 0 < sv a b c p) (hp' : sv b a x p < 0) : det3 a b p < 0 := by
  have h := sv_horizon a b c x p 0
  rw [sv_zero, sv_zero, sv_zero] at h
  have h1 := mul_neg_of_pos_of_neg hp hg
  have h2 := mul_pos_of_neg_of_neg hp' hf
  by_contra hn
  have := mul_nonneg (neg_pos.mpr hc).le (not_lt.mp hn)
  linarith

/-- The new triangle over a horizon edge: what is inside both old triangles is inside the new one. -/
theorem horizon_le {a b c x p q : P3 K} (hc : sv b a x c < 0) (hp : 0 < sv a b c p) (hp' : sv b a x p < 0)
    (hq : sv a b c q ≤ 0) (hq' : sv b a x q ≤ 0) : sv a b p q ≤ 0 := by
  have h := sv_horizon a b c x p q
  have h1 := mul_nonpos_of_nonneg_of_nonpos hp.le hq'
  have h2 := mul_nonneg_of_nonpos_of_nonpos hp'.le hq
  by_contra hn
  have := mul_pos (neg_pos.mpr hc) (not_le.mp hn)
  linarith

/-- The new triangle over a horizon edge: what sees both old triangles sees the new one. -/
theorem horizon_pos {a b c x p q : P3 K} (hc : sv b a x c < 0) (hp : 0 < sv a b c p) (hp' : sv b a x p < 0)
    (hq : 0 < sv a b c q) (hq' : 0 < sv b a x q) : 0 < sv a b p q := by
  have h := sv_horizon a b c x p q
  have h1 := mul_pos hp hq'
  have h2 := mul_neg_of_neg_of_pos hp' hq
  by_contra hn
  have := mul_nonpos_of_nonneg_of_nonpos (neg_pos.mpr hc).le (not_lt.mp hn)
  linarith

/-! ### Going round the origin in the plane -/

section Turn

variable {α : Type*}

/-- A set of pairs that all turn to the left, in which every end is the start of another, crosses every direction. -/
theorem turn_exists (cr : α → α → K) (anti : ∀ a b, cr b a = -cr a b)
    (pl : ∀ a b u w, cr a b * cr u w = cr u b * cr a w - cr u a * cr b w)
    (C : List (α × α)) (hne : C ≠ []) (hC : ∀ e ∈ C, 0 < cr e.1 e.2) (hs : ∀ e ∈ C, ∃ e' ∈ C, e'.1 = e.2)
    (u w : α) (huw : 0 < cr u w) : ∃ e ∈ C, cr u e.1 ≤ 0 ∧ 0 < cr u e.2 := by
  by_contra hno
  push Not at hno
  have key : ∀ e ∈ C, 0 < cr u e.2 * cr e.1 w - cr u e.1 * cr e.2 w := by
    intro e he
    rw [← pl]
    exact mul_pos (hC e he) huw
  -- a part on which the sign of `cr u` is constant and nonzero has no descending cycle
  have desc : ∀ D : List (α × α), D ≠ [] → (∀ e ∈ D, e ∈ C) → (∀ e ∈ D, ∃ e' ∈ D, e'.1 = e.2) →
      (∀ e ∈ D, 0 < cr u e.1 * cr u e.2) → (∀ e ∈ D, cr u e.1 ≠ 0) → False := by
    intro D hD hDC hDs hsg hnz
    obtain ⟨e, he⟩ := List.exists_mem_of_ne_nil D hD
    classical
    obtain ⟨m, hm, hmin⟩ := Finset.exists_min_image D.toFinset (fun e : α × α => cr e.1 w / cr u e.1) ⟨e, by simpa using he⟩
    rw [List.mem_toFinset] at hm
    obtain ⟨m', hm', hmm⟩ := hDs m hm
    have h1 := hmin m' (by simpa using hm')
    have h2 := key m (hDC m hm)
    have h3 := hsg m hm
    have h4 := hnz m hm
    have h5 := hnz m' hm'
    rw [hmm] at h1 h5
    have h6 : cr m.1 w / cr u m.1 - cr m.2 w / cr u m.2 =
        (cr u m.2 * cr m.1 w - cr u m.1 * cr m.2 w) / (cr u m.1 * cr u m.2) := by
      field_simp
    have h7 := div_pos h2 h3
    linarith
  by_cases hall : ∀ e ∈ C, 0 < cr u e.1
  · refine desc C hne (fun _ h => h) hs ?_ fun e he => (hall e he).ne'
    intro e he
    obtain ⟨e', he', h1⟩ := hs e he
    have := hall e' he'
    rw [h1] at this
    exact mul_pos (hall e he) this
  · push Not at hall
    obtain ⟨e0, he0, h0⟩ := hall
    classical
    -- vertices on the line of `u`
    have hz : ∀ e ∈ C, cr u e.1 ≤ 0 → cr u e.2 < 0 := by
      intro e he h
      have h2 := hno e he h
      rcases h2.lt_or_eq with h2 | h2
      · exact h2
      · exfalso
        obtain ⟨e', he', h1⟩ := hs e he
        have k1 := key e he
        have k2 := key e' he'
        rw [h1, h2] at k2
        rw [h2] at k1
        have h3 := hno e' he' (by rw [h1, h2])
        have k3 : cr u e.1 * cr e.2 w < 0 := by linarith
        have k4 : 0 < cr u e'.2 * cr e.2 w := by linarith
        rcases lt_trichotomy (cr e.2 w) 0 with h4 | h4 | h4
        · have := mul_nonneg_of_nonpos_of_nonpos h h4.le
          linarith
        · rw [h4] at k4; simp at k4
        · have := mul_nonpos_of_nonpos_of_nonneg h3 h4.le
          linarith
    obtain ⟨e1, he1, h1⟩ := hs e0 he0
    have hD1 : e1 ∈ C.filter fun e => decide (cr u e.1 < 0) := by
      rw [List.mem_filter]
      exact ⟨he1, by rw [h1]; exact decide_eq_true (hz e0 he0 h0)⟩
    refine desc (C.filter fun e => decide (cr u e.1 < 0)) (List.ne_nil_of_mem hD1) ?_ ?_ ?_ ?_
    · intro e he
      exact (List.mem_filter.mp he).1
    · intro e he
      rw [List.mem_filter, decide_eq_true_eq] at he
      obtain ⟨e', he', h2⟩ := hs e he.1
      refine ⟨e', ?_, h2⟩
      rw [List.mem_filter, decide_eq_true_eq, h2]
      exact ⟨he', hz e he.1 he.2.le⟩
    · intro e he
      rw [List.mem_filter, decide_eq_true_eq] at he
      exact mul_pos_of_neg_of_neg he.2 (hz e he.1 he.2.le)
    · intro e he
      rw [List.mem_filter, decide_eq_true_eq] at he
      exact he.2.ne

end Turn

/-- The plane seen along the direction `p`. -/
theorem det_plucker (p a b u w : P3 K) :
    -det3 a b p * -det3 u w p = -det3 u b p * -det3 a w p - -det3 u a p * -det3 b w p := by
  unfold det3
  ring

/-- Going round the direction `p`. -/
theorem round_exists (p : P3 K) (C : List (P3 K × P3 K)) (hne : C ≠ []) (hC : ∀ e ∈ C, det3 e.1 e.2 p < 0)
    (hs : ∀ e ∈ C, ∃ e' ∈ C, e'.1 = e.2) (u w : P3 K) (huw : det3 u w p < 0) :
    ∃ e ∈ C, 0 ≤ det3 u e.1 p ∧ det3 u e.2 p < 0 := by
  obtain ⟨e, he, h1, h2⟩ := turn_exists (fun a b => -det3 a b p) (fun a b => by rw [det3_swap]) (fun a b u w => det_plucker p a b u w)
    C hne (fun e he => by simpa using hC e he) hs u w (by simpa using huw)
  exact ⟨e, he, by linarith, by linarith⟩

/-- Two edges of the horizon that are crossed by the same half plane are in one plane with `p`. -/
theorem cross_unique {a b c d p : P3 K} (he : det3 a b p < 0) (hf : det3 c d p < 0) (h1 : sv a b p c ≤ 0)
    (h2 : sv a b p d ≤ 0) (h3 : sv c d p a ≤ 0) (h4 : sv c d p b ≤ 0) (ha : 0 ≤ det3 (fun i => c i + d i) a p)
    (hb : det3 (fun i => c i + d i) b p < 0) : sv a b p c = 0 ∧ sv a b p d = 0 := by
  set A := -det3 (fun i => c i + d i) b p with hA
  set B := det3 (fun i => c i + d i) a p with hB
  set C := -det3 a b p with hC
  set S := det3 a b (fun i => c i + d i) with hS
  have vec : ∀ i : Fin 3, A * a i + B * b i = C * (c i + d i) + S * p i := by
    intro i
    simp only [hA, hB, hC, hS, det3]
    fin_cases i <;> simp <;> ring
  have lin : ∀ x y z : P3 K, ∃ n : P3 K, ∀ q, sv x y z q = det3 x y z + (n 0 * q 0 + n 1 * q 1 + n 2 * q 2) := by
    intro x y z
    obtain ⟨n, n0, h⟩ := sv_affine x y z
    have h0 : det3 x y z = n0 := by
      rw [← sv_zero, h]; simp
    exact ⟨n, fun q => by rw [h, h0]⟩
  obtain ⟨n, hn⟩ := lin a b p
  obtain ⟨m, hm⟩ := lin c d p
  have v0 := vec 0
  have v1 := vec 1
  have v2 := vec 2
  -- the functional of the first plane
  have e1 : A * sv a b p a + B * sv a b p b - (C * (sv a b p c + sv a b p d) + S * sv a b p p) =
      (A + B - 2 * C - S) * det3 a b p := by
    rw [hn a, hn b, hn c, hn d, hn p]
    linear_combination n 0 * v0 + n 1 * v1 + n 2 * v2
  have e2 : A * sv c d p a + B * sv c d p b - (C * (sv c d p c + sv c d p d) + S * sv c d p p) =
      (A + B - 2 * C - S) * det3 c d p := by
    rw [hm a, hm b, hm c, hm d, hm p]
    linear_combination m 0 * v0 + m 1 * v1 + m 2 * v2
  rw [sv_a, sv_b, sv_c] at e1 e2
  have hCp : 0 < C := by rw [hC]; linarith
  have hAp : 0 < A := by rw [hA]; linarith
  have g1 : (A + B - 2 * C - S) * det3 c d p ≤ 0 := by
    rw [← e2]
    have := mul_nonpos_of_nonneg_of_nonpos hAp.le h3
    have := mul_nonpos_of_nonneg_of_nonpos ha h4
    linarith
  have g2 : 0 ≤ A + B - 2 * C - S := by
    by_contra hn
    have := mul_pos_of_neg_of_neg (not_le.mp hn) hf
    linarith
  have g3 : (A + B - 2 * C - S) * det3 a b p ≤ 0 := mul_nonpos_of_nonneg_of_nonpos g2 he.le
  have g4 : 0 ≤ C * (sv a b p c + sv a b p d) := by linarith
  have g5 : 0 ≤ sv a b p c + sv a b p d := nonneg_of_mul_nonneg_right g4 hCp
  constructor <;> linarith

/-- Triangles round the vertex `z` that close up contain every edge at `z`. -/
theorem umbrella {z w x : P3 K} (C : List (P3 K × P3 K)) (hne : C ≠ []) (hC : ∀ e ∈ C, det3 z e.1 e.2 < 0)
    (hs : ∀ e ∈ C, ∃ e' ∈ C, e'.1 = e.2) (hw : det3 z w x < 0) (h1 : ∀ e ∈ C, sv z e.1 e.2 w ≤ 0)
    (h2 : ∀ e ∈ C, sv z w x e.1 ≤ 0 ∧ sv z w x e.2 ≤ 0) : ∃ e ∈ C, sv z e.1 e.2 w = 0 ∧ w ≠ e.2 := by
  obtain ⟨e, he, g1, g2⟩ := round_exists z C hne (fun e he => by rw [det3_cyc]; exact hC e he) hs w x
    (by rw [det3_cyc]; exact hw)
  refine ⟨e, he, ?_, ?_⟩
  · have h := sv_cramer z e.1 e.2 w z w x
    rw [sv_b, sv_a, mul_zero, mul_zero, add_zero] at h
    have k1 : det3 z w e.2 < 0 := by rw [← det3_cyc]; exact g2
    have k2 : det3 z e.1 w ≤ 0 := by
      rw [← det3_cyc, det3_swap]; linarith
    have m1 := mul_nonneg_of_nonpos_of_nonpos k1.le (h2 e he).1
    have m2 := mul_nonneg_of_nonpos_of_nonpos k2 (h2 e he).2
    have m3 := mul_nonneg_of_nonpos_of_nonpos hw.le (h1 e he)
    have m4 : det3 z w x * sv z e.1 e.2 w = 0 := by linarith
    rcases mul_eq_zero.mp m4 with h | h
    · exact absurd h hw.ne
    · exact h
  · rintro rfl
    rw [det3_same] at g2
    exact lt_irrefl _ g2

end Verif.QHull
