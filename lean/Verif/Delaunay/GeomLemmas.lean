import Verif.Delaunay.GeomModel
import Mathlib.Tactic.Linarith
import Mathlib.Tactic.Positivity
import Mathlib.Tactic.LinearCombination
import Mathlib.Algebra.Order.Ring.Abs

set_option linter.unusedSectionVars false
set_option linter.unusedVariables false

/-!
Planar geometry behind the Delaunay insertion: identities between areas and in-circle determinants, all of them
polynomial, and the sign conditions that follow.
-/

namespace Verif.Delaunay

section
variable {K : Type} [Field K]

/-- Squared distance. -/
def sqd (a b : P2 K) : K := (a.x - b.x) ^ 2 + (a.y - b.y) ^ 2

theorem area_rot (a b c : P2 K) : area b c a = area a b c := by unfold area; ring
theorem area_rot' (a b c : P2 K) : area c a b = area a b c := by unfold area; ring
theorem area_swap (a b c : P2 K) : area b a c = -area a b c := by unfold area; ring
theorem area_self_left (a b : P2 K) : area a b a = 0 := by unfold area; ring
theorem area_self_right (a b : P2 K) : area a b b = 0 := by unfold area; ring
theorem area_self (a b : P2 K) : area a a b = 0 := by unfold area; ring

theorem circ_rot (a b c d : P2 K) : circ b c a d = circ a b c d := by unfold circ; ring
theorem circ_swap (a b c d : P2 K) : circ b a c d = -circ a b c d := by unfold circ; ring
theorem circ_swap_last (a b c d : P2 K) : circ a b d c = -circ a b c d := by unfold circ; ring
theorem circ_self (a b c : P2 K) : circ a b c c = 0 := by unfold circ; ring
theorem circ_self1 (a b c : P2 K) : circ a b c a = 0 := by unfold circ; ring
theorem circ_self2 (a b c : P2 K) : circ a b c b = 0 := by unfold circ; ring

/-- The areas of a point over the three edges add up. -/
theorem area_sum (a b c p : P2 K) : area a b p + area b c p + area c a p = area a b c := by unfold area; ring

/-- The affine function `area s t` in terms of its values at the corners. -/
theorem area_bary (a b c s t z : P2 K) : area a b c * area s t z =
    area b c z * area s t a + area c a z * area s t b + area a b z * area s t c := by unfold area; ring

/-- The pencil of circles through `a` and `b`. -/
theorem circ_pencil (a b c d q : P2 K) :
    circ a b c q * area a b d - circ a b d q * area a b c = circ a b c d * area a b q := by unfold circ area; ring

/-- The in-circle determinant in barycentric form. -/
theorem circ_bary (a b c p : P2 K) : circ a b c p * area a b c =
    area b c p * area c a p * sqd a b + area c a p * area a b p * sqd b c + area a b p * area b c p * sqd c a := by
  unfold circ area sqd
  ring

end

section
variable {K : Type} [Field K] [LinearOrder K] [IsStrictOrderedRing K]

theorem sqd_nonneg (a b : P2 K) : 0 ≤ sqd a b := by unfold sqd; positivity

theorem sqd_pos {a b c : P2 K} (h : area a b c ≠ 0) : 0 < sqd b c := by
  rcases lt_or_eq_of_le (sqd_nonneg b c) with h1 | h1
  · exact h1
  · exfalso
    unfold sqd at h1
    have hx : b.x - c.x = 0 := by nlinarith [sq_nonneg (b.x - c.x), sq_nonneg (b.y - c.y)]
    have hy : b.y - c.y = 0 := by nlinarith [sq_nonneg (b.x - c.x), sq_nonneg (b.y - c.y)]
    apply h
    unfold area
    have e1 : b.x = c.x := by linarith
    have e2 : b.y = c.y := by linarith
    rw [e1, e2]
    ring

/-- A point strictly inside a triangle is strictly inside its circumcircle. -/
theorem circ_pos_of_inside {a b c p : P2 K} (h1 : 0 < area a b p) (h2 : 0 < area b c p) (h3 : 0 < area c a p) :
    0 < circ a b c p := by
  have hA : 0 < area a b c := by rw [← area_sum a b c p]; linarith
  have hb := circ_bary a b c p
  have s1 := sqd_nonneg a b
  have s2 : 0 < sqd b c := sqd_pos hA.ne'
  have s3 := sqd_nonneg c a
  have : 0 < circ a b c p * area a b c := by
    rw [hb]
    have := mul_nonneg (mul_nonneg h2.le h3.le) s1
    have := mul_pos (mul_pos h3 h1) s2
    have := mul_nonneg (mul_nonneg h1.le h2.le) s3
    linarith
  exact (pos_iff_pos_of_mul_pos this).mpr hA

/-- A point in the closed circumcircle and strictly beyond one edge is strictly inside the next edge. -/
theorem inside_next {a b c p : P2 K} (hA : 0 < area a b c) (hc : 0 ≤ circ a b c p) (hb : area a b p < 0) :
    0 < area b c p := by
  by_contra hle
  push Not at hle
  have e := circ_bary a b c p
  have es := area_sum a b c p
  set s := -area b c p with hs
  set t := -area a b p with ht
  have hs0 : 0 ≤ s := by linarith
  have ht0 : 0 < t := by linarith
  have e1 : area b c p = -s := by rw [hs]; ring
  have e2 : area a b p = -t := by rw [ht]; ring
  have e3 : area c a p = area a b c + s + t := by linarith
  rw [e1, e2, e3] at e
  have hsq : 0 ≤ (s + t) * (s * sqd a b + t * sqd b c) - s * t * sqd c a := by
    have : (s + t) * (s * sqd a b + t * sqd b c) - s * t * sqd c a =
        (s * (b.x - a.x) - t * (c.x - b.x)) ^ 2 + (s * (b.y - a.y) - t * (c.y - b.y)) ^ 2 := by
      unfold sqd
      ring
    rw [this]
    positivity
  have hbc : 0 < sqd b c := sqd_pos hA.ne'
  have hab := sqd_nonneg a b
  have h1 : 0 < area a b c * (s * sqd a b + t * sqd b c) :=
    mul_pos hA (by have := mul_nonneg hs0 hab; have := mul_pos ht0 hbc; linarith)
  have h2 : 0 ≤ circ a b c p * area a b c := mul_nonneg hc hA.le
  nlinarith

/-- … and strictly inside the previous edge. -/
theorem inside_prev {a b c p : P2 K} (hA : 0 < area a b c) (hc : 0 ≤ circ a b c p) (hb : area a b p < 0) :
    0 < area c a p := by
  by_contra hle
  push Not at hle
  have e := circ_bary a b c p
  have es := area_sum a b c p
  set s := -area c a p with hs
  set t := -area a b p with ht
  have hs0 : 0 ≤ s := by linarith
  have ht0 : 0 < t := by linarith
  have e1 : area c a p = -s := by rw [hs]; ring
  have e2 : area a b p = -t := by rw [ht]; ring
  have e3 : area b c p = area a b c + s + t := by linarith
  rw [e1, e2, e3] at e
  have hsq : 0 ≤ (s + t) * (s * sqd a b + t * sqd c a) - s * t * sqd b c := by
    have : (s + t) * (s * sqd a b + t * sqd c a) - s * t * sqd b c =
        (s * (a.x - b.x) - t * (c.x - a.x)) ^ 2 + (s * (a.y - b.y) - t * (c.y - a.y)) ^ 2 := by
      unfold sqd
      ring
    rw [this]
    positivity
  have hca : 0 < sqd c a := sqd_pos (a := b) (by rw [area_rot]; exact hA.ne')
  have hab := sqd_nonneg a b
  have h1 : 0 < area a b c * (s * sqd a b + t * sqd c a) :=
    mul_pos hA (by have := mul_nonneg hs0 hab; have := mul_pos ht0 hca; linarith)
  have h2 : 0 ≤ circ a b c p * area a b c := mul_nonneg hc hA.le
  nlinarith

/-- The circle through an edge `u v` of the cavity and the new point `p` is empty: `w` is the corner of a cavity
triangle on the side of `p`; a vertex `q` on that side. -/
theorem empty_inner {u v w p q : P2 K} (hw : 0 < area u v w) (hp : 0 < area u v p) (hwp : 0 < circ u v w p)
    (hwq : circ u v w q ≤ 0) (hq : 0 ≤ area u v q) : circ u v p q ≤ 0 := by
  have e := circ_pencil u v p w q
  rw [circ_swap_last u v w p] at e
  have h1 : circ u v p q * area u v w ≤ 0 := by
    have : circ u v p q * area u v w = circ u v w q * area u v p + -(circ u v w p * area u v q) := by
      linear_combination e
    rw [this]
    have := mul_nonneg hwp.le hq
    have := mul_nonneg (neg_nonneg.mpr hwq) hp.le
    linarith
  by_contra hh
  push Not at hh
  have := mul_pos hh hw
  linarith

/-- … a vertex `q` on the other side, where the cavity ends at the triangle `v u z`. -/
theorem empty_outer {u v z p q : P2 K} (hz : 0 < area v u z) (hp : 0 < area u v p) (hzp : circ v u z p ≤ 0)
    (hzq : circ v u z q ≤ 0) (hq : area u v q ≤ 0) : circ u v p q ≤ 0 := by
  have e := circ_pencil u v p z q
  rw [circ_swap_last u v z p] at e
  rw [area_swap] at hz
  rw [circ_swap] at hzp hzq
  have h1 : 0 ≤ circ u v p q * area u v z := by
    have : circ u v p q * area u v z = circ u v z q * area u v p + -(circ u v z p * area u v q) := by
      linear_combination e
    rw [this]
    have := mul_nonneg (show 0 ≤ circ u v z q by linarith) hp.le
    have := mul_nonneg (show 0 ≤ circ u v z p by linarith) (neg_nonneg.mpr hq)
    linarith
  by_contra hh
  push Not at hh
  have := mul_pos hh hz
  linarith

/-- Minus the power of `p` with respect to the circumcircle. -/
def pw (a b c p : P2 K) : K := circ a b c p / area a b c

/-- Crossing an edge towards `p` does not lower `pw`, and keeps it only if all four corners are cocircular. -/
theorem pw_cross {u v w z p : P2 K} (hw : 0 < area u v w) (hz : 0 < area v u z) (hd : circ u v w z ≤ 0)
    (hp : area u v p < 0) :
    pw u v w p < pw v u z p ∨ (pw u v w p = pw v u z p ∧ circ u v w z = 0) := by
  have e := circ_pencil u v w z p
  rw [area_swap] at hz
  have hz' : area u v z < 0 := by linarith
  have e2 : pw v u z p = circ u v z p / area u v z := by
    unfold pw
    rw [circ_swap, area_swap, neg_div_neg_eq]
  have e3 : pw u v w p - pw v u z p = circ u v w z * area u v p / (area u v w * area u v z) := by
    rw [e2]
    unfold pw
    rw [div_sub_div _ _ hw.ne' hz'.ne]
    congr 1
    linear_combination e
  rcases lt_or_eq_of_le hd with h | h
  · left
    have : circ u v w z * area u v p / (area u v w * area u v z) < 0 :=
      div_neg_of_pos_of_neg (mul_pos_of_neg_of_neg h hp) (mul_neg_of_pos_of_neg hw hz')
    linarith
  · right
    rw [h] at e3
    simp at e3
    exact ⟨by linarith, h⟩

/-- Cocircular neighbours have the same circle. -/
theorem circ_eq_zero_of_cocircular {u v w z q : P2 K} (hw : 0 < area u v w) (hz : 0 < area v u z)
    (h : circ u v w z = 0) (hq : circ v u z q = 0) : circ u v w q = 0 := by
  have e := circ_pencil u v w z q
  rw [circ_swap] at hq
  have : circ u v z q = 0 := by linarith
  rw [h, this] at e
  rw [area_swap] at hz
  have hz' : area u v z ≠ 0 := by
    intro h0
    rw [h0] at hz
    simp at hz
  have e' : circ u v w q * area u v z = 0 := by linear_combination e
  rcases mul_eq_zero.mp e' with h0 | h0
  · exact h0
  · exact absurd h0 hz'

/-! ### Moving a point a little -/

/-- The point at parameter `e` between `z` and `w`. -/
def lerp (z w : P2 K) (e : K) : P2 K := ⟨(1 - e) * z.x + e * w.x, (1 - e) * z.y + e * w.y⟩

theorem area_lerp (a b z w : P2 K) (e : K) : area a b (lerp z w e) = (1 - e) * area a b z + e * area a b w := by
  unfold area lerp
  ring

/-- Finitely many strict conditions on a point survive a small move in a given direction. -/
theorem exists_small (z w : P2 K) (l : List (P2 K × P2 K)) (h : ∀ s ∈ l, 0 < area s.1 s.2 z) :
    ∃ e0 : K, 0 < e0 ∧ e0 < 1 ∧ ∀ e, 0 < e → e ≤ e0 → ∀ s ∈ l, 0 < area s.1 s.2 (lerp z w e) := by
  induction l with
  | nil => exact ⟨1 / 2, by norm_num, by norm_num, by simp⟩
  | cons s l ih =>
    obtain ⟨e1, h1, h2, h3⟩ := ih fun s hs => h s (by simp [hs])
    have hs := h s (by simp)
    -- bound for the new condition
    set B := area s.1 s.2 z + |area s.1 s.2 w| with hB
    have hBpos : 0 < B := by
      have := abs_nonneg (area s.1 s.2 w)
      linarith
    set e2 := area s.1 s.2 z / (2 * B) with he2
    have he2pos : 0 < e2 := div_pos hs (by linarith)
    refine ⟨min e1 e2, lt_min h1 he2pos, (min_le_left _ _).trans_lt h2, ?_⟩
    intro e he hee s' hs'
    rcases List.mem_cons.mp hs' with rfl | hs'
    · rw [area_lerp]
      have h5 : e ≤ e2 := hee.trans (min_le_right _ _)
      have h6 : e * (2 * B) ≤ area s'.1 s'.2 z := by
        have := mul_le_mul_of_nonneg_right h5 (show (0 : K) ≤ 2 * B by linarith)
        rwa [he2, div_mul_cancel₀ _ (by linarith : (2 * B) ≠ 0)] at this
      have h7 : -|area s'.1 s'.2 w| ≤ area s'.1 s'.2 w := neg_abs_le _
      have h8 := mul_le_mul_of_nonneg_left h7 he.le
      have : (1 - e) * area s'.1 s'.2 z + e * area s'.1 s'.2 w ≥ area s'.1 s'.2 z - e * B := by
        rw [hB]
        nlinarith
      nlinarith
    · exact h3 e he (hee.trans (min_le_left _ _)) s' hs'

/-- A point strictly inside a counterclockwise triangle is strictly on the positive side of a line with no corner on
the negative side and some corner strictly on the positive side. -/
theorem area_pos_of_inside {a b c s t z : P2 K} (h1 : 0 < area a b z) (h2 : 0 < area b c z) (h3 : 0 < area c a z)
    (ha : 0 ≤ area s t a) (hb : 0 ≤ area s t b) (hc : 0 ≤ area s t c)
    (hpos : 0 < area s t a ∨ 0 < area s t b ∨ 0 < area s t c) : 0 < area s t z := by
  have hA : 0 < area a b c := by rw [← area_sum a b c z]; linarith
  have e := area_bary a b c s t z
  have m1 := mul_nonneg h2.le ha
  have m2 := mul_nonneg h3.le hb
  have m3 := mul_nonneg h1.le hc
  have : 0 < area a b c * area s t z := by
    rw [e]
    rcases hpos with h | h | h
    · have := mul_pos h2 h
      linarith
    · have := mul_pos h3 h
      linarith
    · have := mul_pos h1 h
      linarith
  exact (pos_iff_pos_of_mul_pos this).mp hA

end

end Verif.Delaunay
