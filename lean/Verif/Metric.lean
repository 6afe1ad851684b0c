import Verif.Geom
import Mathlib.Analysis.SpecialFunctions.Sqrt
import Mathlib.Analysis.InnerProductSpace.PiL2

/-!
Distances: an abstract distance that dominates coordinate differences, and the Euclidean distance
over the real numbers.
-/

namespace Verif

variable {d : ℕ}

/-- What the searches rely on: the distance is symmetric, and at least as large as every coordinate
difference. -/
structure IsCoordDist {K : Type*} [Field K] [LinearOrder K] (dist : Point K d → Point K d → K) :
    Prop where
  comm : ∀ p q, dist p q = dist q p
  coord : ∀ p q i, |p i - q i| ≤ dist p q

/-- `include/pargeo/point.h:103-105` (`dist`): the square root of `distSqr`, over the reals. -/
noncomputable def eucl (p q : Point ℝ d) : ℝ := Real.sqrt (distSqr p q)

theorem eucl_nonneg (p q : Point ℝ d) : 0 ≤ eucl p q := Real.sqrt_nonneg _

theorem eucl_comm (p q : Point ℝ d) : eucl p q = eucl q p := by
  unfold eucl; rw [distSqr_comm]

theorem eucl_coord (p q : Point ℝ d) (i : Fin d) : |p i - q i| ≤ eucl p q := by
  unfold eucl
  rw [← Real.sqrt_sq_eq_abs]
  apply Real.sqrt_le_sqrt
  rw [sq]
  exact coord_le_distSqr p q i

theorem eucl_isCoordDist : IsCoordDist (eucl : Point ℝ d → Point ℝ d → ℝ) :=
  ⟨eucl_comm, eucl_coord⟩

theorem eucl_le_iff {p q : Point ℝ d} {r : ℝ} (hr : 0 ≤ r) : eucl p q ≤ r ↔ distSqr p q ≤ r ^ 2 :=
  Real.sqrt_le_left hr

theorem eucl_le_eucl_iff {p q p' q' : Point ℝ d} :
    eucl p q ≤ eucl p' q' ↔ distSqr p q ≤ distSqr p' q' :=
  Real.sqrt_le_sqrt_iff (distSqr_nonneg _ _)

theorem eucl_lt_eucl_iff {p q p' q' : Point ℝ d} :
    eucl p q < eucl p' q' ↔ distSqr p q < distSqr p' q' :=
  Real.sqrt_lt_sqrt_iff (distSqr_nonneg _ _)

theorem eucl_sq (p q : Point ℝ d) : eucl p q ^ 2 = distSqr p q :=
  Real.sq_sqrt (distSqr_nonneg _ _)

theorem eucl_self (p : Point ℝ d) : eucl p p = 0 := by
  unfold eucl; rw [distSqr_eq_zero.mpr rfl, Real.sqrt_zero]

theorem eucl_eq_zero {p q : Point ℝ d} : eucl p q = 0 ↔ p = q := by
  unfold eucl; rw [Real.sqrt_eq_zero (distSqr_nonneg _ _), distSqr_eq_zero]

/-- The point as an element of Mathlib's Euclidean space. -/
def toE (p : Point ℝ d) : EuclideanSpace ℝ (Fin d) := WithLp.toLp 2 p

theorem eucl_eq_dist (p q : Point ℝ d) : eucl p q = dist (toE p) (toE q) := by
  rw [EuclideanSpace.dist_eq]
  unfold eucl distSqr toE
  congr 1
  apply Finset.sum_congr rfl
  intro i _
  rw [Real.dist_eq, sq_abs, sq]

theorem eucl_triangle (p q r : Point ℝ d) : eucl p r ≤ eucl p q + eucl q r := by
  simp only [eucl_eq_dist]
  exact dist_triangle _ _ _

end Verif
