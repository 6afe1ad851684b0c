import Mathlib.Algebra.Order.Field.Basic
import Mathlib.Algebra.Order.BigOperators.Group.Finset
import Mathlib.Algebra.BigOperators.Fin
import Mathlib.Data.Rat.Defs
import Mathlib.Algebra.Order.Field.Rat
import Mathlib.Tactic.Linarith
import Mathlib.Tactic.Ring
import Mathlib.Tactic.NormNum
import Mathlib.Tactic.FinCases
import Mathlib.Tactic.Positivity

/-!
Points and axis-parallel boxes shared by all components.

Floating point coordinates are modelled by an ordered field `K`.
-/

namespace Verif

/-- `include/pargeo/point.h:28` (`_tData x[_dim]`). The attribute field is left out: nothing
modelled here reads it. -/
abbrev Point (K : Type*) (d : ℕ) := Fin d → K

section
variable {K : Type*} [Field K] {d : ℕ}

/-- `include/pargeo/point.h:98-101` (`distSqr`): the sum over the coordinates of the squared
differences. The loop is written as a finite sum. `dist` (103-105) is its square root; the model
compares squared distances instead. -/
def distSqr (p q : Point K d) : K := ∑ i, (p i - q i) * (p i - q i)

/-- `include/pargeo/point.h:107-110` (`dot`). -/
def dot (p q : Point K d) : K := ∑ i, p i * q i

end

/-- An axis-parallel box: the `pMin`/`pMax` pair of `include/kdTree/kdTree.h:203` and of the other
tree nodes. -/
structure Box (K : Type*) (d : ℕ) where
  lo : Point K d
  hi : Point K d

section
variable {K : Type*} [LinearOrder K] {d : ℕ}

/-- Specification: `p` is in the closed box `b`. -/
def Box.Mem (b : Box K d) (p : Point K d) : Prop := ∀ i, b.lo i ≤ p i ∧ p i ≤ b.hi i

instance (b : Box K d) (p : Point K d) : Decidable (b.Mem p) :=
  inferInstanceAs (Decidable (∀ i, b.lo i ≤ p i ∧ p i ≤ b.hi i))

/-- Specification: box `b` is exactly the coordinate-wise minimum and maximum of the points
of the items. -/
def Box.Tight {α : Type*} (b : Box K d) (pos : α → Point K d) (items : List α) : Prop :=
  (∀ a ∈ items, b.Mem (pos a)) ∧
  ∀ i, (∃ a ∈ items, pos a i = b.lo i) ∧ (∃ a ∈ items, pos a i = b.hi i)

end

section
variable {K : Type*} [Field K] [LinearOrder K] [IsStrictOrderedRing K] {d : ℕ}

theorem distSqr_nonneg (p q : Point K d) : 0 ≤ distSqr p q :=
  Finset.sum_nonneg fun i _ => mul_self_nonneg _

theorem distSqr_comm (p q : Point K d) : distSqr p q = distSqr q p := by
  unfold distSqr
  exact Finset.sum_congr rfl fun i _ => by ring

theorem coord_le_distSqr (p q : Point K d) (i : Fin d) :
    (p i - q i) * (p i - q i) ≤ distSqr p q :=
  Finset.single_le_sum (f := fun i => (p i - q i) * (p i - q i))
    (fun i _ => mul_self_nonneg _) (Finset.mem_univ i)

theorem distSqr_eq_zero {p q : Point K d} : distSqr p q = 0 ↔ p = q := by
  constructor
  · intro h
    funext i
    have h1 := coord_le_distSqr p q i
    have h2 := mul_self_nonneg (p i - q i)
    have h3 : (p i - q i) * (p i - q i) = 0 := le_antisymm (h ▸ h1) h2
    have := mul_self_eq_zero.mp h3
    linarith
  · rintro rfl
    simp [distSqr]

end

end Verif
