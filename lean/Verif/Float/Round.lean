import Mathlib.Data.Real.Archimedean
import Mathlib.Data.Int.Log
import Mathlib.Algebra.Order.Floor.Ring
import Mathlib.Algebra.Order.Field.Power
import Mathlib.Tactic.Linarith
import Mathlib.Tactic.Ring
import Mathlib.Tactic.FieldSimp
import Mathlib.Tactic.Positivity
import Mathlib.Tactic.NormNum

set_option linter.unusedSectionVars false
set_option linter.unusedVariables false

/-!
Rounded arithmetic. The coordinates of `pargeo::point` are of type `double`
(`include/pargeo/point.h:32-36`, `_tData = double`); every arithmetic operation of the library on
them rounds its exact result. This file gives

* `IsRounding u fl`: what the theorems on rounded arithmetic assume of the rounding function `fl`;
* `rne p`: rounding to the nearest binary floating-point number of `p` bits, ties to even, with an
  unbounded exponent range, and a proof that it is such a rounding with `u = 2^-p`. For `p = 53` it
  is the rounding of `double` as long as no operation overflows or underflows.
-/

namespace Verif.Float

/-- `include/pargeo/point.h:32-36`: what is assumed of the rounding of the type `double` where only
comparisons of computed numbers matter. Rounding keeps the order and is symmetric about 0. This
holds with underflow too. -/
structure IsMonoRounding (fl : ℝ → ℝ) : Prop where
  mono : Monotone fl
  odd : ∀ x, fl (-x) = -fl x

/-- `include/pargeo/point.h:32-36`: what is assumed of the rounding of the type `double` where the
size of errors matters: moreover the relative error is at most `u`. -/
structure IsRounding (u : ℝ) (fl : ℝ → ℝ) : Prop extends IsMonoRounding fl where
  err : ∀ x, |fl x - x| ≤ u * |x|

theorem IsMonoRounding.zero {fl : ℝ → ℝ} (hf : IsMonoRounding fl) : fl 0 = 0 := by
  have := hf.odd 0
  rw [neg_zero] at this
  linarith

theorem IsMonoRounding.nonneg {fl : ℝ → ℝ} (hf : IsMonoRounding fl) {x : ℝ} (h : 0 ≤ x) :
    0 ≤ fl x := by
  have := hf.mono h
  rwa [hf.zero] at this

/-- Exact arithmetic is a rounding with error 0. -/
theorem isRounding_id : IsRounding 0 id := ⟨⟨monotone_id, fun _ => rfl⟩, fun x => by simp⟩

/-- `include/pargeo/point.h:32-36` (`double`): the integer nearest to a number, the even one in case
of a tie. -/
noncomputable def rhe (x : ℝ) : ℤ :=
  if x - ⌊x⌋ < 1 / 2 then ⌊x⌋
  else if 1 / 2 < x - ⌊x⌋ then ⌊x⌋ + 1
  else if ⌊x⌋ % 2 = 0 then ⌊x⌋ else ⌊x⌋ + 1

/-- `include/pargeo/point.h:32-36` (`double`): the exponent of the last of the `p` bits of a number
of the size of `x`. -/
noncomputable def expo (p : ℕ) (x : ℝ) : ℤ := Int.log 2 x - ((p : ℤ) - 1)

/-- `include/pargeo/point.h:32-36` (`double`): rounding a non-negative number to `p` bits. -/
noncomputable def rnePos (p : ℕ) (x : ℝ) : ℝ :=
  if x = 0 then 0 else rhe (x / (2 : ℝ) ^ expo p x) * (2 : ℝ) ^ expo p x

/-- `include/pargeo/point.h:32-36` (`double`): rounding to nearest, ties to even, with `p` bits. The
range of the exponent is not bounded: there is no overflow and no underflow. -/
noncomputable def rne (p : ℕ) (x : ℝ) : ℝ := if x < 0 then -rnePos p (-x) else rnePos p x

theorem rhe_err (x : ℝ) : |(rhe x : ℝ) - x| ≤ 1 / 2 := by
  have h1 := Int.floor_le x
  have h2 := Int.lt_floor_add_one x
  unfold rhe
  rw [abs_le]
  split_ifs <;> push_cast <;> constructor <;> linarith

/-- `rhe x` is at least as near to `x` as any other integer. -/
theorem rhe_nearest (x : ℝ) (m : ℤ) : |(rhe x : ℝ) - x| ≤ |(m : ℝ) - x| := by
  by_cases h : m = rhe x
  · rw [h]
  · have h1 := rhe_err x
    have h2 : (1 : ℝ) ≤ |(m : ℝ) - rhe x| := by
      have : (1 : ℤ) ≤ |m - rhe x| := Int.one_le_abs (sub_ne_zero.mpr h)
      exact_mod_cast this
    have h3 : |(m : ℝ) - rhe x| ≤ |(m : ℝ) - x| + |x - rhe x| := abs_sub_le _ _ _
    rw [abs_sub_comm x] at h3
    linarith

theorem rhe_int (n : ℤ) : rhe (n : ℝ) = n := by
  unfold rhe
  rw [if_pos]
  · exact Int.floor_intCast n
  · rw [Int.floor_intCast]; norm_num

theorem rhe_mono : Monotone rhe := by
  intro x y h
  rcases eq_or_lt_of_le h with rfl | h
  · exact le_refl _
  by_contra hc
  rw [not_le] at hc
  have hc' : rhe y + 1 ≤ rhe x := hc
  have hc1 : (rhe y : ℝ) + 1 ≤ rhe x := by exact_mod_cast hc'
  have h1 := abs_le.mp (rhe_err x)
  have h2 := abs_le.mp (rhe_err y)
  linarith

theorem rhe_nonneg {x : ℝ} (h : 0 ≤ x) : 0 ≤ rhe x := by
  have := rhe_mono h
  have h0 := rhe_int 0
  rw [Int.cast_zero] at h0
  rwa [h0] at this

/-- A number less than one half above an integer. -/
theorem rhe_down {x : ℝ} (n : ℤ) (h1 : (n : ℝ) ≤ x) (h2 : x < n + 1 / 2) : rhe x = n := by
  have hf : ⌊x⌋ = n := Int.floor_eq_iff.mpr ⟨h1, by linarith⟩
  unfold rhe
  rw [hf, if_pos (by linarith)]

/-- A tie above an even number is rounded down. -/
theorem rhe_tie_even (n : ℤ) (hn : n % 2 = 0) {x : ℝ} (hx : x = n + 1 / 2) : rhe x = n := by
  have hf : ⌊x⌋ = n := Int.floor_eq_iff.mpr ⟨by linarith, by linarith⟩
  unfold rhe
  rw [hf, if_neg (by linarith), if_neg (by linarith), if_pos hn]

/-- A tie above an odd number is rounded up. -/
theorem rhe_tie_odd (n : ℤ) (hn : n % 2 = 1) {x : ℝ} (hx : x = n + 1 / 2) : rhe x = n + 1 := by
  have hf : ⌊x⌋ = n := Int.floor_eq_iff.mpr ⟨by linarith, by linarith⟩
  unfold rhe
  rw [hf, if_neg (by linarith), if_neg (by linarith), if_neg (by omega)]

section
variable {p : ℕ}

theorem two_pow_expo_pos (x : ℝ) : (0 : ℝ) < (2 : ℝ) ^ expo p x := by positivity

/-- The scaled number lies between `2^(p-1)` and `2^p`. -/
theorem scaled_bounds (hp : 1 ≤ p) {x : ℝ} (hx : 0 < x) :
    ((2 ^ (p - 1) : ℕ) : ℝ) ≤ x / (2 : ℝ) ^ expo p x ∧
      x / (2 : ℝ) ^ expo p x < ((2 ^ p : ℕ) : ℝ) := by
  have h1 := Int.zpow_log_le_self (b := 2) (r := x) (by norm_num) hx
  have h2 := Int.lt_zpow_succ_log_self (b := 2) (by norm_num) x
  rw [Nat.cast_ofNat] at h1 h2
  have hs := two_pow_expo_pos (p := p) x
  constructor
  · rw [le_div_iff₀ hs]
    refine le_trans (le_of_eq ?_) h1
    rw [Nat.cast_pow, Nat.cast_ofNat, ← zpow_natCast, ← zpow_add₀ (by norm_num)]
    congr 1
    unfold expo
    omega
  · rw [div_lt_iff₀ hs]
    refine lt_of_lt_of_eq h2 ?_
    rw [Nat.cast_pow, Nat.cast_ofNat, ← zpow_natCast, ← zpow_add₀ (by norm_num)]
    congr 1
    unfold expo
    omega

theorem rnePos_eq {x : ℝ} (hx : 0 < x) :
    rnePos p x = rhe (x / (2 : ℝ) ^ expo p x) * (2 : ℝ) ^ expo p x := by
  unfold rnePos
  rw [if_neg hx.ne']

theorem rnePos_nonneg {x : ℝ} (hx : 0 ≤ x) : 0 ≤ rnePos p x := by
  rcases eq_or_lt_of_le hx with rfl | hx
  · unfold rnePos; rw [if_pos rfl]
  · rw [rnePos_eq hx]
    have h := rhe_nonneg (x := x / (2 : ℝ) ^ expo p x) (by positivity)
    have : (0 : ℝ) ≤ rhe (x / (2 : ℝ) ^ expo p x) := by exact_mod_cast h
    positivity

theorem rnePos_lower (hp : 1 ≤ p) {x : ℝ} (hx : 0 < x) :
    (2 : ℝ) ^ Int.log 2 x ≤ rnePos p x := by
  rw [rnePos_eq hx]
  have h := (scaled_bounds hp hx).1
  have h2 := rhe_mono h
  have h3 : rhe (((2 ^ (p - 1) : ℕ) : ℝ)) = ((2 ^ (p - 1) : ℕ) : ℤ) := by
    have := rhe_int ((2 ^ (p - 1) : ℕ) : ℤ)
    rwa [Int.cast_natCast] at this
  rw [h3] at h2
  have h4 : ((2 ^ (p - 1) : ℕ) : ℝ) ≤ (rhe (x / (2 : ℝ) ^ expo p x) : ℝ) := by exact_mod_cast h2
  refine le_trans (le_of_eq ?_) (mul_le_mul_of_nonneg_right h4 (two_pow_expo_pos x).le)
  rw [Nat.cast_pow, Nat.cast_ofNat, ← zpow_natCast, ← zpow_add₀ (by norm_num)]
  congr 1
  unfold expo
  omega

theorem rnePos_upper (hp : 1 ≤ p) {x : ℝ} (hx : 0 < x) :
    rnePos p x ≤ (2 : ℝ) ^ (Int.log 2 x + 1) := by
  rw [rnePos_eq hx]
  have h := (scaled_bounds hp hx).2.le
  have h2 := rhe_mono h
  have h3 : rhe (((2 ^ p : ℕ) : ℝ)) = ((2 ^ p : ℕ) : ℤ) := by
    have := rhe_int ((2 ^ p : ℕ) : ℤ)
    rwa [Int.cast_natCast] at this
  rw [h3] at h2
  have h4 : (rhe (x / (2 : ℝ) ^ expo p x) : ℝ) ≤ ((2 ^ p : ℕ) : ℝ) := by exact_mod_cast h2
  refine le_trans (mul_le_mul_of_nonneg_right h4 (two_pow_expo_pos x).le) (le_of_eq ?_)
  rw [Nat.cast_pow, Nat.cast_ofNat, ← zpow_natCast, ← zpow_add₀ (by norm_num)]
  congr 1
  unfold expo
  omega

theorem rnePos_mono (hp : 1 ≤ p) {x y : ℝ} (hx : 0 ≤ x) (h : x ≤ y) :
    rnePos p x ≤ rnePos p y := by
  rcases eq_or_lt_of_le hx with rfl | hx
  · have : rnePos p 0 = 0 := by unfold rnePos; rw [if_pos rfl]
    rw [this]
    exact rnePos_nonneg h
  have hy : 0 < y := hx.trans_le h
  have hl : Int.log 2 x ≤ Int.log 2 y := Int.log_mono_right hx h
  rcases eq_or_lt_of_le hl with hl | hl
  · have he : expo p x = expo p y := by unfold expo; rw [hl]
    rw [rnePos_eq hx, rnePos_eq hy, he]
    have hs := two_pow_expo_pos (p := p) y
    have : x / (2 : ℝ) ^ expo p y ≤ y / (2 : ℝ) ^ expo p y :=
      div_le_div_of_nonneg_right h hs.le
    have h2 : (rhe (x / (2 : ℝ) ^ expo p y) : ℝ) ≤ rhe (y / (2 : ℝ) ^ expo p y) := by
      exact_mod_cast rhe_mono this
    exact mul_le_mul_of_nonneg_right h2 hs.le
  · refine (rnePos_upper hp hx).trans (le_trans ?_ (rnePos_lower hp hy))
    exact zpow_le_zpow_right₀ (by norm_num) (by omega)

theorem rnePos_err (hp : 1 ≤ p) {x : ℝ} (hx : 0 ≤ x) :
    |rnePos p x - x| ≤ (2 : ℝ)⁻¹ ^ p * x := by
  rcases eq_or_lt_of_le hx with rfl | hx
  · unfold rnePos; simp
  have hs := two_pow_expo_pos (p := p) x
  rw [rnePos_eq hx]
  have h1 := rhe_err (x / (2 : ℝ) ^ expo p x)
  have h2 : rhe (x / (2 : ℝ) ^ expo p x) * (2 : ℝ) ^ expo p x - x
      = (rhe (x / (2 : ℝ) ^ expo p x) - x / (2 : ℝ) ^ expo p x) * (2 : ℝ) ^ expo p x := by
    rw [sub_mul, div_mul_cancel₀ _ hs.ne']
  rw [h2, abs_mul, abs_of_pos hs]
  have h3 := (scaled_bounds hp hx).1
  rw [le_div_iff₀ hs] at h3
  have h4 : (2 : ℝ)⁻¹ ^ p * ((2 ^ (p - 1) : ℕ) : ℝ) = 1 / 2 := by
    obtain ⟨m, rfl⟩ : ∃ m, p = m + 1 := ⟨p - 1, by omega⟩
    rw [Nat.add_sub_cancel, Nat.cast_pow, Nat.cast_ofNat, pow_succ, inv_pow]
    field_simp
  have hi : (0 : ℝ) < (2 : ℝ)⁻¹ ^ p := by positivity
  calc _ ≤ 1 / 2 * (2 : ℝ) ^ expo p x := mul_le_mul_of_nonneg_right h1 hs.le
    _ = (2 : ℝ)⁻¹ ^ p * (((2 ^ (p - 1) : ℕ) : ℝ) * (2 : ℝ) ^ expo p x) := by rw [← h4]; ring
    _ ≤ _ := mul_le_mul_of_nonneg_left h3 hi.le

theorem rne_of_nonneg {x : ℝ} (h : 0 ≤ x) : rne p x = rnePos p x := by
  unfold rne; rw [if_neg (not_lt.mpr h)]

theorem rne_neg (x : ℝ) : rne p (-x) = -rne p x := by
  unfold rne
  rcases lt_trichotomy x 0 with h | h | h
  · rw [if_neg (by linarith), if_pos h, neg_neg]
  · subst h
    simp [rnePos]
  · rw [if_pos (by linarith), if_neg (by linarith), neg_neg]

theorem rne_mono (hp : 1 ≤ p) : Monotone (rne p) := by
  intro x y h
  by_cases hx : 0 ≤ x
  · rw [rne_of_nonneg hx, rne_of_nonneg (hx.trans h)]
    exact rnePos_mono hp hx h
  · rw [not_le] at hx
    by_cases hy : 0 ≤ y
    · rw [rne_of_nonneg hy]
      have h1 := rnePos_nonneg (p := p) hy
      have h2 := rnePos_nonneg (p := p) (x := -x) (by linarith)
      unfold rne
      rw [if_pos hx]
      linarith
    · rw [not_le] at hy
      unfold rne
      rw [if_pos hx, if_pos hy, neg_le_neg_iff]
      exact rnePos_mono hp (by linarith) (by linarith)

/-- Rounding to nearest with `p` bits keeps the order and has relative error at most `2^-p`. -/
theorem isRounding_rne (hp : 1 ≤ p) : IsRounding ((2 : ℝ)⁻¹ ^ p) (rne p) := by
  refine ⟨⟨rne_mono hp, rne_neg⟩, fun x => ?_⟩
  by_cases hx : 0 ≤ x
  · rw [rne_of_nonneg hx, abs_of_nonneg hx]
    exact rnePos_err hp hx
  · rw [not_le] at hx
    unfold rne
    rw [if_pos hx]
    have := rnePos_err (p := p) hp (x := -x) (by linarith)
    rw [abs_of_neg hx, ← abs_neg]
    have h2 : -(-rnePos p (-x) - x) = rnePos p (-x) - -x := by ring
    rw [h2]
    exact this

/-- The floating-point numbers of `p` bits. -/
def Repr (p : ℕ) (x : ℝ) : Prop := ∃ (m e : ℤ), |m| < 2 ^ p ∧ x = m * (2 : ℝ) ^ e

/-- Every non-negative number is rounded to a nearest floating-point number. -/
theorem rnePos_nearest (hp : 1 ≤ p) {x y : ℝ} (hx : 0 ≤ x) (hy : Repr p y) :
    |rnePos p x - x| ≤ |y - x| := by
  rcases eq_or_lt_of_le hx with rfl | hx
  · unfold rnePos; simp
  obtain ⟨m, e, hm, rfl⟩ := hy
  have hs := two_pow_expo_pos (p := p) x
  have h2 : ∀ n : ℝ, n * (2 : ℝ) ^ expo p x - x
      = (n - x / (2 : ℝ) ^ expo p x) * (2 : ℝ) ^ expo p x := by
    intro n
    rw [sub_mul, div_mul_cancel₀ _ hs.ne']
  have key : ∀ n : ℤ, |rnePos p x - x| ≤ |(n : ℝ) * (2 : ℝ) ^ expo p x - x| := by
    intro n
    rw [rnePos_eq hx, h2, h2, abs_mul, abs_mul]
    exact mul_le_mul_of_nonneg_right (rhe_nearest _ n) (abs_nonneg _)
  rcases le_or_gt (expo p x) e with he | he
  · have h3 : (m : ℝ) * (2 : ℝ) ^ e
        = ((m * 2 ^ (e - expo p x).toNat : ℤ) : ℝ) * (2 : ℝ) ^ expo p x := by
      push_cast
      rw [mul_assoc, ← zpow_natCast, ← zpow_add₀ (by norm_num)]
      congr 2
      omega
    rw [h3]
    exact key _
  · -- a smaller exponent: the number is below the first number of the size of `x`
    have h4 : (m : ℝ) * (2 : ℝ) ^ e ≤ ((2 ^ (p - 1) : ℕ) : ℝ) * (2 : ℝ) ^ expo p x := by
      have h5 : (m : ℝ) ≤ (2 : ℝ) ^ p := by
        have : m ≤ 2 ^ p := (le_abs_self m).trans hm.le
        exact_mod_cast this
      calc (m : ℝ) * (2 : ℝ) ^ e ≤ (2 : ℝ) ^ p * (2 : ℝ) ^ e :=
            mul_le_mul_of_nonneg_right h5 (by positivity)
        _ = (2 : ℝ) ^ ((p : ℤ) + e) := by rw [zpow_add₀ (by norm_num), zpow_natCast]
        _ ≤ (2 : ℝ) ^ (((p - 1 : ℕ) : ℤ) + expo p x) :=
            zpow_le_zpow_right₀ (by norm_num) (by omega)
        _ = _ := by
            rw [zpow_add₀ (by norm_num), zpow_natCast, Nat.cast_pow, Nat.cast_ofNat]
    have h6 := (scaled_bounds hp hx).1
    rw [le_div_iff₀ hs] at h6
    have h7 := key ((2 ^ (p - 1) : ℕ) : ℤ)
    rw [Int.cast_natCast] at h7
    refine h7.trans ?_
    rw [abs_of_nonpos (by linarith), abs_of_nonpos (by linarith)]
    linarith

/-- `rne` rounds to a nearest floating-point number of `p` bits. -/
theorem rne_nearest (hp : 1 ≤ p) (x : ℝ) {y : ℝ} (hy : Repr p y) : |rne p x - x| ≤ |y - x| := by
  by_cases hx : 0 ≤ x
  · rw [rne_of_nonneg hx]
    exact rnePos_nearest hp hx hy
  · rw [not_le] at hx
    unfold rne
    rw [if_pos hx]
    have hy' : Repr p (-y) := by
      obtain ⟨m, e, hm, rfl⟩ := hy
      exact ⟨-m, e, by rwa [abs_neg], by push_cast; ring⟩
    have h := rnePos_nearest (p := p) hp (x := -x) (by linarith) hy'
    have e1 : -rnePos p (-x) - x = -(rnePos p (-x) - -x) := by ring
    have e2 : y - x = -(-y - -x) := by ring
    rw [e1, e2, abs_neg, abs_neg]
    exact h

/-- Floating-point numbers are not changed by rounding. -/
theorem rne_repr (hp : 1 ≤ p) {x : ℝ} (hx : Repr p x) : rne p x = x := by
  have := rne_nearest hp x hx
  rw [sub_self, abs_zero] at this
  exact sub_eq_zero.mp (abs_eq_zero.mp (le_antisymm this (abs_nonneg _)))

theorem repr_nat {n : ℕ} (h : n < 2 ^ p) : Repr p n :=
  ⟨n, 0, by rw [abs_of_nonneg (by positivity)]; exact_mod_cast h, by simp⟩

/-- Rounding of a number whose size is known. -/
theorem rne_eval {x : ℝ} (e : ℤ) (h1 : (2 : ℝ) ^ (e + ((p : ℤ) - 1)) ≤ x)
    (h2 : x < (2 : ℝ) ^ (e + p)) : rne p x = rhe (x / (2 : ℝ) ^ e) * (2 : ℝ) ^ e := by
  have hx : 0 < x := lt_of_lt_of_le (by positivity) h1
  have hl : Int.log 2 x = e + ((p : ℤ) - 1) := by
    apply le_antisymm
    · have := (Int.lt_zpow_iff_log_lt (b := 2) (by norm_num) hx (x := e + p)).mp
        (by rw [Nat.cast_ofNat]; exact h2)
      omega
    · exact (Int.zpow_le_iff_le_log (b := 2) (by norm_num) hx).mp
        (by rw [Nat.cast_ofNat]; exact h1)
  rw [rne_of_nonneg hx.le, rnePos_eq hx]
  have he : expo p x = e := by unfold expo; omega
  rw [he]

end

end Verif.Float
