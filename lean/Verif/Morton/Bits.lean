import Mathlib.Tactic.IntervalCases
import Mathlib.Tactic.Linarith
import Verif.Morton.Model

set_option linter.unusedSectionVars false
set_option linter.unusedVariables false

namespace Verif.Morton

/-- Specification: the number whose binary digits are, from the lowest, the digits of `x`, `y`, `z` in
turn. -/
def interleave : ℕ → ℕ → ℕ → ℕ → ℕ
  | 0, _, _, _ => 0
  | b + 1, x, y, z =>
    x % 2 + 2 * (y % 2) + 4 * (z % 2) + 8 * interleave b (x / 2) (y / 2) (z / 2)

theorem testBit_shl (x k i : ℕ) : (shl x k).testBit i = (decide (i < 64) && (decide (k ≤ i) &&
    x.testBit (i - k))) := by
  unfold shl
  rw [Nat.testBit_mod_two_pow, Nat.testBit_shiftLeft]

theorem steps_bit_lt (x i : ℕ) (hi : i < 64) (hx : ∀ k, 16 ≤ k → x >>> k = 0) :
    (step4 (step3 (step2 (step1 x)))).testBit i = (decide (i % 3 = 0) && x.testBit (i / 3)) := by
  simp only [step1, step2, step3, step4, Nat.testBit_and, Nat.testBit_or, testBit_shl]
  interval_cases i <;> simp [Nat.testBit, hx]

theorem testBit_high (x k b : ℕ) (hx : x < 2 ^ b) (hk : b ≤ k) : x.testBit k = false :=
  Nat.testBit_lt_two_pow (lt_of_lt_of_le hx (Nat.pow_le_pow_right (by norm_num) hk))

theorem steps_bit (x i : ℕ) (hx : x < 2 ^ 16) :
    (step4 (step3 (step2 (step1 x)))).testBit i = (decide (i % 3 = 0) && x.testBit (i / 3)) := by
  by_cases hi : i < 64
  · refine steps_bit_lt x i hi fun k hk => ?_
    rw [Nat.shiftRight_eq_div_pow]
    exact Nat.div_eq_of_lt (lt_of_lt_of_le hx (Nat.pow_le_pow_right (by norm_num) hk))
  · rw [testBit_high x (i / 3) 16 hx (by omega), Bool.and_false]
    have : step4 (step3 (step2 (step1 x))) < 2 ^ 64 := by
      unfold step4
      exact lt_of_le_of_lt Nat.and_le_right (by norm_num)
    exact testBit_high _ i 64 this (by omega)

/-- The binary digits of the specification. -/
theorem interleave_bit (b x y z i : ℕ) : (interleave b x y z).testBit i =
    (decide (i < 3 * b) && (if i % 3 = 0 then x else if i % 3 = 1 then y else z).testBit (i / 3)) := by
  induction b generalizing x y z i with
  | zero => simp [interleave]
  | succ b ih =>
    rw [interleave]
    by_cases h3 : i < 3
    · have h0 : (x % 2 + 2 * (y % 2) + 4 * (z % 2) + 8 * interleave b (x / 2) (y / 2) (z / 2)).testBit i
          = (x % 2 + 2 * (y % 2) + 4 * (z % 2)).testBit i := by
        have h1 : (x % 2 + 2 * (y % 2) + 4 * (z % 2) + 8 * interleave b (x / 2) (y / 2) (z / 2)) % 2 ^ 3 =
          x % 2 + 2 * (y % 2) + 4 * (z % 2) := by omega
        conv_rhs => rw [← h1]
        rw [Nat.testBit_mod_two_pow, decide_eq_true h3, Bool.true_and]
      rw [h0, decide_eq_true (by omega : i < 3 * (b + 1)), Bool.true_and]
      have e : ∀ w : ℕ, w.testBit 0 = decide (w % 2 = 1) := fun w => by simp [Nat.testBit_zero]
      rcases (by omega : i = 0 ∨ i = 1 ∨ i = 2) with rfl | rfl | rfl
      · simp only [Nat.zero_mod, Nat.zero_div, if_true, e, decide_eq_decide]
        omega
      · rw [Nat.testBit_succ]
        simp only [e, decide_eq_decide, Nat.reduceMod, Nat.reduceDiv, one_ne_zero, if_true, if_false]
        omega
      · rw [Nat.testBit_succ, Nat.testBit_succ]
        simp only [e, decide_eq_decide, Nat.reduceMod, Nat.reduceDiv, OfNat.ofNat_ne_zero,
          OfNat.ofNat_ne_one, if_false]
        omega
    · have hi : i = (i - 3) + 3 := by omega
      have h1 : (x % 2 + 2 * (y % 2) + 4 * (z % 2) + 8 * interleave b (x / 2) (y / 2) (z / 2)).testBit i
          = (interleave b (x / 2) (y / 2) (z / 2)).testBit (i - 3) := by
        have h2 : (x % 2 + 2 * (y % 2) + 4 * (z % 2) + 8 * interleave b (x / 2) (y / 2) (z / 2)) / 2 ^ 3 =
          interleave b (x / 2) (y / 2) (z / 2) := by omega
        conv_rhs => rw [← h2]
        rw [Nat.testBit_div_two_pow]
        congr 1
      rw [h1, ih]
      have e1 : (i - 3) % 3 = i % 3 := by omega
      have e2 : i / 3 = (i - 3) / 3 + 1 := by omega
      rw [e1, e2]
      congr 1
      · rw [decide_eq_decide]
        omega
      · split
        · rw [Nat.testBit_succ]
        · split
          · rw [Nat.testBit_succ]
          · rw [Nat.testBit_succ]

theorem shift_ok (x : ℕ) (hx : x < 2 ^ 16) : shift x = .ok (step4 (step3 (step2 (step1 x)))) := by
  unfold shift maxRange
  rw [if_neg (by omega)]

theorem codeBits (x y z i : ℕ) (hx : x < 2 ^ 16) (hy : y < 2 ^ 16) (hz : z < 2 ^ 16) :
    (step4 (step3 (step2 (step1 x))) ||| shl (step4 (step3 (step2 (step1 y)))) 1 |||
      shl (step4 (step3 (step2 (step1 z)))) 2).testBit i = (interleave 16 x y z).testBit i := by
  rw [interleave_bit, Nat.testBit_or, Nat.testBit_or, testBit_shl, testBit_shl, steps_bit x _ hx,
    steps_bit y _ hy, steps_bit z _ hz]
  by_cases hi : i < 3 * 16
  · rw [decide_eq_true hi, decide_eq_true (by omega : i < 64), Bool.true_and, Bool.true_and,
      Bool.true_and]
    rcases (by omega : i % 3 = 0 ∨ i % 3 = 1 ∨ i % 3 = 2) with h | h | h
    · rw [decide_eq_true h, if_pos h]
      have h1 : (decide (1 ≤ i) && (decide ((i - 1) % 3 = 0) && y.testBit ((i - 1) / 3))) = false := by
        by_cases h0 : 1 ≤ i
        · rw [decide_eq_false (by omega : ¬ (i - 1) % 3 = 0)]
          simp
        · simp [h0]
      have h2 : (decide (2 ≤ i) && (decide ((i - 2) % 3 = 0) && z.testBit ((i - 2) / 3))) = false := by
        by_cases h0 : 2 ≤ i
        · rw [decide_eq_false (by omega : ¬ (i - 2) % 3 = 0)]
          simp
        · simp [h0]
      rw [h1, h2]
      simp
    · rw [if_neg (by omega), if_pos h, decide_eq_false (by omega : ¬ i % 3 = 0),
        decide_eq_true (by omega : 1 ≤ i), decide_eq_true (by omega : (i - 1) % 3 = 0),
        show (i - 1) / 3 = i / 3 by omega]
      have h2 : (decide (2 ≤ i) && (decide ((i - 2) % 3 = 0) && z.testBit ((i - 2) / 3))) = false := by
        by_cases h0 : 2 ≤ i
        · rw [decide_eq_false (by omega : ¬ (i - 2) % 3 = 0)]
          simp
        · simp [h0]
      rw [h2]
      simp
    · rw [if_neg (by omega), if_neg (by omega), decide_eq_false (by omega : ¬ i % 3 = 0),
        decide_eq_false (by omega : ¬ (i - 1) % 3 = 0), decide_eq_true (by omega : 2 ≤ i),
        decide_eq_true (by omega : (i - 2) % 3 = 0), show (i - 2) / 3 = i / 3 by omega]
      simp
  · have hz0 : ∀ w k : ℕ, w < 2 ^ 16 → 46 ≤ k → (decide (k % 3 = 0) && w.testBit (k / 3)) = false := by
      intro w k hw hk
      by_cases h0 : k % 3 = 0
      · rw [testBit_high w _ 16 hw (by omega), Bool.and_false]
      · rw [decide_eq_false h0, Bool.false_and]
    rw [decide_eq_false hi, hz0 x _ hx (by omega), hz0 y _ hy (by omega), hz0 z _ hz (by omega)]
    simp

theorem zorder3_eq (x y z : ℕ) (hx : x < 2 ^ 16) (hy : y < 2 ^ 16) (hz : z < 2 ^ 16) :
    zorder3 ![x, y, z] = .ok (interleave 16 x y z) := by
  unfold zorder3
  simp only [Matrix.cons_val_zero, Matrix.cons_val_one, Matrix.cons_val, shift_ok x hx, shift_ok y hy,
    shift_ok z hz, Except.bind, Except.map]
  exact congrArg Except.ok (Nat.eq_of_testBit_eq fun i => codeBits x y z i hx hy hz)

theorem zorder2_eq (x y : ℕ) (hx : x < 2 ^ 16) (hy : y < 2 ^ 16) :
    zorder2 ![x, y] = .ok (interleave 16 x y 0) := by
  unfold zorder2
  simp only [Matrix.cons_val_zero, Matrix.cons_val_one, shift_ok x hx, shift_ok y hy, Except.bind,
    Except.map]
  refine congrArg Except.ok (Nat.eq_of_testBit_eq fun i => ?_)
  have := codeBits x y 0 i hx hy (by norm_num)
  have h0 : shl (step4 (step3 (step2 (step1 0)))) 2 = 0 := by decide
  rwa [h0, Nat.or_zero] at this

theorem interleave_inj (b : ℕ) (x y z x' y' z' : ℕ) (hx : x < 2 ^ b) (hy : y < 2 ^ b) (hz : z < 2 ^ b)
    (hx' : x' < 2 ^ b) (hy' : y' < 2 ^ b) (hz' : z' < 2 ^ b)
    (h : interleave b x y z = interleave b x' y' z') : x = x' ∧ y = y' ∧ z = z' := by
  induction b generalizing x y z x' y' z' with
  | zero => simp only [Nat.pow_zero, Nat.lt_one_iff] at *; omega
  | succ b ih =>
    rw [interleave, interleave] at h
    rw [Nat.pow_succ] at hx hy hz hx' hy' hz'
    obtain ⟨h1, h2, h3⟩ := ih (x / 2) (y / 2) (z / 2) (x' / 2) (y' / 2) (z' / 2) (by omega) (by omega)
      (by omega) (by omega) (by omega) (by omega) (by omega)
    omega

theorem interleave_mono (b : ℕ) (x y z x' y' z' : ℕ) (hx : x ≤ x') (hy : y ≤ y') (hz : z ≤ z')
    (hx' : x' < 2 ^ b) (hy' : y' < 2 ^ b) (hz' : z' < 2 ^ b) :
    interleave b x y z ≤ interleave b x' y' z' := by
  induction b generalizing x y z x' y' z' with
  | zero => simp [interleave]
  | succ b ih =>
    rw [interleave, interleave]
    rw [Nat.pow_succ] at hx' hy' hz'
    have h1 := ih (x / 2) (y / 2) (z / 2) (x' / 2) (y' / 2) (z' / 2) (by omega) (by omega)
      (by omega) (by omega) (by omega) (by omega)
    rcases Nat.lt_or_eq_of_le h1 with h | h
    · omega
    · obtain ⟨h2, h3, h4⟩ := interleave_inj b _ _ _ _ _ _ (by omega) (by omega) (by omega) (by omega)
        (by omega) (by omega) h
      omega

/-- Dropping the lowest `k` digits of the cells drops the lowest `3k` digits of the code. -/
theorem interleave_div (b k x y z : ℕ) (hk : k ≤ b) :
    interleave b x y z / 8 ^ k = interleave (b - k) (x / 2 ^ k) (y / 2 ^ k) (z / 2 ^ k) := by
  induction k generalizing b x y z with
  | zero => simp
  | succ k ih =>
    obtain ⟨b, rfl⟩ : ∃ b', b = b' + 1 := ⟨b - 1, by omega⟩
    rw [Nat.pow_succ', ← Nat.div_div_eq_div_mul]
    have h1 : interleave (b + 1) x y z / 8 = interleave b (x / 2) (y / 2) (z / 2) := by
      rw [interleave]
      omega
    rw [h1, ih b (x / 2) (y / 2) (z / 2) (by omega)]
    simp only [Nat.div_div_eq_div_mul, ← Nat.pow_succ', Nat.add_sub_add_right]

end Verif.Morton
