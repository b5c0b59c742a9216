import Mathlib.Analysis.Complex.ExponentialBounds
import Mathlib.Tactic.Linarith
import Mathlib.Tactic.FieldSimp

/-! # Bounds of exp at rational points by comparing integer powers -/

namespace Proof.ExpBound

theorem exp_pow (j n : ℕ) (hn : 0 < n) : Real.exp (j / n) ^ n = Real.exp 1 ^ j := by
  rw [← Real.exp_nat_mul, ← Real.exp_nat_mul]
  congr 1
  have : (n : ℝ) ≠ 0 := by positivity
  field_simp

theorem le_exp {j n a b : ℕ} (hn : 0 < n) (h : a ^ n * 10000000000 ^ j ≤ b ^ n * 27182818283 ^ j) :
    (a : ℝ) ≤ b * Real.exp (j / n) := by
  have h1 : (27182818283 / 10000000000 : ℝ) ^ j ≤ Real.exp 1 ^ j :=
    pow_le_pow_left₀ (by norm_num) (by have := Real.exp_one_gt_d9; norm_num at this ⊢; linarith) j
  rw [← exp_pow j n hn, div_pow, div_le_iff₀ (by positivity)] at h1
  have h2 : (a : ℝ) ^ n * 10000000000 ^ j ≤ (b : ℝ) ^ n * 27182818283 ^ j := by exact_mod_cast h
  have h3 : (a : ℝ) ^ n ≤ (b * Real.exp (j / n)) ^ n := by
    rw [mul_pow]
    have hp : (0 : ℝ) < 10000000000 ^ j := by positivity
    have h4 : (b : ℝ) ^ n * 27182818283 ^ j ≤ (b : ℝ) ^ n * (Real.exp (j / n) ^ n * 10000000000 ^ j) :=
      mul_le_mul_of_nonneg_left h1 (by positivity)
    refine le_of_mul_le_mul_right ?_ hp
    linarith
  exact le_of_pow_le_pow_left₀ hn.ne' (by positivity) h3

theorem exp_le {j n a b : ℕ} (hn : 0 < n) (h : b ^ n * 27182818286 ^ j ≤ a ^ n * 10000000000 ^ j) :
    b * Real.exp (j / n) ≤ (a : ℝ) := by
  have h1 : Real.exp 1 ^ j ≤ (27182818286 / 10000000000 : ℝ) ^ j :=
    pow_le_pow_left₀ (Real.exp_pos _).le (by have := Real.exp_one_lt_d9; norm_num at this ⊢; linarith) j
  rw [← exp_pow j n hn, div_pow, le_div_iff₀ (by positivity)] at h1
  have h2 : (b : ℝ) ^ n * 27182818286 ^ j ≤ (a : ℝ) ^ n * 10000000000 ^ j := by exact_mod_cast h
  have h3 : (b * Real.exp (j / n)) ^ n ≤ (a : ℝ) ^ n := by
    rw [mul_pow]
    have hp : (0 : ℝ) < 10000000000 ^ j := by positivity
    have h4 : (b : ℝ) ^ n * (Real.exp (j / n) ^ n * 10000000000 ^ j) ≤ (b : ℝ) ^ n * 27182818286 ^ j :=
      mul_le_mul_of_nonneg_left h1 (by positivity)
    refine le_of_mul_le_mul_right ?_ hp
    linarith
  exact le_of_pow_le_pow_left₀ hn.ne' (by positivity) h3

end Proof.ExpBound
