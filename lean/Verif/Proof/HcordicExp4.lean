import Verif.Proof.HcordicExp3
import Verif.Proof.HcordicExpSmall
import Mathlib.Analysis.SpecialFunctions.Exponential
import Mathlib.Analysis.Complex.ExponentialBounds

/-! # The error of the reduced exponential for every width -/

namespace Proof.Hcordic
open Ac Model.Hcordic

theorem last_all : Proof.Pwl.allLt 46 (fun f => decide (f < 14) || decide (eo f (zIn f (2 ^ f - 1)) + 1 ≤ 2 ^ (f + 1))) = true := by
  decide +kernel

theorem lf_all : Proof.Pwl.allLt 46 (fun f => decide (0 ≤ ln2Raw / 2 ^ (159 - f) ∧ ln2Raw / 2 ^ (159 - f) ≤ 2 ^ f)) = true := by
  decide +kernel

theorem exp_two_pow (a : ℝ) : Real.exp (a * Real.log 2) = 2 ^ a := by
  rw [Real.rpow_def_of_pos (by norm_num)]; congr 1; ring

/-- The truncated product of the input and `ln2`. -/
theorem zIn_near {f : ℕ} (h45 : f ≤ 45) {X : ℕ} (hX : X < 2 ^ f) :
    (X : ℝ) / 2 ^ f * Real.log 2 - 2.01 * (1 / 2 ^ f) ≤ (zIn f X : ℝ) * (1 / 2 ^ f) ∧
    (zIn f X : ℝ) * (1 / 2 ^ f) ≤ (X : ℝ) / 2 ^ f * Real.log 2 + 0.01 * (1 / 2 ^ f) := by
  have d1 := div_near ln2Raw (159 - f)
  set lf := ln2Raw / 2 ^ (159 - f) with hlf
  have d2 := div_near ((X : ℤ) * lf) f
  have hl := log2_near
  obtain ⟨l0, l1⟩ := abs_le.1 hl
  have hpf : (0 : ℝ) < 2 ^ f := by positivity
  set u : ℝ := 1 / 2 ^ f with hu
  have hu0 : 0 < u := by positivity
  have tiny : (1 : ℝ) / 2 ^ 158 ≤ 0.01 * u := by
    have : (1 : ℝ) / 2 ^ 45 ≤ u := by
      rw [hu]; exact one_div_le_one_div_of_le (by positivity) (pow_le_pow_right₀ (by norm_num) h45)
    have : (1 : ℝ) / 2 ^ 158 ≤ 0.01 * (1 / 2 ^ 45) := by norm_num
    linarith
  have e1 : (ln2Raw : ℝ) * (1 / 2 ^ (159 - f)) * u = (ln2Raw : ℝ) / 2 ^ 159 := by
    rw [hu, show (2 : ℝ) ^ 159 = 2 ^ (159 - f) * 2 ^ f by rw [← pow_add]; congr 1; omega]
    field_simp
  have a1 : (lf : ℝ) * u ≤ (ln2Raw : ℝ) / 2 ^ 159 := by
    have := mul_le_mul_of_nonneg_right d1.2 hu0.le; linarith
  have a0 : (ln2Raw : ℝ) / 2 ^ 159 - u ≤ (lf : ℝ) * u := by
    have := mul_le_mul_of_nonneg_right d1.1 hu0.le; linarith
  have hx0 : 0 ≤ (X : ℝ) * u := by positivity
  have hx1 : (X : ℝ) * u ≤ 1 := by
    rw [hu, mul_one_div, div_le_one hpf]; exact_mod_cast hX.le
  have z1 : (zIn f X : ℝ) * u ≤ (X : ℝ) * u * ((lf : ℝ) * u) := by
    have := mul_le_mul_of_nonneg_right d2.2 hu0.le
    unfold zIn
    rw [← hlf]
    push_cast at this ⊢
    linarith
  have z0 : (X : ℝ) * u * ((lf : ℝ) * u) - u ≤ (zIn f X : ℝ) * u := by
    have := mul_le_mul_of_nonneg_right d2.1 hu0.le
    unfold zIn
    rw [← hlf]
    push_cast at this ⊢
    linarith
  have ex : (X : ℝ) / 2 ^ f = X * u := by rw [hu]; ring
  rw [ex]
  have m1 := mul_le_mul_of_nonneg_left (show (lf : ℝ) * u ≤ Real.log 2 + 1 / 2 ^ 158 by linarith) hx0
  have m0 := mul_le_mul_of_nonneg_left (show Real.log 2 - 1 / 2 ^ 158 - u ≤ (lf : ℝ) * u by linarith) hx0
  have m2 : (X : ℝ) * u * (1 / 2 ^ 158) ≤ 1 * (1 / 2 ^ 158) := mul_le_mul_of_nonneg_right hx1 (by positivity)
  have m3 : (X : ℝ) * u * u ≤ 1 * u := mul_le_mul_of_nonneg_right hx1 hu0.le
  constructor <;> nlinarith

theorem zIn_abs {f : ℕ} (h45 : f ≤ 45) {X : ℕ} (hX : X < 2 ^ f) : |zIn f X| ≤ 2 ^ f := by
  obtain ⟨a, b⟩ := of_decide_eq_true (Proof.Pwl.allLt_iff.1 lf_all f (by omega))
  unfold zIn
  have h0 : 0 ≤ (X : ℤ) * (ln2Raw / 2 ^ (159 - f)) := mul_nonneg (by positivity) a
  rw [abs_of_nonneg (Int.ediv_nonneg h0 (by positivity))]
  apply Int.ediv_le_of_le_mul (by positivity)
  exact mul_le_mul (by exact_mod_cast hX.le) b a (by positivity)

theorem exp_neg_le {t : ℝ} (h0 : 0 ≤ t) (h1 : t ≤ 1) : Real.exp (-t) ≤ 1 - t + t ^ 2 := by
  have h := Real.add_one_le_exp t
  have h2 : Real.exp (-t) * Real.exp t = 1 := by rw [← Real.exp_add]; simp
  have h3 := mul_le_mul_of_nonneg_left h (Real.exp_pos (-t)).le
  rw [h2] at h3
  by_contra hc
  push Not at hc
  have h4 : (1 - t + t ^ 2) * (t + 1) < Real.exp (-t) * (t + 1) := mul_lt_mul_of_pos_right hc (by linarith)
  have h5 : 0 ≤ t ^ 3 := by positivity
  nlinarith

theorem goodZ_all {f X : ℕ} (h3 : 3 ≤ f) (h45 : f ≤ 45) (hX : X < 2 ^ f) : GoodZ f X := by
  by_cases h13 : f ≤ 13
  · exact small_all h3 h13 hX
  have h14 : 14 ≤ f := by omega
  obtain ⟨n0, n1⟩ := zIn_near h45 hX
  have hZ := zIn_abs h45 hX
  have hpf : (0 : ℝ) < 2 ^ f := by positivity
  set u : ℝ := 1 / 2 ^ f with hu
  have hu0 : 0 < u := by positivity
  have hu1 : u ≤ 1 / 16384 := by
    rw [hu, show (16384 : ℝ) = 2 ^ 14 by norm_num]
    exact one_div_le_one_div_of_le (by positivity) (pow_le_pow_right₀ (by norm_num) h14)
  have hx1 : (X : ℝ) / 2 ^ f ≤ 1 := by rw [div_le_one hpf]; exact_mod_cast hX.le
  have hx0 : 0 ≤ (X : ℝ) / 2 ^ f := by positivity
  have hlog : 0 < Real.log 2 := Real.log_pos (by norm_num)
  have hE : Real.exp ((X : ℝ) / 2 ^ f * Real.log 2) ≤ 2 := by
    rw [exp_two_pow]
    calc (2 : ℝ) ^ ((X : ℝ) / 2 ^ f) ≤ 2 ^ (1 : ℝ) := Real.rpow_le_rpow_of_exponent_le (by norm_num) hx1
      _ = 2 := by norm_num
  have hT0 : 0 ≤ (X : ℝ) / 2 ^ f * Real.log 2 := mul_nonneg hx0 hlog.le
  obtain ⟨e0, e1⟩ := eo_err h14 h45 hZ hE (by linarith) n0 n1
  rw [exp_two_pow] at e0 e1
  set o := eo f (zIn f X) with ho
  have hone : (1 : ℝ) ≤ 2 ^ ((X : ℝ) / 2 ^ f) := Real.one_le_rpow (by norm_num) hx0
  have ou : (o : ℝ) * (1 / 2 ^ f) = (o : ℝ) / 2 ^ f := by ring
  have uf : u * 2 ^ f = 1 := by rw [hu]; field_simp
  refine ⟨hZ, ?_, ?_, ?_, ?_⟩
  · rw [← ho]
    have h1 : 0 ≤ (o : ℝ) * u := by linarith
    have h2 := nonneg_of_mul_nonneg_left h1 hu0
    exact_mod_cast h2
  · rw [← ho]
    by_cases hl : X = 2 ^ f - 1
    · have := Proof.Pwl.allLt_iff.1 last_all f (by omega)
      rw [Bool.or_eq_true] at this
      rcases this with h | h
      · exact absurd (of_decide_eq_true h) (by omega)
      · have h := of_decide_eq_true h
        rw [ho, hl]
        have e : ((2 ^ f - 1 : ℕ) : ℤ) = 2 ^ f - 1 := by
          rw [Nat.cast_sub (Nat.one_le_two_pow)]; push_cast; rfl
        rw [e]; exact h
    · have hX2 : X + 2 ≤ 2 ^ f := by omega
      have hX3 : (X : ℝ) / 2 ^ f ≤ 1 - 2 * u := by
        have : (X : ℝ) + 2 ≤ 2 ^ f := by exact_mod_cast hX2
        rw [div_le_iff₀ hpf]
        nlinarith
      have h1 : (2 : ℝ) ^ ((X : ℝ) / 2 ^ f) ≤ 2 ^ (1 - 2 * u) := Real.rpow_le_rpow_of_exponent_le (by norm_num) hX3
      have h2 : (2 : ℝ) ^ (1 - 2 * u) = 2 * Real.exp (-(2 * u * Real.log 2)) := by
        rw [← exp_two_pow, sub_mul, one_mul, sub_eq_add_neg, Real.exp_add, Real.exp_log (by norm_num)]
      have l0 := Real.log_two_gt_d9
      have l1 := Real.log_two_lt_d9
      have h3 : 1.386 * u ≤ 2 * u * Real.log 2 := by nlinarith
      have h3' : Real.exp (-(2 * u * Real.log 2)) ≤ Real.exp (-(1.386 * u)) := Real.exp_le_exp.2 (by linarith)
      have h4 := exp_neg_le (t := 1.386 * u) (by linarith) (by linarith)
      have h5 : (o : ℝ) * u < 2 := by
        have : (1.386 * u) ^ 2 ≤ 0.01 * u := by nlinarith
        linarith
      have h6 : (o : ℝ) < 2 * 2 ^ f := by
        have := mul_lt_mul_of_pos_right h5 hpf
        rwa [mul_assoc, uf, mul_one] at this
      have h7 : (o : ℤ) < 2 ^ (f + 1) := by
        have : ((o : ℤ) : ℝ) < ((2 ^ (f + 1) : ℤ) : ℝ) := by push_cast; rw [pow_succ]; linarith
        exact_mod_cast this
      omega
  · rw [← ho, add_div]
    have : (11 : ℝ) / 2 ^ f = 11 * u := by rw [hu]; ring
    rw [this, ← ou]; linarith
  · rw [← ho, sub_div]
    have : (5 / 2 : ℝ) / 2 ^ f = 5 / 2 * u := by rw [hu]; ring
    rw [this, ← ou]; linarith

end Proof.Hcordic
