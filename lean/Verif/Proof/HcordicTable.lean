import Verif.Model.Hcordic
import Verif.Proof.Pwl
import Mathlib.Analysis.SpecialFunctions.Log.Deriv

/-! # The tables and constants of the hyperbolic CORDIC against the logarithm -/

namespace Proof.Hcordic
open Ac Model.Hcordic

/-- Partial sums of the series of the inverse hyperbolic tangent. -/
def ath (x : ℚ) : ℕ → ℚ
  | 0 => 0
  | n + 1 => ath x n + x ^ (2 * n + 1) / (2 * n + 1)

theorem ath_eq (x : ℚ) (n : ℕ) : ((ath x n : ℚ) : ℝ) = ∑ i ∈ Finset.range n, (x : ℝ) ^ (2 * i + 1) / (2 * i + 1) := by
  induction n with
  | zero => simp [ath]
  | succ n ih => rw [Finset.sum_range_succ, ← ih]; simp [ath]

/-- Bound of the rest of the series. -/
def athRest (x : ℚ) (n : ℕ) : ℚ := x ^ (2 * n + 1) / (1 - x ^ 2)

theorem ath_near {x : ℚ} (h0 : 0 ≤ x) (h1 : x < 1) (n : ℕ) :
    |1 / 2 * Real.log ((1 + x) / (1 - x)) - ((ath x n : ℚ) : ℝ)| ≤ ((athRest x n : ℚ) : ℝ) := by
  have h0' : (0 : ℝ) ≤ (x : ℝ) := by exact_mod_cast h0
  have h1' : (x : ℝ) < 1 := by exact_mod_cast h1
  have := Real.sum_range_sub_log_div_le (x := (x : ℝ)) (by rwa [abs_of_nonneg h0']) n
  rw [abs_of_nonneg h0', ← ath_eq] at this
  unfold athRest
  push_cast
  exact this

theorem log2_near : |Real.log 2 - (ln2Raw : ℝ) / 2 ^ 159| ≤ 1 / 2 ^ 158 := by
  have h := ath_near (x := 1 / 3) (by norm_num) (by norm_num) 56
  have e : (1 + ((1 / 3 : ℚ) : ℝ)) / (1 - ((1 / 3 : ℚ) : ℝ)) = 2 := by norm_num
  rw [e] at h
  have hq : |2 * ath (1 / 3) 56 - (ln2Raw : ℚ) / 2 ^ 159| + 2 * athRest (1 / 3) 56 ≤ 1 / 2 ^ 158 := by decide +kernel
  have hq' := Rat.cast_le (K := ℝ) |>.2 hq
  rw [Rat.cast_add, Rat.cast_abs, Rat.cast_sub, Rat.cast_mul, Rat.cast_mul, Rat.cast_div, Rat.cast_div, Rat.cast_pow, Rat.cast_pow,
    Rat.cast_one, Rat.cast_ofNat, Rat.cast_intCast] at hq'
  generalize ((ath (1 / 3) 56 : ℚ) : ℝ) = s at *
  generalize ((athRest (1 / 3) 56 : ℚ) : ℝ) = r at *
  generalize (ln2Raw : ℝ) / 2 ^ 159 = l at *
  generalize (1 : ℝ) / 2 ^ 158 = d at *
  have t := abs_sub_le (Real.log 2) (2 * s) l
  have : |Real.log 2 - 2 * s| = 2 * |1 / 2 * Real.log 2 - s| := by
    rw [show Real.log 2 - 2 * s = 2 * (1 / 2 * Real.log 2 - s) by ring, abs_mul, abs_of_pos (by norm_num : (0 : ℝ) < 2)]
  linarith

/-- The angles of the rotations. -/
noncomputable def ang (s : ℕ) : ℝ := 1 / 2 * Real.log ((1 + 1 / 2 ^ s) / (1 - 1 / 2 ^ s))

def TA (i : ℕ) : ℤ := table.getD i 0
def TB (i : ℕ) : ℤ := tableInvLn2.getD i 0

def terms (i : ℕ) : ℕ := if i < 3 then 40 else 12

theorem ta_all : Proof.Pwl.allLt 57 (fun i => decide
    (|ath (1 / 2 ^ (i + 1)) (terms i) - (TA i : ℚ) / 2 ^ 63| + athRest (1 / 2 ^ (i + 1)) (terms i) ≤ 2 / 2 ^ 63)) = true := by
  decide +kernel

theorem ang_cast (i : ℕ) : 1 / 2 * Real.log ((1 + ((1 / 2 ^ (i + 1) : ℚ) : ℝ)) / (1 - ((1 / 2 ^ (i + 1) : ℚ) : ℝ))) = ang (i + 1) := by
  unfold ang; push_cast; rfl

theorem x_lt (i : ℕ) : (1 / 2 ^ (i + 1) : ℚ) < 1 := by
  rw [div_lt_one (by positivity)]
  exact one_lt_pow₀ (by norm_num) (by omega)

theorem ta_err {i : ℕ} (hi : i < 57) : |ang (i + 1) - (TA i : ℝ) / 2 ^ 63| ≤ 2 / 2 ^ 63 := by
  have h := ath_near (x := 1 / 2 ^ (i + 1)) (by positivity) (x_lt i) (terms i)
  rw [ang_cast] at h
  have hq := of_decide_eq_true (Proof.Pwl.allLt_iff.1 ta_all i hi)
  have hq' := Rat.cast_le (K := ℝ) |>.2 hq
  rw [Rat.cast_add, Rat.cast_abs, Rat.cast_sub, Rat.cast_div, Rat.cast_div, Rat.cast_pow, Rat.cast_ofNat, Rat.cast_intCast] at hq'
  have t := abs_sub_le (ang (i + 1)) ((ath (1 / 2 ^ (i + 1)) (terms i) : ℚ) : ℝ) ((TA i : ℝ) / 2 ^ 63)
  linarith

theorem tb_all : Proof.Pwl.allLt 57 (fun i => decide (0 ≤ TB i ∧ TB i < 2 ^ 63 ∧
    |ath (1 / 2 ^ (i + 1)) (terms i) - (TB i : ℚ) / 2 ^ 63 * ((ln2Raw : ℚ) / 2 ^ 159)| + athRest (1 / 2 ^ (i + 1)) (terms i) +
      1 / 2 ^ 158 ≤ 2 / 2 ^ 63)) = true := by
  decide +kernel

theorem tb_err {i : ℕ} (hi : i < 57) : |ang (i + 1) - (TB i : ℝ) / 2 ^ 63 * Real.log 2| ≤ 2 / 2 ^ 63 := by
  have h := ath_near (x := 1 / 2 ^ (i + 1)) (by positivity) (x_lt i) (terms i)
  rw [ang_cast] at h
  obtain ⟨h0, h1, hq⟩ := of_decide_eq_true (Proof.Pwl.allLt_iff.1 tb_all i hi)
  have hq' := Rat.cast_le (K := ℝ) |>.2 hq
  rw [Rat.cast_add, Rat.cast_add, Rat.cast_abs, Rat.cast_sub, Rat.cast_mul, Rat.cast_div, Rat.cast_div, Rat.cast_div, Rat.cast_div,
    Rat.cast_pow, Rat.cast_pow, Rat.cast_pow, Rat.cast_one, Rat.cast_ofNat, Rat.cast_intCast, Rat.cast_intCast] at hq'
  have h0' : (0 : ℝ) ≤ (TB i : ℝ) / 2 ^ 63 := div_nonneg (by exact_mod_cast h0) (by positivity)
  have h1' : (TB i : ℝ) / 2 ^ 63 ≤ 1 := by
    rw [div_le_one (by positivity)]
    exact_mod_cast h1.le
  have hl := log2_near
  set b := (TB i : ℝ) / 2 ^ 63
  set l := (ln2Raw : ℝ) / 2 ^ 159
  have t := abs_sub_le (ang (i + 1)) ((ath (1 / 2 ^ (i + 1)) (terms i) : ℚ) : ℝ) (b * Real.log 2)
  have t2 := abs_sub_le ((ath (1 / 2 ^ (i + 1)) (terms i) : ℚ) : ℝ) (b * l) (b * Real.log 2)
  have t3 : |b * l - b * Real.log 2| ≤ 1 / 2 ^ 158 := by
    rw [← mul_sub, abs_mul, abs_of_nonneg h0', abs_sub_comm]
    calc b * |Real.log 2 - l| ≤ 1 * |Real.log 2 - l| := mul_le_mul_of_nonneg_right h1' (abs_nonneg _)
      _ ≤ _ := by linarith
  linarith

theorem ta_range : Proof.Pwl.allLt 57 (fun i => decide (0 ≤ TA i ∧ TA i < 2 ^ 63)) = true := by decide +kernel

end Proof.Hcordic
