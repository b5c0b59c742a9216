import Verif.Proof.Sigmoid
import Verif.Proof.ExpBound
import Verif.Proof.Sandwich
import Verif.Spec.Logistic

/-! # Error of the PWL sigmoid -/

namespace Proof.Sigmoid
open Ac Model.Pwl Proof.Pwl Proof.ExpBound Spec

theorem logistic_eq (x : ℝ) : logistic x = Real.exp x / (Real.exp x + 1) := by
  unfold logistic
  rw [Real.exp_neg]
  have := Real.exp_pos x
  field_simp

theorem logistic_mono {x y : ℝ} (h : x ≤ y) : logistic x ≤ logistic y := by
  unfold logistic
  have h1 : Real.exp (-y) ≤ Real.exp (-x) := Real.exp_le_exp.2 (by linarith)
  have := Real.exp_pos (-y)
  exact one_div_le_one_div_of_le (by linarith) (by linarith)

theorem logistic_neg (x : ℝ) : logistic (-x) = 1 - logistic x := by
  rw [logistic_eq x]
  unfold logistic
  rw [neg_neg]
  have := Real.exp_pos x
  field_simp
  ring

theorem logistic_lt_one (x : ℝ) : logistic x < 1 := by
  unfold logistic
  have := Real.exp_pos (-x)
  rw [div_lt_one (by linarith)]; linarith

/-- Raw output at the input `j / 256`. -/
def gridRaw (j : ℕ) : ℕ := (segRaw sigM sigC 10 (4 * j * 819 / 512)).toNat

theorem seg_grid (j : ℕ) (hj : j ≤ 1280) : seg (j / 256) = gridRaw j / 2 ^ 20 := by
  have h1 : trunc 10 ((j : ℚ) / 256) = 4 * j / 2 ^ 10 := by
    unfold trunc
    rw [show (j : ℚ) / 256 * 2 ^ 10 = ((4 * j : ℤ) : ℚ) by push_cast; ring, Int.floor_intCast]; push_cast; rfl
  have h2 : sc (j / 256) = ((4 * j * 819 / 512 : ℕ) : ℤ) / 2 ^ 10 := by
    unfold sc
    rw [h1]
    unfold trunc
    rw [show (4 * j : ℚ) / 2 ^ 10 * (819 / 512) * 2 ^ 10 = ((4 * j * 819 : ℤ) : ℚ) / (512 : ℕ) by push_cast; ring,
      Rat.floor_intCast_div_natCast]
    push_cast; rfl
  unfold seg
  rw [h2, pw_tab]
  unfold gridRaw
  have h3 : 0 ≤ segRaw sigM sigC 10 (4 * j * 819 / 512) :=
    (segRaw_lt (p := 10) (N := 8) (by norm_num; omega) (by decide +kernel)).1
  rw [show ((10 : ℕ) + 10) = 20 from rfl]
  congr 1
  exact_mod_cast (Int.toNat_of_nonneg h3).symm

/-- The two comparisons at grid point `j`. -/
def check (j : ℕ) : Bool :=
  Nat.ble ((gridRaw (j + 1) - 4096) ^ 256 * 10000000000 ^ j) ((2 ^ 20 + 4096 - gridRaw (j + 1)) ^ 256 * 27182818283 ^ j) &&
  Nat.ble ((2 ^ 20 - (gridRaw j + 4096)) ^ 256 * 27182818286 ^ (j + 1)) ((gridRaw j + 4096) ^ 256 * 10000000000 ^ (j + 1))

theorem check_all : ∀ j < 1280, check j = true := by
  rw [← allLt_iff]
  decide +kernel

theorem gridRaw_lt {j : ℕ} (hj : j ≤ 1280) : gridRaw j < 2 ^ 20 := by
  have := (segRaw_lt (m := sigM) (c := sigC) (p := 10) (N := 8) (n := 10) (k := 4 * j * 819 / 512) (by norm_num; omega)
    (by decide +kernel)).2
  unfold gridRaw
  zify at this ⊢
  rw [Int.toNat_of_nonneg]
  · exact this
  · exact (segRaw_lt (p := 10) (N := 8) (by norm_num; omega) (by decide +kernel)).1

/-- `a / 2^20 - 1/256` below the logistic function, from the comparison of powers. -/
theorem le_logistic {a b j : ℕ} (ha : a ≤ 2 ^ 20)
    (h : (a - b) ^ 256 * 10000000000 ^ j ≤ (2 ^ 20 + b - a) ^ 256 * 27182818283 ^ j) :
    (a : ℝ) / 2 ^ 20 ≤ logistic ((j : ℕ) / (256 : ℕ)) + b / 2 ^ 20 := by
  have c1 := le_exp (n := 256) (by norm_num) h
  have hE := Real.exp_pos ((j : ℝ) / (256 : ℕ))
  rw [Nat.cast_sub (show a ≤ 2 ^ 20 + b by omega)] at c1
  have a1 : (a : ℝ) - b ≤ ((a - b : ℕ) : ℝ) := by
    have : ((a : ℕ) : ℝ) ≤ ((a - b + b : ℕ) : ℝ) := by exact_mod_cast (by omega : a ≤ a - b + b)
    push_cast at this; linarith
  rw [logistic_eq, ← sub_le_iff_le_add, ← sub_div, div_le_div_iff₀ (by norm_num) (by linarith)]
  push_cast at c1 ⊢
  norm_num at c1 a1 ⊢
  linarith

theorem logistic_le {a b j : ℕ} (h : (2 ^ 20 - (a + b)) ^ 256 * 27182818286 ^ j ≤ (a + b) ^ 256 * 10000000000 ^ j) :
    logistic ((j : ℕ) / (256 : ℕ)) ≤ (a : ℝ) / 2 ^ 20 + b / 2 ^ 20 := by
  have c2 := exp_le (n := 256) (by norm_num) h
  have hE := Real.exp_pos ((j : ℝ) / (256 : ℕ))
  rw [← add_div]
  rcases le_or_gt (2 ^ 20) (a + b) with hb | hb
  · have h1 := logistic_lt_one ((j : ℝ) / (256 : ℕ))
    have h4 : ((2 ^ 20 : ℕ) : ℝ) ≤ ((a + b : ℕ) : ℝ) := by exact_mod_cast hb
    push_cast at h4
    refine le_trans h1.le ?_
    rw [le_div_iff₀ (by norm_num)]; linarith
  · rw [Nat.cast_sub hb.le] at c2
    rw [logistic_eq, div_le_div_iff₀ (by linarith) (by norm_num)]
    push_cast at c2 ⊢
    norm_num at c2 ⊢
    linarith

theorem seg_err {u : ℚ} (h0 : 0 ≤ u) (h : u < 5) : |(seg u : ℝ) - logistic u| ≤ 1 / 256 := by
  refine sandwich (n := 256) (N := 1280) (by norm_num) (fun u v h0 h h1 => seg_mono h0 h (by norm_num at h1; exact h1))
    (fun u v _ h _ => logistic_mono h) ?_ ?_ h0 (by norm_num; exact h)
  · intro j hj
    have hc := check_all j hj
    unfold check at hc
    rw [Bool.and_eq_true, Nat.ble_eq, Nat.ble_eq] at hc
    have := le_logistic (gridRaw_lt (j := j + 1) hj).le hc.1
    have e := seg_grid (j + 1) hj
    rw [show ((256 : ℕ) : ℚ) = 256 by norm_num, e]
    push_cast at this ⊢
    norm_num at this ⊢
    linarith
  · intro j hj
    have hc := check_all j hj
    unfold check at hc
    rw [Bool.and_eq_true, Nat.ble_eq, Nat.ble_eq] at hc
    have := logistic_le hc.2
    rw [show ((256 : ℕ) : ℚ) = 256 by norm_num, seg_grid j hj.le]
    push_cast at this ⊢
    norm_num at this ⊢
    linarith

theorem mag_err {u : ℚ} (h0 : 0 ≤ u) : |(mag u : ℝ) - logistic u| ≤ 7 / 1000 := by
  unfold mag
  split_ifs with h
  · have h1 : logistic 5 ≤ logistic u := logistic_mono (by exact_mod_cast h)
    have h2 := logistic_lt_one (u : ℝ)
    have h3 : (993 : ℝ) / 1000 ≤ logistic 5 := by
      have := le_exp (j := 5) (n := 1) (a := 993) (b := 7) (by norm_num) (by norm_num)
      norm_num at this
      rw [logistic_eq]
      have e := Real.exp_pos 5
      rw [div_le_div_iff₀ (by norm_num) (by linarith)]
      linarith
    rw [abs_le]
    push_cast
    constructor <;> norm_num <;> linarith
  · have := seg_err h0 (by linarith)
    linarith

end Proof.Sigmoid
