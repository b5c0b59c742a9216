import Verif.Proof.Atan2
import Mathlib.Analysis.Real.Pi.Bounds

/-! # The quadrant correction of the CORDIC arctangent of two arguments -/

namespace Proof.Atan2
open Ac Model.Atan2 Proof.Cordic

variable {fy fx t : Fmt}

theorem mPi_near : |Real.pi - ((mPi : ℚ) : ℝ)| ≤ 1 / 2 ^ 52 := by
  have h1 := Real.pi_gt_d20
  have h2 := Real.pi_lt_d20
  unfold mPi
  push_cast
  rw [abs_le]
  constructor <;> norm_num <;> linarith

/-- One unit of the accumulator. -/
theorem acc_unit (h : Out t) : (2 : ℝ) ^ (-(accFmt t).F) ≤ 1 / 2 ^ n t / 8 := by
  obtain ⟨h1, h2, h3, h4, h5⟩ := sizes h
  obtain ⟨a1, -, -⟩ := accF h
  have hL : 4 ≤ L t := by
    unfold L logIter
    split_ifs <;> decide
  rw [a1, zpow_neg, show ((n t : ℤ) + L t + 1) = ((n t + L t + 1 : ℕ) : ℤ) by push_cast; rfl, zpow_natCast, div_div, one_div]
  refine inv_anti₀ (by positivity) ?_
  rw [show (8 : ℝ) = 2 ^ 3 by norm_num, ← pow_add]
  exact pow_le_pow_right₀ (by norm_num) (by omega)

theorem acc_cvt (h : Out t) {v : ℚ} (hv : |v| ≤ 7 / 2) : (∃ A, (accFmt t).cvt v = (accFmt t).val A) ∧
    |(((accFmt t).cvt v : ℚ) : ℝ) - ((v : ℚ) : ℝ)| ≤ 1 / 2 ^ n t / 8 := by
  refine ⟨⟨_, rfl⟩, ?_⟩
  obtain ⟨h1, h2, h3, h4, h5⟩ := sizes h
  obtain ⟨a1, a2, -⟩ := accF h
  have hp : (2 : ℚ) ^ (accFmt t).F * 8 = 2 * ((2 ^ ((accFmt t).W - 1) : ℤ) : ℚ) := by
    rw [a1, a2, show ((n t : ℤ) + L t + 1) = ((n t + L t + 1 : ℕ) : ℤ) by push_cast; rfl, zpow_natCast,
      show n t + L t + 4 - 1 = n t + L t + 1 + 2 by omega, pow_add _ _ 2]
    push_cast; ring
  have hbig : (16 : ℚ) ≤ 2 ^ (accFmt t).F := by
    rw [a1, show ((n t : ℤ) + L t + 1) = ((n t + L t + 1 : ℕ) : ℤ) by push_cast; rfl, zpow_natCast]
    calc (16 : ℚ) = 2 ^ 4 := by norm_num
      _ ≤ _ := pow_le_pow_right₀ (by norm_num) (by omega)
  obtain ⟨v1, v2⟩ := abs_le.1 hv
  have hu := Fmt.z_pos (accFmt t).F
  have m1 := mul_le_mul_of_nonneg_right v1 hu.le
  have m2 := mul_le_mul_of_nonneg_right v2 hu.le
  have key : |(accFmt t).cvt v - v| < 2 ^ (-(accFmt t).F) := by
    have := Fmt.cvt_err (R := ℚ) (f := accFmt t) (x := v) (by omega) (by
      have : loRaw (accFmt t).W (accFmt t).S (accFmt t).O = -2 ^ ((accFmt t).W - 1) := by
        simp [loRaw, accFmt, minRaw]
      rw [this, Int.cast_neg]; linarith) (by
      have : maxRaw (accFmt t).W (accFmt t).S = 2 ^ ((accFmt t).W - 1) - 1 := by
        simp [accFmt, maxRaw]
      rw [this, Int.cast_sub, Int.cast_one]; linarith)
    simpa using this
  have k2 := Rat.cast_lt (K := ℝ) |>.2 key
  rw [Rat.cast_abs, Rat.cast_sub, Rat.cast_zpow, Rat.cast_ofNat] at k2
  exact le_trans k2.le (acc_unit h)

theorem arg_flip {y x : ℚ} (hx : x < 0) (hy : y ≠ 0) :
    Complex.arg ((x : ℝ) + (y : ℝ) * Complex.I) = (if y < 0 then -Real.pi else Real.pi) - Complex.arg (zc y x) := by
  set z : ℂ := (x : ℝ) + (y : ℝ) * Complex.I with hz
  have hre : z.re = x := by simp [hz]
  have him : z.im = y := by simp [hz]
  have e : zc y x = -(starRingEnd ℂ) z := by
    apply Complex.ext
    · simp [zc, hre, abs_of_neg hx]
    · simp [zc, him]
  have hne : Complex.arg z ≠ Real.pi := by
    intro hc
    rw [Complex.arg_eq_pi_iff, him] at hc
    exact hy (by exact_mod_cast hc.2)
  have hconj : Complex.arg ((starRingEnd ℂ) z) = -Complex.arg z := by
    rw [Complex.arg_conj, if_neg hne]
  rw [e]
  split_ifs with c
  · rw [Complex.arg_neg_eq_arg_sub_pi_of_im_pos, hconj]
    · ring
    · rw [Complex.conj_im, him]; have : (y : ℝ) < 0 := by exact_mod_cast c
      linarith
  · rw [Complex.arg_neg_eq_arg_add_pi_of_im_neg, hconj]
    · ring
    · rw [Complex.conj_im, him]
      have : (0 : ℝ) < y := by exact_mod_cast lt_of_le_of_ne (not_lt.1 c) (Ne.symm hy)
      linarith

theorem axes (h : Out t) {y x : ℚ} (hz : y = 0 ∨ x = 0) (acc : ℚ) :
    |((fix t y x acc : ℚ) : ℝ) - Complex.arg ((x : ℝ) + (y : ℝ) * Complex.I)| ≤ 1 / 2 ^ n t / 8 + 1 / 2 ^ 52 := by
  have hp : (0 : ℝ) ≤ 1 / 2 ^ n t / 8 := by positivity
  have near := mPi_near
  have hm : |mPi| ≤ 7 / 2 := by unfold mPi; norm_num [abs_of_pos]
  have hm2 : |mPi / 2| ≤ 7 / 2 := by unfold mPi; norm_num [abs_of_pos]
  have hm3 : |-mPi / 2| ≤ 7 / 2 := by rw [neg_div, abs_neg]; exact hm2
  unfold fix
  simp only []
  by_cases hy : y = 0
  · subst hy
    rw [if_pos rfl]
    simp only [Rat.cast_zero, Complex.ofReal_zero, zero_mul, add_zero]
    split_ifs with c
    · rw [Complex.arg_ofReal_of_neg (by exact_mod_cast c)]
      have := (acc_cvt h hm).2
      rw [abs_le] at this near ⊢
      constructor <;> linarith
    · rw [Complex.arg_ofReal_of_nonneg (by exact_mod_cast not_lt.1 c)]
      have := (acc_cvt h (v := 0) (by norm_num)).2
      rw [Rat.cast_zero] at this
      have : (0 : ℝ) ≤ 1 / 2 ^ 52 := by norm_num
      linarith
  · have hx : x = 0 := by tauto
    subst hx
    rw [if_neg hy, if_pos rfl]
    have e : (((0 : ℚ) : ℝ) : ℂ) + ((y : ℚ) : ℝ) * Complex.I = ((y : ℝ) : ℂ) * Complex.I := by simp
    rw [e]
    split_ifs with c
    · have hc : (y : ℝ) < 0 := by exact_mod_cast c
      have : Complex.arg (((y : ℝ) : ℂ) * Complex.I) = -(Real.pi / 2) := by
        rw [show ((y : ℝ) : ℂ) * Complex.I = ((-y : ℝ) : ℂ) * (-Complex.I) by push_cast; ring,
          Complex.arg_real_mul _ (by linarith), Complex.arg_neg_I]
      rw [this]
      have := (acc_cvt h hm3).2
      push_cast at this
      rw [abs_le] at this near ⊢
      constructor <;> linarith
    · have hc : (0 : ℝ) < y := by exact_mod_cast lt_of_le_of_ne (not_lt.1 c) (Ne.symm hy)
      rw [Complex.arg_real_mul _ hc, Complex.arg_I]
      have := (acc_cvt h hm2).2
      push_cast at this
      rw [abs_le] at this near ⊢
      constructor <;> linarith

theorem norm_zc (y x : ℚ) : ‖zc y x‖ = ‖((x : ℝ) + (y : ℝ) * Complex.I : ℂ)‖ := by
  unfold zc
  rw [Complex.norm_add_mul_I, Complex.norm_add_mul_I]
  push_cast
  rw [sq_abs]

/-- The error before the assignment to the output. -/
theorem main (h : Out t) {y x : ℚ} (hx : |x| ≤ 2 ^ (max fy.I fx.I - 1)) (hy : |y| ≤ 2 ^ (max fy.I fx.I - 1))
    (hz : (2 : ℝ) ^ (-t.F) ≤ 4 * ‖((x : ℝ) + (y : ℝ) * Complex.I : ℂ)‖) :
    ∃ r : ℚ, atan2 fy fx t y x = some (t.cvt r) ∧ |(r : ℝ) - Complex.arg ((x : ℝ) + (y : ℝ) * Complex.I)| ≤
      2 ^ (-t.F) * (2 / 5 + 1 / (40 * ‖((x : ℝ) + (y : ℝ) * Complex.I : ℂ)‖)) + 1 / 2 ^ 51 := by
  rw [← norm_zc] at hz ⊢
  obtain ⟨h1, h2, h3, h4, h5⟩ := sizes h
  set m := ‖zc y x‖ with hm
  have hl0 : (0 : ℝ) < 2 ^ (-t.F) := zpow_pos (by norm_num) _
  have hm0 : 0 < m := by linarith
  have hlsb : (1 : ℝ) / 2 ^ n t = 2 ^ (-t.F) / 8 := by
    rw [h5, neg_sub, zpow_sub₀ (by norm_num), zpow_natCast]; norm_num; ring
  have hF : (2 : ℝ) ^ F t = 2 ^ n t * 2 ^ L t * 16 := by
    unfold F
    rw [show ((n t : ℤ) + L t + 4) = ((n t + L t + 4 : ℕ) : ℤ) by push_cast; rfl, zpow_natCast, pow_add, pow_add]; norm_num
  have hL : ((n t : ℝ) + 1) ≤ 2 ^ L t := by exact_mod_cast h3
  have hn0 : (0 : ℝ) < 2 ^ n t := by positivity
  have hnl : (2 : ℝ) ^ n t * 2 ^ (-t.F) = 8 := by
    field_simp at hlsb; linarith
  have hmn : 2 ≤ m * 2 ^ n t := by
    have := mul_le_mul_of_nonneg_right hz hn0.le
    nlinarith
  have hρ : 32 * (n t + 1 : ℝ) ≤ m * 2 ^ F t := by
    rw [hF]
    have := mul_le_mul hmn hL (by positivity) (by positivity)
    nlinarith
  have hsmall : 3 * ((n t : ℝ) + 1) / (m * 2 ^ F t) ≤ 2 ^ (-t.F) * (1 / (40 * m)) := by
    rw [hF]
    have e : 3 * (2 : ℝ) ^ L t / (m * (2 ^ n t * 2 ^ L t * 16)) = 3 / 128 * (8 * (1 / 2 ^ n t)) / m := by
      field_simp; ring
    have b : 3 * ((n t : ℝ) + 1) / (m * (2 ^ n t * 2 ^ L t * 16)) ≤ 3 * (2 : ℝ) ^ L t / (m * (2 ^ n t * 2 ^ L t * 16)) :=
      div_le_div_of_nonneg_right (by linarith) (by positivity)
    refine le_trans b ?_
    rw [e, hlsb]
    have : 0 ≤ 2 ^ (-t.F) / m := by positivity
    have e1 : 3 / 128 * (8 * ((2 : ℝ) ^ (-t.F) / 8)) / m = 3 / 128 * (2 ^ (-t.F) / m) := by ring
    have e2 : (2 : ℝ) ^ (-t.F) * (1 / (40 * m)) = 1 / 40 * (2 ^ (-t.F) / m) := by field_simp
    rw [e1, e2]
    linarith
  have hs3 : 3 * ((n t : ℝ) + 1) / (m * 2 ^ F t) ≤ 3 / 32 := by
    rw [div_le_iff₀ (by nlinarith [Nat.cast_nonneg (α := ℝ) (n t)])]
    linarith
  have hK : 1 ≤ max fy.I fx.I + F t := by
    by_contra hc
    have hS : (2 : ℝ) ^ (max fy.I fx.I - 1) * 2 ^ F t ≤ 1 := by
      rw [← zpow_add₀ (by norm_num : (2 : ℝ) ≠ 0)]
      exact zpow_le_one_of_nonpos₀ (by norm_num) (by omega)
    have hx' : |((|x| : ℚ) : ℝ)| ≤ 2 ^ (max fy.I fx.I - 1) := by
      have : (((|x| : ℚ)) : ℝ) ≤ (((2 : ℚ) ^ (max fy.I fx.I - 1) : ℚ) : ℝ) := by exact_mod_cast hx
      push_cast at this ⊢
      rw [abs_abs]; exact this
    have hy' : |((y : ℚ) : ℝ)| ≤ 2 ^ (max fy.I fx.I - 1) := by
      have : (((|y| : ℚ)) : ℝ) ≤ (((2 : ℚ) ^ (max fy.I fx.I - 1) : ℚ) : ℝ) := by exact_mod_cast hy
      push_cast at this ⊢
      exact this
    have := norm_le_of_comp (zpow_nonneg (by norm_num) _) hx' hy'
    have g : m ≤ 142 / 100 * 2 ^ (max fy.I fx.I - 1) :=
      le_trans this (mul_le_mul_of_nonneg_right sqrt2.2 (zpow_nonneg (by norm_num) _))
    have := mul_le_mul_of_nonneg_right g (show (0 : ℝ) ≤ 2 ^ F t by positivity)
    have : (0 : ℝ) ≤ n t := Nat.cast_nonneg _
    linarith
  obtain ⟨s, hs, hi⟩ := run_inv h hK hx hy hρ
  obtain ⟨⟨A, hA⟩, ha⟩ := acc_err h hρ hi
  refine ⟨fix t y x s.acc, by unfold atan2; rw [hs]; rfl, ?_⟩
  have hq : (0 : ℝ) ≤ 2 ^ (-t.F) * (1 / (40 * m)) := by positivity
  have e52 : (1 : ℝ) / 2 ^ 51 = 1 / 2 ^ 52 + 1 / 2 ^ 52 := by norm_num
  have hp52 : (0 : ℝ) ≤ 1 / 2 ^ 52 := by norm_num
  have e3 : (3 : ℝ) / 2 ^ n t = 3 * (1 / 2 ^ n t) := by ring
  rw [e3] at ha
  rw [mul_add, e52]
  have hn8 := pow_n h
  by_cases hax : y = 0 ∨ x = 0
  · have := axes h hax s.acc
    linarith
  push Not at hax
  obtain ⟨hy0, hx0⟩ := hax
  have hθ : |Complex.arg (zc y x)| ≤ Real.pi / 2 := by
    rw [Complex.abs_arg_le_pi_div_two_iff]
    simp [zc]
  have hpi := Real.pi_lt_d2
  have hpm : |mPi| ≤ 7 / 2 := by unfold mPi; norm_num [abs_of_pos]
  have hsub : ∀ v : ℚ, ∀ p : ℝ, |v| ≤ 7 / 2 → |p - ((v : ℚ) : ℝ)| ≤ 1 / 2 ^ 52 → |p - Complex.arg (zc y x)| ≤ Real.pi →
      |((((accFmt t).cvt ((accFmt t).cvt v - s.acc)) : ℚ) : ℝ) - (p - Complex.arg (zc y x))| ≤
        2 ^ (-t.F) * (2 / 5) + 2 ^ (-t.F) * (1 / (40 * m)) + (1 / 2 ^ 52 + 1 / 2 ^ 52) := by
    intro v p hv hp hr
    obtain ⟨⟨B, hB⟩, eB⟩ := acc_cvt h hv
    have e : (accFmt t).cvt v - s.acc = (accFmt t).val (B - A) := by rw [hB, hA, val_sub]
    have hval : (((accFmt t).val (B - A) : ℚ) : ℝ) = (((accFmt t).cvt v : ℚ) : ℝ) - ((s.acc : ℚ) : ℝ) := by
      rw [← e, Rat.cast_sub]
    have hfar : (1 : ℝ) / 2 ^ 52 ≤ 1 / 1000 := by norm_num
    rw [e, acc_fit h, hval]
    · rw [abs_le] at ha eB hp ⊢
      constructor <;> linarith
    · rw [hval, abs_lt]
      rw [abs_le] at ha eB hp hr
      constructor <;> linarith
  unfold fix
  simp only []
  rw [if_neg hy0, if_neg hx0]
  split_ifs with c c2
  · rw [arg_flip c hy0, if_pos c2]
    refine hsub (-mPi) (-Real.pi) (by rw [abs_neg]; exact hpm) ?_ ?_
    · have := mPi_near
      push_cast
      rwa [← neg_add', abs_neg, ← sub_eq_add_neg]
    · have := arg_flip c hy0
      rw [if_pos c2] at this
      rw [← this]
      exact Complex.abs_arg_le_pi _
  · rw [arg_flip c hy0, if_neg c2]
    refine hsub mPi Real.pi hpm mPi_near ?_
    have := arg_flip c hy0
    rw [if_neg c2] at this
    rw [← this]
    exact Complex.abs_arg_le_pi _
  · have hzc : zc y x = (x : ℝ) + (y : ℝ) * Complex.I := by
      unfold zc; rw [abs_of_nonneg (not_lt.1 c)]
    rw [← hzc, abs_sub_comm]
    linarith

end Proof.Atan2
