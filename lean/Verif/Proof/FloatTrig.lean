import Verif.Model.FloatTrig
import Verif.Proof.Float
import Verif.Proof.Sincos
import Verif.Props.Shift
import Verif.Props.Cordic
import Verif.Props.Arcsin
import Verif.Props.Arccos
import Mathlib.Analysis.SpecialFunctions.Trigonometric.Bounds

/-! # Lemmas for C65 -/

namespace Proof.FloatTrig
open Ac Model.Float Model.FloatTrig

/-- The fixed-point argument is the conversion of the value of the input. -/
theorem shift_mant {t : FFmt} (hW : 1 ≤ t.W) {g : Fmt} (hg : 1 ≤ g.W) (hS : g.S = true) {m : ℚ} (hm : t.mant.Rep m) (e : ℤ) :
    Model.Shift.leftSS t.mant g (t.mant.raw m) e = g.cvt (m * 2 ^ e) := by
  obtain ⟨r, r0, r1, rfl⟩ := hm
  rw [Fmt.raw_val]
  exact Proof.Shift.leftSS_eq (fx := t.mant) hW hg rfl hS ⟨r0, r1⟩ e

/-- Rounding to nearest, wrapping: within half a unit, up to a multiple of the period. -/
theorem cvt_rnd_wrap {g : Fmt} (hQ : g.Q = .RND) (hO : g.O = .WRAP) (x : ℚ) :
    ∃ k : ℤ, |g.cvt x - (x + k * 2 ^ g.I)| ≤ 2 ^ (-g.F) / 2 := by
  obtain ⟨k, hk⟩ := (wrap_modEq g.W g.S (quant .RND (x * 2 ^ g.F))).symm.dvd
  refine ⟨k, ?_⟩
  have h := Proof.Sincos.rnd_err (x * 2 ^ g.F)
  have hz := Fmt.z_pos (-g.F)
  have e : g.cvt x = ((quant .RND (x * 2 ^ g.F) : ℤ) + 2 ^ g.W * k : ℚ) * 2 ^ (-g.F) := by
    unfold Fmt.cvt Fmt.cvtRaw
    rw [hQ, hO]
    show g.val (wrap g.W g.S _) = _
    unfold Fmt.val
    have : wrap g.W g.S (quant .RND (x * 2 ^ g.F)) = quant .RND (x * 2 ^ g.F) + 2 ^ g.W * k := by linarith
    rw [this]; push_cast; ring
  have e2 : (2 : ℚ) ^ g.W * 2 ^ (-g.F) = 2 ^ g.I := by
    rw [← zpow_natCast, Fmt.z_add]; congr 1; unfold Fmt.F; ring
  have e3 : x = x * 2 ^ g.F * 2 ^ (-g.F) := by rw [mul_assoc, Fmt.z_add]; simp
  have e4 : g.cvt x - (x + k * 2 ^ g.I) = (quant .RND (x * 2 ^ g.F) - x * 2 ^ g.F) * 2 ^ (-g.F) := by
    rw [e, ← e2]
    conv_lhs => rw [e3]
    rw [show x * 2 ^ g.F * 2 ^ (-g.F) * 2 ^ g.F = x * 2 ^ g.F by rw [← e3]]
    ring
  rw [e4, abs_mul, abs_of_pos hz]
  have := mul_le_mul_of_nonneg_right h hz.le
  linarith

/-- Two sines, or cosines, of angles in half turns that differ by a small angle and whole turns. -/
theorem sin_near {a x : ℚ} {k : ℤ} {δ : ℝ} (h : |(a : ℝ) - (x + 2 * k)| ≤ δ) :
    |Real.sin (Real.pi * a) - Real.sin (Real.pi * x)| ≤ Real.pi * δ := by
  have e : Real.sin (Real.pi * x) = Real.sin (Real.pi * (x + 2 * k)) := by
    rw [mul_add, show Real.pi * (2 * (k : ℝ)) = k * (2 * Real.pi) by ring, Real.sin_add_int_mul_two_pi]
  rw [e]
  refine le_trans (Real.abs_sin_sub_sin_le _ _) ?_
  rw [← mul_sub, abs_mul, abs_of_pos Real.pi_pos]
  exact mul_le_mul_of_nonneg_left h Real.pi_pos.le

theorem cos_near {a x : ℚ} {k : ℤ} {δ : ℝ} (h : |(a : ℝ) - (x + 2 * k)| ≤ δ) :
    |Real.cos (Real.pi * a) - Real.cos (Real.pi * x)| ≤ Real.pi * δ := by
  have e : Real.cos (Real.pi * x) = Real.cos (Real.pi * (x + 2 * k)) := by
    rw [mul_add, show Real.pi * (2 * (k : ℝ)) = k * (2 * Real.pi) by ring, Real.cos_add_int_mul_two_pi]
  rw [e]
  refine le_trans (Real.abs_cos_sub_cos_le _ _) ?_
  rw [← mul_sub, abs_mul, abs_of_pos Real.pi_pos]
  exact mul_le_mul_of_nonneg_left h Real.pi_pos.le

/-- The angle that is passed on. -/
theorem angle_near (x : ℚ) : ∃ k : ℤ, |((angleIn.cvt x : ℚ) : ℝ) - ((x : ℝ) + 2 * k)| ≤ 1 / 2 ^ 26 := by
  obtain ⟨k, hk⟩ := cvt_rnd_wrap (g := angleIn) rfl rfl x
  refine ⟨16384 * k, ?_⟩
  have h1 := (Rat.cast_le (K := ℝ)).2 hk
  have e1 : (2 : ℚ) ^ angleIn.I = 32768 := by decide +kernel
  have e2 : (2 : ℚ) ^ (-angleIn.F) / 2 = 1 / 2 ^ 26 := by decide +kernel
  rw [e1, e2] at h1
  push_cast at h1 ⊢
  rw [show (x : ℝ) + 2 * (16384 * (k : ℝ)) = x + k * 32768 by ring]
  exact h1

/-- The modulus of continuity of the arcsine, in half turns. -/
theorem arcsin_near {x y : ℝ} (hx : |x| ≤ 1) (hy : |y| ≤ 1) :
    |Real.arcsin x / Real.pi - Real.arcsin y / Real.pi| ≤ √(|x - y| / 2) := by
  wlog h : y ≤ x generalizing x y
  · have := this hy hx (le_of_not_ge h)
    rwa [abs_sub_comm, abs_sub_comm y x] at this
  rw [abs_le] at hx hy
  apply Real.le_sqrt_of_sq_le
  set a := Real.arcsin x
  set b := Real.arcsin y
  have hba : b ≤ a := Real.monotone_arcsin h
  have sa : Real.sin a = x := Real.sin_arcsin hx.1 hx.2
  have sb : Real.sin b = y := Real.sin_arcsin hy.1 hy.2
  have ha := Real.arcsin_le_pi_div_two x
  have hb := Real.neg_pi_div_two_le_arcsin y
  have ha' := Real.neg_pi_div_two_le_arcsin x
  have hb' := Real.arcsin_le_pi_div_two y
  have hp := Real.pi_pos
  rw [abs_of_nonneg (sub_nonneg.2 h), ← sa, ← sb, Real.sin_sub_sin]
  set u := (a - b) / 2 with hu
  set v := (a + b) / 2 with hv
  have u0 : 0 ≤ u := by rw [hu]; linarith
  have u1 : u ≤ Real.pi / 2 := by rw [hu]; linarith
  have su : 2 / Real.pi * u ≤ Real.sin u := Real.mul_le_sin u0 u1
  have su0 : 0 ≤ 2 / Real.pi * u := mul_nonneg (by positivity) u0
  have cv : Real.sin u ≤ Real.cos v := by
    rw [← Real.cos_pi_div_two_sub]
    rcases le_total 0 v with hv0 | hv0
    · exact Real.cos_le_cos_of_nonneg_of_le_pi hv0 (by linarith) (by rw [hv, hu]; linarith)
    · rw [← Real.cos_neg v]
      exact Real.cos_le_cos_of_nonneg_of_le_pi (by linarith) (by linarith) (by rw [hv, hu]; linarith)
  have k1 : (2 / Real.pi * u) * (2 / Real.pi * u) ≤ Real.sin u * Real.cos v :=
    mul_le_mul su (le_trans su cv) su0 (le_trans su0 su)
  have e : (a / Real.pi - b / Real.pi) = 2 / Real.pi * u := by rw [hu]; field_simp
  rw [sq_abs, e]
  nlinarith

/-- Arguments in `[-1, 1]` stay there. -/
theorem arc_in {x : ℚ} (hx : |x| ≤ 1) : |arcIn.cvt x| ≤ 1 ∧ |arcIn.cvt x - x| ≤ 1 / 2 ^ 19 := by
  obtain ⟨h0, h1⟩ := abs_le.1 hx
  have q0 : -(2 ^ 18) ≤ quant .RND (x * 2 ^ 18) := by
    have : ((-(2 ^ 18) : ℤ) : ℚ) ≤ x * 2 ^ 18 := by push_cast; linarith
    exact le_quant this
  have q1 : quant .RND (x * 2 ^ 18) ≤ 2 ^ 18 := by
    have : x * 2 ^ 18 ≤ ((2 ^ 18 : ℤ) : ℚ) := by push_cast; linarith
    exact quant_le this
  have e : arcIn.cvt x = (quant .RND (x * 2 ^ 18) : ℚ) * (1 / 2 ^ 18) := by
    have hF : (2 : ℚ) ^ arcIn.F = 2 ^ 18 := by decide +kernel
    have hF' : (2 : ℚ) ^ (-arcIn.F) = 1 / 2 ^ 18 := by decide +kernel
    unfold Fmt.cvt Fmt.cvtRaw
    rw [hF]
    show arcIn.val (wrap 20 true (quant .RND (x * 2 ^ 18))) = _
    rw [wrap_of_range (by decide) (by simp only [minRaw, if_true]; omega) (by simp only [maxRaw, if_true]; omega)]
    unfold Fmt.val
    rw [hF']
  have q0' : ((-(2 ^ 18) : ℤ) : ℚ) ≤ quant .RND (x * 2 ^ 18) := by exact_mod_cast q0
  have q1' : ((quant .RND (x * 2 ^ 18) : ℤ) : ℚ) ≤ ((2 ^ 18 : ℤ) : ℚ) := by exact_mod_cast q1
  have hr := abs_le.1 (Proof.Sincos.rnd_err (x * 2 ^ 18))
  rw [e, abs_le, abs_le]
  clear e q0 q1
  generalize ((quant .RND (x * 2 ^ 18) : ℤ) : ℚ) = y at *
  norm_num at q0' q1' hr ⊢
  refine ⟨⟨by linarith, by linarith⟩, by linarith [hr.1], by linarith [hr.2]⟩

theorem arc_exact {k : ℤ} (h : |(k / 2 ^ 18 : ℚ)| ≤ 1) : arcIn.cvt (k / 2 ^ 18 : ℚ) = k / 2 ^ 18 := by
  obtain ⟨h0, h1⟩ := abs_le.1 h
  have k0 : -(2 ^ 18) ≤ k := by
    have : ((-(2 ^ 18) : ℤ) : ℚ) ≤ k := by push_cast; linarith
    exact_mod_cast this
  have k1 : k ≤ 2 ^ 18 := by
    have : (k : ℚ) ≤ ((2 ^ 18 : ℤ) : ℚ) := by push_cast; linarith
    exact_mod_cast this
  have e : (k / 2 ^ 18 : ℚ) = arcIn.val k := by
    unfold Fmt.val
    rw [show (2 : ℚ) ^ (-arcIn.F) = 1 / 2 ^ 18 by decide +kernel]; ring
  rw [e]
  refine Fmt.cvt_val (by decide) ?_ ?_
  · show -(2 ^ 19) ≤ k
    omega
  · show k ≤ 2 ^ 19 - 1
    omega

end Proof.FloatTrig
