import Verif.Proof.FloatTrig
import Verif.Proof.FloatCvt

/-!
# C65: sine, cosine, arcsine and arccosine of floating-point numbers

`ac_sin_cordic`, `ac_cos_cordic`, `ac_arcsin_cordic` and `ac_arccos_cordic` for ac_float.  Angles are in half turns.  The input
is the mantissa `m` times `2 ^ e`; the output type is arbitrary: what is converted to it is the same for all of them.
-/

namespace Props.FloatTrig
open Ac Model.Float Model.FloatTrig

/-- **C65**, sine and cosine: whatever the magnitude of the angle, what is converted to the output type is the sine, or cosine,
within `2 ^ -24`.  (Whole turns that the fixed-point angle cannot hold are dropped, which does not change the sine.) -/
theorem C65_sin_cos (t : FFmt) (hW : 1 ≤ t.W) {m : ℚ} (hm : t.mant.Rep m) (e : ℤ) :
    ∃ sn cs : ℚ, (∀ d, sin t d m e = some (d.cvt sn)) ∧ (∀ d, cos t d m e = some (d.cvt cs)) ∧
      |(sn : ℝ) - Real.sin (Real.pi * (m * 2 ^ e : ℚ))| ≤ 1 / 2 ^ 24 ∧
      |(cs : ℝ) - Real.cos (Real.pi * (m * 2 ^ e : ℚ))| ≤ 1 / 2 ^ 24 := by
  obtain ⟨sn, cs, h1, h2, h3, h4⟩ := Props.Cordic.C38_sin_cos (f := angleIn) (t := angleOut) (by decide) (by decide) (by decide)
    (by decide) rfl (Fmt.rep_cvt (f := angleIn) (by decide) (m * 2 ^ e))
  obtain ⟨k, hk⟩ := Proof.FloatTrig.angle_near (m * 2 ^ e)
  have a := Proof.FloatTrig.sin_near hk
  have b := Proof.FloatTrig.cos_near hk
  have hs := Proof.FloatTrig.shift_mant hW (g := angleIn) (by decide) rfl hm e
  have hF : (3 : ℝ) * 2 ^ (-angleOut.F) + 1 / 2 ^ 50 + 5 / 2 ^ angleOut.W = 3 / 2 ^ 28 + 1 / 2 ^ 50 + 5 / 2 ^ 35 := by
    rw [show -angleOut.F = -((28 : ℕ) : ℤ) by decide, zpow_neg, zpow_natCast, show angleOut.W = 35 from rfl]; ring
  rw [hF] at h3 h4
  have hp := Real.pi_lt_d2
  refine ⟨sn, cs, fun d => ?_, fun d => ?_, ?_, ?_⟩
  · unfold sin; rw [hs, h1]; rfl
  · unfold cos; rw [hs, h2]; rfl
  · have := abs_sub_le (sn : ℝ) (Real.sin (Real.pi * (angleIn.cvt (m * 2 ^ e) : ℚ))) (Real.sin (Real.pi * (m * 2 ^ e : ℚ)))
    norm_num at this h3 a ⊢
    linarith
  · have := abs_sub_le (cs : ℝ) (Real.cos (Real.pi * (angleIn.cvt (m * 2 ^ e) : ℚ))) (Real.cos (Real.pi * (m * 2 ^ e : ℚ)))
    norm_num at this h4 b ⊢
    linarith

/-- 1/4 of a half turn, in `ac_float<16,2,8>`. -/
example : ∃ m : ℚ, (⟨16, 2, 8, .TRN⟩ : FFmt).mant.Rep m ∧ m * 2 ^ (-2 : ℤ) = 1 / 4 :=
  ⟨1, ⟨16384, by decide, by decide, by decide +kernel⟩, by norm_num⟩

/-- The same for the output itself, of a type that holds 2: one unit of its mantissa more, and of its smallest number. -/
theorem C65_sin_cos_output (t o : FFmt) (hW : 1 ≤ t.W) {m : ℚ} (hm : t.mant.Rep m) (e : ℤ) (ho : 2 ≤ o.maxVal) :
    ∃ sn cs : ℚ, sin t o.dst m e = some sn ∧ cos t o.dst m e = some cs ∧
      |(sn : ℝ) - Real.sin (Real.pi * (m * 2 ^ e : ℚ))| ≤
        1 / 2 ^ 24 + (1 + 1 / 2 ^ 24) * 2 ^ (2 - (o.W : ℤ)) + 2 ^ (o.I - o.W - 2 ^ (o.E - 1)) ∧
      |(cs : ℝ) - Real.cos (Real.pi * (m * 2 ^ e : ℚ))| ≤
        1 / 2 ^ 24 + (1 + 1 / 2 ^ 24) * 2 ^ (2 - (o.W : ℤ)) + 2 ^ (o.I - o.W - 2 ^ (o.E - 1)) := by
  obtain ⟨sn, cs, h1, h2, h3, h4⟩ := C65_sin_cos t hW hm e
  have ho' : (2 : ℝ) ≤ ((o.maxVal : ℚ) : ℝ) := by exact_mod_cast ho
  have z := (zpow_pos (by norm_num : (0 : ℝ) < 2) (2 - (o.W : ℤ))).le
  refine ⟨_, _, h1 o.dst, h2 o.dst, ?_, ?_⟩
  · have s1 := Real.abs_sin_le_one (Real.pi * (m * 2 ^ e : ℚ))
    have := Proof.FloatCvt.output_abs (o := o) h3 (by norm_num at s1 ⊢; linarith)
    have k := mul_le_mul_of_nonneg_right (add_le_add_left s1 (1 / 2 ^ 24)) z
    show |((o.cvt sn : ℚ) : ℝ) - _| ≤ _
    linarith
  · have s1 := Real.abs_cos_le_one (Real.pi * (m * 2 ^ e : ℚ))
    have := Proof.FloatCvt.output_abs (o := o) h4 (by norm_num at s1 ⊢; linarith)
    have k := mul_le_mul_of_nonneg_right (add_le_add_left s1 (1 / 2 ^ 24)) z
    show |((o.cvt cs : ℚ) : ℝ) - _| ≤ _
    linarith

/-- `ac_float<16,2,8>` holds 2. -/
example : 2 ≤ (⟨16, 2, 8, .TRN⟩ : FFmt).maxVal := by decide +kernel

/-- The error of C65 is absolute: the relative precision a floating-point number suggests is not met, the sine of a small angle is
zero. -/
theorem C65_sin_counterexample : ∃ (t : FFmt) (m : ℚ) (e : ℤ), t.mant.Rep m ∧ 0 < Real.sin (Real.pi * (m * 2 ^ e : ℚ)) ∧
    sin t t.dst m e = some 0 := by
  refine ⟨⟨16, 2, 8, .TRN⟩, 1, -30, ⟨16384, by decide, by decide, by decide +kernel⟩, ?_, by decide +kernel⟩
  have hp := Real.pi_pos
  apply Real.sin_pos_of_pos_of_lt_pi
  · norm_num; exact hp
  · norm_num
    linarith

/-- **C65**, arcsine: for arguments in `[-1, 1]` what is converted to the output type is the arcsine within 1/1023 of a half
turn; for multiples of `2 ^ -18` within `2 ^ -27`. -/
theorem C65_arcsin (t : FFmt) (hW : 1 ≤ t.W) {m : ℚ} (hm : t.mant.Rep m) (e : ℤ) (h : |m * 2 ^ e| ≤ 1) :
    ∃ y : ℚ, (∀ d, arcsin t d m e = some (d.cvt y)) ∧ |(y : ℝ) - Real.arcsin (m * 2 ^ e : ℚ) / Real.pi| ≤ 1 / 1023 ∧
      ((∃ k : ℤ, m * 2 ^ e = k / 2 ^ 18) → |(y : ℝ) - Real.arcsin (m * 2 ^ e : ℚ) / Real.pi| ≤ 1 / 2 ^ 27) := by
  have hs := Proof.FloatTrig.shift_mant hW (g := arcIn) (by decide) rfl hm e
  generalize m * 2 ^ e = x at *
  obtain ⟨h1, h2⟩ := Proof.FloatTrig.arc_in h
  obtain ⟨z, z1, z2⟩ := Props.Arcsin.C50_error_wide (o := ⟨35, 5, true, .TRN, .WRAP⟩) (h := 30) (by decide) (by norm_num)
    (by norm_num) rfl (by decide) h1
  have hq : √(2 * ((30 : ℕ) : ℝ) + 1) ≤ 8 := by rw [Real.sqrt_le_left (by norm_num)]; norm_num
  have hz : |(z : ℝ) - Real.arcsin ((arcIn.cvt x : ℚ) : ℝ) / Real.pi| ≤ 1 / 2 ^ 27 := by
    refine le_trans z2 ?_
    generalize √(2 * ((30 : ℕ) : ℝ) + 1) = s at *
    norm_num at hq ⊢
    linarith
  refine ⟨z, fun d => ?_, ?_, ?_⟩
  · unfold arcsin; rw [hs, z1]; rfl
  · have a := Proof.FloatTrig.arcsin_near (x := ((arcIn.cvt x : ℚ) : ℝ)) (y := (x : ℝ)) (by exact_mod_cast h1) (by exact_mod_cast h)
    have b : √(|((arcIn.cvt x : ℚ) : ℝ) - x| / 2) ≤ 1 / 1024 := by
      rw [Real.sqrt_le_left (by norm_num)]
      have := (Rat.cast_le (K := ℝ)).2 h2
      push_cast at this
      norm_num at this ⊢
      linarith
    have := abs_sub_le (z : ℝ) (Real.arcsin ((arcIn.cvt x : ℚ) : ℝ) / Real.pi) (Real.arcsin (x : ℝ) / Real.pi)
    norm_num at hz a b this ⊢
    linarith
  · rintro ⟨k, rfl⟩
    rwa [Proof.FloatTrig.arc_exact h] at hz

/-- **C65**, arccosine. -/
theorem C65_arccos (t : FFmt) (hW : 1 ≤ t.W) {m : ℚ} (hm : t.mant.Rep m) (e : ℤ) (h : |m * 2 ^ e| ≤ 1) :
    ∃ y : ℚ, (∀ d, arccos t d m e = some (d.cvt y)) ∧ |(y : ℝ) - Real.arccos (m * 2 ^ e : ℚ) / Real.pi| ≤ 1 / 1023 ∧
      ((∃ k : ℤ, m * 2 ^ e = k / 2 ^ 18) → |(y : ℝ) - Real.arccos (m * 2 ^ e : ℚ) / Real.pi| ≤ 1 / 2 ^ 27) := by
  have hs := Proof.FloatTrig.shift_mant hW (g := arcIn) (by decide) rfl hm e
  generalize m * 2 ^ e = x at *
  obtain ⟨h1, h2⟩ := Proof.FloatTrig.arc_in h
  obtain ⟨z, z1, z2⟩ := Props.Arccos.C51_error (o := ⟨35, 5, false, .TRN, .WRAP⟩) (h := 30) (by decide) (by norm_num)
    (by norm_num) rfl (by decide) h1
  have hq : √(2 * ((30 : ℕ) : ℝ) + 1) ≤ 8 := by rw [Real.sqrt_le_left (by norm_num)]; norm_num
  have hz : |(z : ℝ) - Real.arccos ((arcIn.cvt x : ℚ) : ℝ) / Real.pi| ≤ 1 / 2 ^ 27 := by
    refine le_trans z2 ?_
    generalize √(2 * ((30 : ℕ) : ℝ) + 1) = s at *
    norm_num at hq ⊢
    linarith
  refine ⟨z, fun d => ?_, ?_, ?_⟩
  · unfold arccos; rw [hs, z1]; rfl
  · have a := Proof.FloatTrig.arcsin_near (x := ((arcIn.cvt x : ℚ) : ℝ)) (y := (x : ℝ)) (by exact_mod_cast h1) (by exact_mod_cast h)
    have b : √(|((arcIn.cvt x : ℚ) : ℝ) - x| / 2) ≤ 1 / 1024 := by
      rw [Real.sqrt_le_left (by norm_num)]
      have := (Rat.cast_le (K := ℝ)).2 h2
      push_cast at this
      norm_num at this ⊢
      linarith
    have e1 : ∀ u : ℝ, Real.arccos u / Real.pi = 1 / 2 - Real.arcsin u / Real.pi := fun u => by
      have := Real.pi_ne_zero
      rw [Real.arccos_eq_pi_div_two_sub_arcsin]; field_simp
    have := abs_sub_le (z : ℝ) (Real.arccos ((arcIn.cvt x : ℚ) : ℝ) / Real.pi) (Real.arccos (x : ℝ) / Real.pi)
    have e2 : |Real.arccos ((arcIn.cvt x : ℚ) : ℝ) / Real.pi - Real.arccos (x : ℝ) / Real.pi| =
        |Real.arcsin ((arcIn.cvt x : ℚ) : ℝ) / Real.pi - Real.arcsin (x : ℝ) / Real.pi| := by
      rw [e1, e1, abs_sub_comm]; congr 1; ring
    rw [e2] at this
    norm_num at hz a b this ⊢
    linarith
  · rintro ⟨k, rfl⟩
    rwa [Proof.FloatTrig.arc_exact h] at hz

/-- An argument of `ac_float<16,2,8>` that is a multiple of `2 ^ -18`, and one that is not. -/
example : (∃ m : ℚ, (⟨16, 2, 8, .TRN⟩ : FFmt).mant.Rep m ∧ |m * 2 ^ (-2 : ℤ)| ≤ 1 ∧ m * 2 ^ (-2 : ℤ) = ((65536 : ℤ) : ℚ) / 2 ^ 18) ∧
    ∃ m : ℚ, (⟨16, 2, 8, .TRN⟩ : FFmt).mant.Rep m ∧ |m * 2 ^ (-20 : ℤ)| ≤ 1 :=
  ⟨⟨1, ⟨16384, by decide, by decide, by decide +kernel⟩, by norm_num [abs_le], by norm_num⟩,
    1, ⟨16384, by decide, by decide, by decide +kernel⟩, by norm_num [abs_le]⟩

/-- The bounds of C65 do not get better with wider types: the input is cut to 18 fraction bits, so that the arcsine of a small number is
zero and the arccosine of a number below one is that of one. -/
theorem C65_arc_counterexample : (∃ (t : FFmt) (m : ℚ) (e : ℤ), t.mant.Rep m ∧ 0 < m * 2 ^ e ∧ m * 2 ^ e ≤ 1 ∧
      arcsin t t.dst m e = some 0) ∧
    ∃ (t : FFmt) (m : ℚ) (e : ℤ), t.mant.Rep m ∧ 0 < m * 2 ^ e ∧ m * 2 ^ e < 1 ∧ arccos t t.dst m e = some 0 := by
  refine ⟨⟨⟨16, 2, 8, .TRN⟩, 1, -20, ⟨16384, by decide, by decide, by decide +kernel⟩, by norm_num, by norm_num, by decide +kernel⟩,
    ⟨32, 2, 8, .TRN⟩, 1 - 1 / 2 ^ 20, 0, ⟨1073741824 - 1024, by decide, by decide, by decide +kernel⟩, by norm_num, by norm_num,
    by decide +kernel⟩

end Props.FloatTrig
