import Verif.Proof.Atan2Fix

/-! # C49: arctangent of two arguments by CORDIC

`atan2 fy fx t y x` is the output of `ac_atan2_cordic` for the arguments `y` and `x` of the types `fy` and `fx` and an output of
type `t`; `none` would be a table read out of bounds. All three types are signed, as the function demands. `Complex.arg` is the
angle of Mathlib, in `(-π, π]` and zero for the zero vector; the unit of the output type is `2 ^ (-t.F)`. -/

namespace Props.Atan2
open Ac Model.Atan2

/-- **C49**, table safety: no arguments, in no format, make the function read outside its table. -/
theorem C49_in_table (fy fx t : Fmt) (y x : ℚ) : (atan2 fy fx t y x).isSome := by
  obtain ⟨s, hs⟩ := Proof.Atan2.run_some fy fx t y x
  unfold atan2
  rw [hs]; rfl

example : atan2 ⟨16, 2, true, .TRN, .WRAP⟩ ⟨12, 4, true, .TRN, .WRAP⟩ ⟨16, 3, true, .TRN, .WRAP⟩ (-3 / 2) (-5 / 2) =
    some (-10655 / 4096) := by decide +kernel

/-- **C49** on the axes: for every vector on an axis, however short or long, the output is the conversion of a number that is
within 1/64 of a unit plus `2^-52` of the angle. -/
theorem C49_axes (fy fx : Fmt) {t : Fmt} (hW : 1 ≤ t.W) (hI : t.I ≤ t.W) (hN : t.W - t.I ≤ 124) {y x : ℚ} (h : y = 0 ∨ x = 0) :
    ∃ r : ℚ, atan2 fy fx t y x = some (t.cvt r) ∧
      |(r : ℝ) - Complex.arg ((x : ℝ) + (y : ℝ) * Complex.I)| ≤ 2 ^ (-t.F) / 64 + 1 / 2 ^ 52 := by
  have ho : Proof.Atan2.Out t := ⟨hW, hI, hN⟩
  obtain ⟨s, hs⟩ := Proof.Atan2.run_some fy fx t y x
  refine ⟨fix t y x s.acc, by unfold atan2; rw [hs]; rfl, ?_⟩
  obtain ⟨-, -, -, -, h5⟩ := Proof.Atan2.sizes ho
  have hlsb : (1 : ℝ) / 2 ^ Proof.Atan2.n t = 2 ^ (-t.F) / 8 := by
    rw [h5, neg_sub, zpow_sub₀ (by norm_num), zpow_natCast]; norm_num; ring
  have := Proof.Atan2.axes ho h s.acc
  rw [hlsb] at this
  linarith

example : ∃ r : ℚ, atan2 ⟨16, 2, true, .TRN, .WRAP⟩ ⟨12, 4, true, .TRN, .WRAP⟩ ⟨16, 3, true, .TRN, .WRAP⟩ (-3 / 2) 0 =
    some ((⟨16, 3, true, .TRN, .WRAP⟩ : Fmt).cvt r) ∧
      |(r : ℝ) - Complex.arg (((0 : ℚ) : ℝ) + ((-3 / 2 : ℚ) : ℝ) * Complex.I)| ≤ 2 ^ (-(13 : ℤ)) / 64 + 1 / 2 ^ 52 :=
  C49_axes _ _ (by norm_num) (by norm_num) (by norm_num) (Or.inr rfl)

theorem bound {f : Fmt} {m : ℤ} (hm : f.I ≤ m) (hf : 1 ≤ f.W) (hS : f.S = true) {v : ℚ} (h : f.Rep v) : |v| ≤ 2 ^ (m - 1) := by
  have hb := ((Fmt.rep_iff hf v).1 h).1
  unfold Fmt.Bnd at hb
  simp only [hS, if_true] at hb
  have := Fmt.z_le (show f.I - 1 ≤ m - 1 by omega)
  rw [abs_le]
  constructor <;> linarith [hb.1, hb.2]

/-- **C49**, angle: for vectors no shorter than a quarter of the unit of the output the output is the conversion of a number whose
distance from the angle of the vector is at most 2/5 of a unit, plus `2^-51` for the stored constants, plus a part inversely
proportional to the length of the vector, a fortieth of a unit for length one. Missing for the full claim: shorter vectors, for
which it is false (`C49_short_wrong`). -/
theorem C49_angle_partial {fy fx t : Fmt} (hfy : 1 ≤ fy.W) (hfx : 1 ≤ fx.W) (hSy : fy.S = true) (hSx : fx.S = true) (hW : 1 ≤ t.W)
    (hI : t.I ≤ t.W) (hN : t.W - t.I ≤ 124) {y x : ℚ} (hy : fy.Rep y) (hx : fx.Rep x)
    (hz : (2 : ℝ) ^ (-t.F) ≤ 4 * ‖((x : ℝ) + (y : ℝ) * Complex.I : ℂ)‖) :
    ∃ r : ℚ, atan2 fy fx t y x = some (t.cvt r) ∧ |(r : ℝ) - Complex.arg ((x : ℝ) + (y : ℝ) * Complex.I)| ≤
      2 ^ (-t.F) * (2 / 5 + 1 / (40 * ‖((x : ℝ) + (y : ℝ) * Complex.I : ℂ)‖)) + 1 / 2 ^ 51 :=
  Proof.Atan2.main ⟨hW, hI, hN⟩ (bound (le_max_right _ _) hfx hSx hx) (bound (le_max_left _ _) hfy hSy hy) hz

example : ∃ r : ℚ, atan2 ⟨16, 2, true, .TRN, .WRAP⟩ ⟨12, 4, true, .TRN, .WRAP⟩ ⟨16, 3, true, .TRN, .WRAP⟩ (-3 / 2) (-5 / 2) =
    some ((⟨16, 3, true, .TRN, .WRAP⟩ : Fmt).cvt r) ∧
      |(r : ℝ) - Complex.arg (((-5 / 2 : ℚ) : ℝ) + ((-3 / 2 : ℚ) : ℝ) * Complex.I)| ≤
        2 ^ (-(13 : ℤ)) * (2 / 5 + 1 / (40 * ‖(((-5 / 2 : ℚ) : ℝ) + ((-3 / 2 : ℚ) : ℝ) * Complex.I : ℂ)‖)) + 1 / 2 ^ 51 := by
  refine C49_angle_partial (by norm_num) (by norm_num) rfl rfl (by norm_num) (by norm_num) (by norm_num)
    ⟨-24576, by decide, by decide, by decide +kernel⟩ ⟨-640, by decide, by decide, by decide +kernel⟩ ?_
  have := Complex.abs_re_le_norm ((((-5 / 2 : ℚ) : ℝ) : ℂ) + (((-3 / 2 : ℚ) : ℝ) : ℂ) * Complex.I)
  simp at this
  norm_num [Fmt.F] at this ⊢
  linarith

/-- **C49**, output: if the output type is signed with at least three integer bits and a fraction bit, the output itself differs
from the angle by at most one unit more than that, whatever its rounding and overflow modes. Missing: see
`C49_angle_partial`. -/
theorem C49_error_partial {fy fx t : Fmt} (hfy : 1 ≤ fy.W) (hfx : 1 ≤ fx.W) (hSy : fy.S = true) (hSx : fx.S = true) (hS : t.S = true)
    (hI : 3 ≤ t.I) (hF : 1 ≤ t.F) (hN : t.W - t.I ≤ 124) {y x : ℚ} (hy : fy.Rep y) (hx : fx.Rep x)
    (hz : (2 : ℝ) ^ (-t.F) ≤ 4 * ‖((x : ℝ) + (y : ℝ) * Complex.I : ℂ)‖) :
    ∃ o : ℚ, atan2 fy fx t y x = some o ∧ |(o : ℝ) - Complex.arg ((x : ℝ) + (y : ℝ) * Complex.I)| ≤
      2 ^ (-t.F) * (7 / 5 + 1 / (40 * ‖((x : ℝ) + (y : ℝ) * Complex.I : ℂ)‖)) + 1 / 2 ^ 51 := by
  have hFd : t.F = t.W - t.I := rfl
  obtain ⟨r, hr, he⟩ := C49_angle_partial hfy hfx hSy hSx (by omega) (by omega) hN hy hx hz
  refine ⟨_, hr, ?_⟩
  set m := ‖((x : ℝ) + (y : ℝ) * Complex.I : ℂ)‖
  set a := Complex.arg ((x : ℝ) + (y : ℝ) * Complex.I)
  have ha : |a| ≤ Real.pi := Complex.abs_arg_le_pi _
  have hl0 : (0 : ℝ) < 2 ^ (-t.F) := zpow_pos (by norm_num) _
  have hl : (2 : ℝ) ^ (-t.F) ≤ 1 / 2 := by
    have := zpow_le_zpow_right₀ (show (1 : ℝ) ≤ 2 by norm_num) (show -t.F ≤ -1 by omega)
    rw [zpow_neg_one] at this; linarith
  have hm0 : 0 < m := by linarith
  have hq : (2 : ℝ) ^ (-t.F) * (1 / (40 * m)) ≤ 1 / 10 := by
    rw [mul_one_div, div_le_div_iff₀ (by linarith) (by norm_num)]; linarith
  have hpi := Real.pi_lt_d2
  have h51 : (1 : ℝ) / 2 ^ 51 ≤ 1 / 1000 := by norm_num
  have hu : (0 : ℝ) < 2 ^ t.F := zpow_pos (by norm_num) _
  have hmul : (2 : ℝ) ^ (-t.F) * 2 ^ t.F = 1 := by rw [← zpow_add₀ (by norm_num)]; simp
  have hpow : (4 : ℝ) * 2 ^ t.F ≤ ((2 ^ (t.W - 1) : ℤ) : ℝ) := by
    push_cast
    rw [show (4 : ℝ) = 2 ^ (2 : ℤ) by norm_num, ← zpow_add₀ (by norm_num : (2 : ℝ) ≠ 0), ← zpow_natCast]
    exact zpow_le_zpow_right₀ (by norm_num) (by omega)
  have hrb : |(r : ℝ)| ≤ 4 - 2 ^ (-t.F) := by
    rw [mul_add] at he
    rw [abs_le] at he ha ⊢
    constructor <;> linarith
  obtain ⟨r1, r2⟩ := abs_le.1 hrb
  have m1 := mul_le_mul_of_nonneg_right r1 hu.le
  have m2 := mul_le_mul_of_nonneg_right r2 hu.le
  have key : |((t.cvt r : ℚ) : ℚ) - r| < 2 ^ (-t.F) := by
    have back : ∀ v : ℤ, ∀ w : ℚ, (v : ℝ) ≤ ((w : ℚ) : ℝ) → (v : ℚ) ≤ w := fun v w h => by exact_mod_cast h
    have back2 : ∀ v : ℤ, ∀ w : ℚ, ((w : ℚ) : ℝ) ≤ (v : ℝ) → w ≤ (v : ℚ) := fun v w h => by exact_mod_cast h
    have := Fmt.cvt_err (R := ℚ) (f := t) (x := r) (by omega) (by
      refine back _ _ ?_
      have : loRaw t.W t.S t.O ≤ -2 ^ (t.W - 1) + 1 := by
        rw [hS]; unfold loRaw minRaw maxRaw
        rw [if_pos rfl, if_pos rfl]
        split_ifs <;> linarith
      have := Int.cast_le (R := ℝ) |>.2 this
      rw [Int.cast_add, Int.cast_neg, Int.cast_one] at this
      rw [Rat.cast_mul, Rat.cast_zpow, Rat.cast_ofNat]
      linarith) (by
      refine back2 _ _ ?_
      have : maxRaw t.W t.S = 2 ^ (t.W - 1) - 1 := by
        rw [hS]; simp [maxRaw]
      rw [this, Int.cast_sub, Int.cast_one, Rat.cast_mul, Rat.cast_zpow, Rat.cast_ofNat]
      linarith)
    simpa using this
  have k2 := Rat.cast_lt (K := ℝ) |>.2 key
  rw [Rat.cast_abs, Rat.cast_sub, Rat.cast_zpow, Rat.cast_ofNat] at k2
  rw [mul_add] at he ⊢
  have e : (2 : ℝ) ^ (-t.F) * (7 / 5) = 2 ^ (-t.F) * (2 / 5) + 2 ^ (-t.F) := by ring
  rw [e]
  rw [abs_le] at he ⊢
  rw [abs_lt] at k2
  constructor <;> linarith [k2.1, k2.2]

example : ∃ o : ℚ, atan2 ⟨16, 2, true, .TRN, .WRAP⟩ ⟨12, 4, true, .TRN, .WRAP⟩ ⟨16, 3, true, .TRN, .WRAP⟩ (-3 / 2) (-5 / 2) =
    some o ∧ |(o : ℝ) - Complex.arg (((-5 / 2 : ℚ) : ℝ) + ((-3 / 2 : ℚ) : ℝ) * Complex.I)| ≤
        2 ^ (-(13 : ℤ)) * (7 / 5 + 1 / (40 * ‖(((-5 / 2 : ℚ) : ℝ) + ((-3 / 2 : ℚ) : ℝ) * Complex.I : ℂ)‖)) + 1 / 2 ^ 51 := by
  refine C49_error_partial (by norm_num) (by norm_num) rfl rfl rfl (by norm_num) (by norm_num [Fmt.F]) (by norm_num)
    ⟨-24576, by decide, by decide, by decide +kernel⟩ ⟨-640, by decide, by decide, by decide +kernel⟩ ?_
  have := Complex.abs_re_le_norm ((((-5 / 2 : ℚ) : ℝ) : ℂ) + (((-3 / 2 : ℚ) : ℝ) : ℂ) * Complex.I)
  simp at this
  norm_num [Fmt.F] at this ⊢
  linarith

/-- **C49** is false for short vectors: the vector `(2^-26, 2^-26)` has the angle `π/4` (0.785), the output is 1.743. -/
theorem C49_short_wrong : ∃ o : ℚ,
    atan2 ⟨32, 2, true, .TRN, .WRAP⟩ ⟨32, 2, true, .TRN, .WRAP⟩ ⟨16, 3, true, .TRN, .WRAP⟩ (1 / 2 ^ 26) (1 / 2 ^ 26) = some o ∧
    (⟨32, 2, true, .TRN, .WRAP⟩ : Fmt).Rep (1 / 2 ^ 26) ∧
    9 / 10 ≤ (o : ℝ) - Complex.arg (((1 / 2 ^ 26 : ℚ) : ℝ) + ((1 / 2 ^ 26 : ℚ) : ℝ) * Complex.I) := by
  refine ⟨1785 / 1024, by decide +kernel, ⟨16, by decide, by decide, by decide +kernel⟩, ?_⟩
  have e : (((1 / 2 ^ 26 : ℚ) : ℝ) : ℂ) + (((1 / 2 ^ 26 : ℚ) : ℝ) : ℂ) * Complex.I =
      ((√2 / 2 ^ 26 : ℝ) : ℂ) * (Complex.cos ((Real.pi / 4 : ℝ) : ℂ) + Complex.sin ((Real.pi / 4 : ℝ) : ℂ) * Complex.I) := by
    rw [← Complex.ofReal_cos, ← Complex.ofReal_sin, Real.cos_pi_div_four, Real.sin_pi_div_four]
    have h2 : √2 / 2 ^ 26 * (√2 / 2) = ((1 / 2 ^ 26 : ℚ) : ℝ) := by
      have := Real.mul_self_sqrt (show (0 : ℝ) ≤ 2 by norm_num)
      push_cast
      linarith
    rw [mul_add, ← mul_assoc, ← Complex.ofReal_mul, h2]
  have hpi := Real.pi_pos
  rw [e, Complex.arg_mul_cos_add_sin_mul_I (by positivity) ⟨by linarith, by linarith⟩]
  have := Real.pi_lt_d2
  push_cast
  linarith

/-- **C49** is false for wide outputs: with 61 fraction bits the angle of `(-1, 0)` is more than 250 units wrong, since the
constant `π` is stored as a double. -/
theorem C49_wide_wrong : ∃ o : ℚ,
    atan2 ⟨32, 2, true, .TRN, .WRAP⟩ ⟨32, 2, true, .TRN, .WRAP⟩ ⟨64, 3, true, .TRN, .WRAP⟩ 0 (-1) = some o ∧
    250 * (2 : ℝ) ^ (-(⟨64, 3, true, .TRN, .WRAP⟩ : Fmt).F) ≤ Complex.arg (((-1 : ℚ) : ℝ) + ((0 : ℚ) : ℝ) * Complex.I) - (o : ℝ) := by
  refine ⟨7244019458077122560 / 2 ^ 61, by decide +kernel, ?_⟩
  have e : (((-1 : ℚ) : ℝ) : ℂ) + (((0 : ℚ) : ℝ) : ℂ) * Complex.I = -1 := by simp
  rw [e, Complex.arg_neg_one]
  have := Real.pi_gt_d20
  norm_num [Fmt.F]
  linarith

end Props.Atan2
