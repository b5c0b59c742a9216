import Verif.Proof.FloatDiv
import Verif.Props.FloatSqrt

/-! # C64: division, square root and absolute value of ac_float

`div noSat n v o d m e m' e' junk` is the output of `ac_div` for the dividend `m * 2^e` of the ac_float type `n`, the divisor
`m' * 2^e'` of the type `v` and a quotient of the type `o`, with the returned flag; `noSat` is the macro
AC_DIV_DISABLE_SATURATION_IF_INPUT_IS_ZERO and `junk` an uninitialised variable.  `sqrt tq tf t d m e` is the output of `ac_sqrt`
for `m * 2^e` of type `t`, with `tf` fraction bits for the root of the mantissa, by default those of the output type, rounded by
`tq`.  `abs t d m e` is the output of `ac_abs`.  `d` is the conversion of an exact value to the output type, `o.dst` for
`ac_float<o.W,o.I,o.E,o.Q>`. -/

namespace Props.FloatDiv
open Ac Model.Float Props.FloatRec Proof.FloatDiv

/-- **C64**, absolute value: exact up to the conversion to the output type. -/
theorem C64_abs (t : FFmt) (d : Dst) (m : ℚ) (e : ℤ) (hW : 2 ≤ t.W) (hE : 1 ≤ t.E) (hm : Num t m e) :
    Model.Float.abs t d m e = d.cvt |m * 2 ^ e| := abs_eq d hW hE hm.1 hm.2.1 hm.2.2

/-- **C64**, absolute value: exact if the output type has the number. -/
theorem C64_abs_exact (t o : FFmt) (m : ℚ) (e : ℤ) (m' : ℚ) (e' : ℤ) (hW : 2 ≤ t.W) (hE : 1 ≤ t.E) (hm : Num t m e) (ho : 1 ≤ o.W)
    (hm' : Num o m' e') (h : m' * 2 ^ e' = |m * 2 ^ e|) : Model.Float.abs t o.dst m e = |m * 2 ^ e| := by
  rw [C64_abs t o.dst m e hW hE hm, ← h]
  exact cvt_num ho hm'.1 hm'.2.1 hm'.2.2

/-- The least mantissa, whose magnitude is not a mantissa: -2 * 2^-3 gives 1 * 2^-2. -/
example : Num ⟨8, 2, 4, .TRN⟩ (-2) (-3) ∧ Num ⟨8, 2, 4, .TRN⟩ 1 (-2) ∧ (1 : ℚ) * 2 ^ (-2 : ℤ) = |(-2) * 2 ^ (-3 : ℤ)| ∧
    Model.Float.abs ⟨8, 2, 4, .TRN⟩ (FFmt.dst ⟨8, 2, 4, .TRN⟩) (-2) (-3) = 1 / 4 :=
  ⟨⟨⟨-128, by decide, by decide, by decide +kernel⟩, by decide, by decide⟩,
    ⟨⟨64, by decide, by decide, by decide +kernel⟩, by decide, by decide⟩, by norm_num, by decide +kernel⟩

/-- The mantissa holds no sign bit twice. -/
def Norm (t : FFmt) (m : ℚ) : Prop := 2 ^ (t.I - 2) ≤ |m|

/-- The largest mantissa in magnitude and the one closest to 0 from below: their quotient is too large for the type of the
quotient of mantissas. -/
def Overflows (n v : FFmt) (m m' : ℚ) : Prop := m = -2 ^ (n.I - 1) ∧ m' = -2 ^ (v.I - v.W)

/-- **C64**, division: the quotient of the mantissas is rounded down to the fraction bits of the output type, the exponents are
subtracted, and the result is converted.  The flag says whether the quotient of the mantissas was rounded.  Missing: one pair of
mantissas (`C64_div_overflow_counterexample`). -/
theorem C64_div_value_partial {noSat : Bool} (n v o : FFmt) (m : ℚ) (e : ℤ) (m' : ℚ) (e' : ℤ) (hn : 1 ≤ n.W) (hv : 1 ≤ v.W)
    (hnE : 1 ≤ n.E) (hvE : 1 ≤ v.E) (hcompiles : 1 ≤ n.I + (v.W - v.I) + (o.W - o.I)) (hm : Num n m e) (hm' : Num v m' e')
    (h : m' ≠ 0) (hov : ¬ Overflows n v m m') (d : Dst) (junk : ℚ) :
    (div noSat n v o d m e m' e' junk).1 =
      d.cvt (⌊m / m' * 2 ^ (o.W - o.I : ℤ)⌋ * 2 ^ (-(o.W - o.I : ℤ)) * 2 ^ (e - e')) ∧
    ((div noSat n v o d m e m' e' junk).2 = true ↔ ∀ k : ℤ, m / m' ≠ k * 2 ^ (-(o.W - o.I : ℤ))) := by
  obtain ⟨a, b⟩ := divMant (noSat := noSat) (o := o) hn hv hcompiles hm.1 hm'.1 h hov junk
  unfold div
  simp only [a, b, div_exp hnE hvE hm.2.1 hm.2.2 hm'.2.1 hm'.2.2]
  simp [h]

/-- A quotient rounded down to `F` fraction bits. -/
theorem floor_rel (x : ℚ) (F k : ℤ) (hx : 2 ^ k ≤ |x|) : |⌊x * 2 ^ F⌋ * 2 ^ (-F) - x| ≤ 2 ^ (-F - k) * |x| := by
  have h1 := Int.floor_le (x * 2 ^ F)
  have h2 := Int.lt_floor_add_one (x * 2 ^ F)
  have hz := Fmt.z_pos (-F)
  have e : x * 2 ^ F * 2 ^ (-F) = x := by rw [mul_assoc, Fmt.z_add]; simp
  have a := mul_le_mul_of_nonneg_right h1 hz.le
  have b := mul_le_mul_of_nonneg_right h2.le hz.le
  rw [e] at a b
  have c := mul_le_mul_of_nonneg_left hx (Fmt.z_pos (-F - k)).le
  rw [Fmt.z_add, show -F - k + k = -F by ring] at c
  rw [abs_le]
  constructor <;> nlinarith

/-- **C64**, division: for a divisor that is not zero and normalised operands, the quotient before its conversion is right up to
`2^(1 + DI + QI - NI - QW)` of its value, for dividend, divisor and quotient types with `NI`, `DI` and `QI` integer bits and `QW`
bits of the quotient, and not above it; the flag says whether it is inexact.  Missing: an error of a unit in the last place of the
output, `2^(2 - QW)`, if `DI + QI > NI + 1`; it is false then (`C64_div_counterexample`). -/
theorem C64_div_partial (n v o : FFmt) (m : ℚ) (e : ℤ) (m' : ℚ) (e' : ℤ) (hn : 1 ≤ n.W) (hv : 3 ≤ v.W)
    (hnE : 1 ≤ n.E) (hvE : 1 ≤ v.E) (hcompiles : 1 ≤ n.I + (v.W - v.I) + (o.W - o.I)) (hm : Num n m e) (hm' : Num v m' e')
    (hN : Norm n m) (hN' : Norm v m') : ∃ q : ℚ,
      q ≤ (m * 2 ^ e) / (m' * 2 ^ e') ∧
      |q - (m * 2 ^ e) / (m' * 2 ^ e')| ≤ 2 ^ (1 + v.I + o.I - n.I - o.W) * |(m * 2 ^ e) / (m' * 2 ^ e')| ∧
      ∀ (noSat : Bool) (d : Dst) (junk : ℚ), (div noSat n v o d m e m' e' junk).1 = d.cvt q ∧
        ((div noSat n v o d m e m' e' junk).2 = true ↔ q ≠ (m * 2 ^ e) / (m' * 2 ^ e')) := by
  have h : m' ≠ 0 := by
    rintro rfl
    have := Fmt.z_pos (v.I - 2)
    unfold Norm at hN'; rw [abs_zero] at hN'; linarith
  have hov : ¬ Overflows n v m m' := by
    rintro ⟨-, h2⟩
    unfold Norm at hN'
    rw [h2, abs_neg, abs_of_pos (Fmt.z_pos _)] at hN'
    have := (zpow_le_zpow_iff_right₀ (by norm_num : (1 : ℚ) < 2)).1 hN'
    omega
  have hval : (m * 2 ^ e) / (m' * 2 ^ e') = m / m' * 2 ^ (e - e') := by
    rw [zpow_sub₀ (by norm_num : (2 : ℚ) ≠ 0)]
    have := (Fmt.z_pos e').ne'
    field_simp
  have hz := Fmt.z_pos (e - e')
  have up : |m'| ≤ 2 ^ (v.I - 1) := by
    obtain ⟨r, r0, r1, rfl⟩ := hm'.1
    have r0' : -2 ^ (v.W - 1) ≤ r := by simpa [minRaw, FFmt.mant] using r0
    have r1' : r ≤ 2 ^ (v.W - 1) := by
      have : r ≤ 2 ^ (v.W - 1) - 1 := by simpa [maxRaw, FFmt.mant] using r1
      omega
    have : |(r : ℚ)| ≤ 2 ^ (v.W - 1) := by
      have := abs_le.2 ⟨r0', r1'⟩
      exact_mod_cast this
    rw [Proof.Float.mant_val, abs_mul, abs_of_pos (Fmt.z_pos _)]
    refine le_trans (mul_le_mul_of_nonneg_right this (Fmt.z_pos _).le) (le_of_eq ?_)
    rw [← zpow_natCast, Fmt.z_add]
    congr 1
    push_cast [Nat.cast_sub (show 1 ≤ v.W by omega)]; ring
  have hq : 2 ^ (n.I - v.I - 1) ≤ |m / m'| := by
    rw [abs_div, le_div_iff₀ (abs_pos.2 h)]
    refine le_trans ?_ hN
    refine le_trans (mul_le_mul_of_nonneg_left up (Fmt.z_pos _).le) (le_of_eq ?_)
    rw [Fmt.z_add]; congr 1; ring
  have hrel := floor_rel (m / m') (o.W - o.I) _ hq
  have hfl : (⌊m / m' * 2 ^ (o.W - o.I : ℤ)⌋ : ℚ) * 2 ^ (-(o.W - o.I : ℤ)) ≤ m / m' := by
    have a := mul_le_mul_of_nonneg_right (Int.floor_le (m / m' * 2 ^ (o.W - o.I : ℤ))) (Fmt.z_pos (-(o.W - o.I : ℤ))).le
    rwa [mul_assoc _ ((2 : ℚ) ^ (o.W - o.I : ℤ)), Fmt.z_add, add_neg_cancel, zpow_zero, mul_one] at a
  refine ⟨⌊m / m' * 2 ^ (o.W - o.I : ℤ)⌋ * 2 ^ (-(o.W - o.I : ℤ)) * 2 ^ (e - e'), ?_, ?_, ?_⟩
  · rw [hval]; exact mul_le_mul_of_nonneg_right hfl hz.le
  · rw [hval, ← sub_mul, abs_mul, abs_mul, abs_of_pos hz, ← mul_assoc]
    refine mul_le_mul_of_nonneg_right (le_trans hrel (le_of_eq ?_)) hz.le
    congr 2; ring
  · intro noSat d junk
    obtain ⟨a, b⟩ := C64_div_value_partial (noSat := noSat) n v o m e m' e' hn (by omega) hnE hvE hcompiles hm hm' h hov d junk
    refine ⟨a, b.trans ?_⟩
    rw [hval]
    constructor
    · intro hk heq
      exact hk _ (mul_right_cancel₀ hz.ne' heq).symm
    · intro hne k hk
      apply hne
      have : m / m' * 2 ^ (o.W - o.I : ℤ) = ((k : ℤ) : ℚ) := by
        rw [hk, mul_assoc, Fmt.z_add, neg_add_cancel, zpow_zero, mul_one]
      rw [this, Int.floor_intCast, ← hk]

/-- 1 / 3 in `ac_float<16,2,8>`: 5461 / 2^14, inexact. -/
example : Num ⟨16, 2, 8, .TRN⟩ 1 0 ∧ Num ⟨16, 2, 8, .TRN⟩ (3 / 2) 1 ∧ Norm ⟨16, 2, 8, .TRN⟩ 1 ∧ Norm ⟨16, 2, 8, .TRN⟩ (3 / 2) ∧
    div false ⟨16, 2, 8, .TRN⟩ ⟨16, 2, 8, .TRN⟩ ⟨16, 2, 8, .TRN⟩ (FFmt.dst ⟨16, 2, 8, .TRN⟩) 1 0 (3 / 2) 1 0 = (5461 / 16384, true) :=
  ⟨⟨⟨16384, by decide, by decide, by decide +kernel⟩, by decide, by decide⟩,
    ⟨⟨24576, by decide, by decide, by decide +kernel⟩, by decide, by decide⟩, by norm_num [Norm], by norm_num [Norm],
    by decide +kernel⟩

/-- If `DI + QI ≤ NI + 1`, for example for types with one integer bit, the error is at most a unit in the last place. -/
theorem C64_div_ulp (n v o : FFmt) (m : ℚ) (e : ℤ) (m' : ℚ) (e' : ℤ) (hn : 1 ≤ n.W) (hv : 3 ≤ v.W)
    (hnE : 1 ≤ n.E) (hvE : 1 ≤ v.E) (hI : v.I + o.I ≤ n.I + 1) (hcompiles : 1 ≤ n.I + (v.W - v.I) + (o.W - o.I)) (hm : Num n m e)
    (hm' : Num v m' e') (hN : Norm n m) (hN' : Norm v m') : ∃ q : ℚ,
      |q - (m * 2 ^ e) / (m' * 2 ^ e')| ≤ 2 ^ (2 - o.W : ℤ) * |(m * 2 ^ e) / (m' * 2 ^ e')| ∧
      ∀ (noSat : Bool) (d : Dst) (junk : ℚ), (div noSat n v o d m e m' e' junk).1 = d.cvt q := by
  obtain ⟨q, -, h2, h3⟩ := C64_div_partial n v o m e m' e' hn hv hnE hvE hcompiles hm hm' hN hN'
  refine ⟨q, le_trans h2 (mul_le_mul_of_nonneg_right ?_ (abs_nonneg _)), fun noSat d junk => (h3 noSat d junk).1⟩
  exact zpow_le_zpow_right₀ (by norm_num) (by omega)

example : (1 : ℤ) + 1 ≤ 1 + 1 ∧ Num ⟨16, 1, 8, .TRN⟩ (1 / 2) 1 ∧ Num ⟨16, 1, 8, .TRN⟩ (3 / 4) 2 ∧ Norm ⟨16, 1, 8, .TRN⟩ (1 / 2) ∧
    Norm ⟨16, 1, 8, .TRN⟩ (3 / 4) :=
  ⟨by decide, ⟨⟨16384, by decide, by decide, by decide +kernel⟩, by decide, by decide⟩,
    ⟨⟨24576, by decide, by decide, by decide +kernel⟩, by decide, by decide⟩, by norm_num [Norm], by norm_num [Norm]⟩

/-- The same for the output itself: one more unit for its conversion, if the quotient is in the normal range of the type. -/
theorem C64_div_output (n v o : FFmt) (m : ℚ) (e : ℤ) (m' : ℚ) (e' : ℤ) (hn : 1 ≤ n.W) (hv : 3 ≤ v.W)
    (hnE : 1 ≤ n.E) (hvE : 1 ≤ v.E) (hI : v.I + o.I ≤ n.I + 1) (hcompiles : 1 ≤ n.I + (v.W - v.I) + (o.W - o.I)) (hm : Num n m e)
    (hm' : Num v m' e') (hN : Norm n m) (hN' : Norm v m') {x : ℚ} (hx : x = (m * 2 ^ e) / (m' * 2 ^ e'))
    (hlow : 2 ^ (o.I - 2 - 2 ^ (o.E - 1)) ≤ (1 - 2 ^ (2 - o.W : ℤ)) * |x|) (hhigh : (1 + 2 ^ (2 - o.W : ℤ)) * |x| ≤ o.maxVal)
    (noSat : Bool) (junk : ℚ) :
    |(div noSat n v o o.dst m e m' e' junk).1 - x| ≤ (2 + 2 ^ (2 - o.W : ℤ)) * 2 ^ (2 - o.W : ℤ) * |x| := by
  obtain ⟨q, h2, h3⟩ := C64_div_ulp n v o m e m' e' hn hv hnE hvE hI hcompiles hm hm' hN hN'
  rw [h3 noSat o.dst junk]
  rw [← hx] at h2
  show |o.cvt q - x| ≤ _
  have hz := Fmt.z_pos (2 - o.W : ℤ)
  generalize hε : (2 : ℚ) ^ (2 - o.W : ℤ) = ε at *
  have t1 : |q| ≤ |q - x| + |x| := by have := abs_add_le (q - x) x; rwa [sub_add_cancel] at this
  have t2 : |x| ≤ |q - x| + |q| := by have := abs_add_le (x - q) q; rwa [sub_add_cancel, abs_sub_comm] at this
  have hq : |q| ≤ o.maxVal := by linarith
  have c := Proof.Float.cvt_err (t := o) (x := q) (by linarith) (le_trans (Proof.FloatRec.minVal_le o) (abs_le.1 hq).1) (abs_le.1 hq).2
  rw [hε] at c
  have k := mul_le_mul_of_nonneg_right (show |q| ≤ (1 + ε) * |x| by linarith) hz.le
  have t3 : |o.cvt q - x| ≤ |o.cvt q - q| + |q - x| := abs_sub_le _ _ _
  linarith

/-- 2/3 is in the normal range of `ac_float<16,1,8>`. -/
example : (2 : ℚ) ^ (1 - 2 - 2 ^ (8 - 1) : ℤ) ≤ (1 - 2 ^ (2 - 16 : ℤ)) * |(2 / 3 : ℚ)| ∧
    (1 + 2 ^ (2 - 16 : ℤ)) * |(2 / 3 : ℚ)| ≤ FFmt.maxVal ⟨16, 1, 8, .TRN⟩ := by
  constructor
  · norm_num
  · decide +kernel

/-- 1 / 3 is 0 if the mantissas are integers: all operands and the result are of type `ac_float<16,16,8>`, with 16 bits. -/
theorem C64_div_counterexample : ∃ (t : FFmt) (m : ℚ) (e : ℤ) (m' : ℚ) (e' : ℤ), Num t m e ∧ Num t m' e' ∧ Norm t m ∧ Norm t m' ∧
    m * 2 ^ e = 1 ∧ m' * 2 ^ e' = 3 ∧ t.W = 16 ∧ (div false t t t t.dst m e m' e' 0).1 = 0 :=
  ⟨⟨16, 16, 8, .TRN⟩, 2 ^ 14, -14, 3 * 2 ^ 13, -13, ⟨⟨16384, by decide, by decide, by decide +kernel⟩, by decide, by decide⟩,
    ⟨⟨24576, by decide, by decide, by decide +kernel⟩, by decide, by decide⟩, by norm_num [Norm], by norm_num [Norm],
    by norm_num, by norm_num, rfl, by decide +kernel⟩

/-- The quotient of two negative numbers is negative if the dividend has the least mantissa and the mantissa of the divisor is
minus its last bit: -2 / (-1/64) = -128 for `ac_float<8,2,4>`.  The divisor is not normalised. -/
theorem C64_div_overflow_counterexample : ∃ (t : FFmt) (m m' : ℚ), Num t m 0 ∧ Num t m' 0 ∧ Norm t m ∧ m < 0 ∧ m' < 0 ∧
    (div false t t t t.dst m 0 m' 0 0).1 < 0 ∧ (div false t t t t.dst m 0 m' 0 0).2 = false :=
  ⟨⟨8, 2, 4, .TRN⟩, -2, -1 / 64, ⟨⟨-128, by decide, by decide, by decide +kernel⟩, by decide, by decide⟩,
    ⟨⟨-1, by decide, by decide, by decide +kernel⟩, by decide, by decide⟩, by norm_num [Norm], by norm_num, by norm_num,
    by decide +kernel, by decide +kernel⟩

/-- **C64**, division by zero: the smallest value of the output type for a negative dividend and the largest for the others. -/
theorem C64_div_zero (n v o : FFmt) (d : Dst) (m : ℚ) (e e' : ℤ) (junk : ℚ) :
    (div false n v o d m e 0 e' junk).1 = if m < 0 then d.minVal else d.maxVal := by
  unfold div; simp

example : (div false ⟨8, 2, 4, .TRN⟩ ⟨8, 2, 4, .TRN⟩ ⟨8, 2, 4, .TRN⟩ (FFmt.dst ⟨8, 2, 4, .TRN⟩) (-1) 0 0 0 5).1 = -256 := by
  rw [C64_div_zero]; decide +kernel

/-- Rounding to `F` fraction bits changes by less than a unit. -/
theorem quant_abs (q : QMode) (x : ℝ) (F : ℤ) : |(quant q (x * 2 ^ F) : ℝ) * 2 ^ (-F) - x| ≤ 2 ^ (-F) := by
  have h := (quant_err q (x * 2 ^ F)).le
  have hz : (0 : ℝ) < 2 ^ (-F) := zpow_pos (by norm_num) _
  have e : (quant q (x * 2 ^ F) : ℝ) * 2 ^ (-F) - x = (quant q (x * 2 ^ F) - x * 2 ^ F) * 2 ^ (-F) := by
    rw [sub_mul, mul_assoc x, ← zpow_add₀ (by norm_num)]; simp
  rw [e, abs_mul, abs_of_pos hz]
  have := mul_le_mul_of_nonneg_right h hz.le
  linarith

/-- The rounding mode of the root of the mantissa truncates, as by default, or the input type has an odd number of integer bits. -/
def Keeps (tq : QMode) (tf : ℤ) (t : FFmt) : Prop :=
  (tq = .TRN ∨ tq = .TRN_ZERO) ∨ (t.I % 2 = 1 ∧ 2 ≤ tf + (t.I + 1) / 2)

/-- **C64**, square root: right up to `2^(e/2 - tf)`, and up to `2^(1 - tf - I/2)` of its value for a normalised mantissa with
`I` integer bits.  Missing: rounding modes for an even `I` (`C64_sqrt_wrap_counterexample`), and an error of a unit in the last
place of the output, `2^(2 - OW)`; it is false for outputs with many integer bits (`C64_sqrt_precision_counterexample`). -/
theorem C64_sqrt_partial (tq : QMode) (tf : ℤ) (t : FFmt) (m : ℚ) (e : ℤ) (hW : 1 ≤ t.W) (hcompiles : 1 ≤ tf + (t.I + 1) / 2)
    (hq : Keeps tq tf t) (hm : Num t m e) (h0 : 0 ≤ m) : ∃ y : ℚ, (∀ d : Dst, Model.Float.sqrt tq tf t d m e = d.cvt y) ∧
      |(y : ℝ) - Real.sqrt ((m * 2 ^ e : ℚ) : ℝ)| ≤ 2 ^ (e / 2 - tf) ∧
      (Norm t m → |(y : ℝ) - Real.sqrt ((m * 2 ^ e : ℚ) : ℝ)| ≤ 2 ^ (1 - tf - t.I / 2) * Real.sqrt ((m * 2 ^ e : ℚ) : ℝ)) := by
  refine ⟨_, fun d => sqrt_eq d hW hcompiles hq hm.1 h0 e, ?_⟩
  set s := Real.sqrt ((m * 2 ^ (e % 2) : ℚ) : ℝ) with hs
  have hz : (0 : ℝ) < 2 ^ (e / 2) := zpow_pos (by norm_num) _
  have hroot : Real.sqrt ((m * 2 ^ e : ℚ) : ℝ) = s * 2 ^ (e / 2) := by
    have : ((m * 2 ^ e : ℚ) : ℝ) = ((m * 2 ^ (e % 2) : ℚ) : ℝ) * (2 ^ (e / 2)) ^ 2 := by
      push_cast
      rw [sq_zR, mul_assoc, ← zpow_add₀ (by norm_num), Int.emod_add_mul_ediv]
    rw [this, Real.sqrt_mul' _ (by positivity), Real.sqrt_sq hz.le]
  have hb := mul_le_mul_of_nonneg_right (quant_abs tq s tf) hz.le
  have hmain : |((quant tq (s * 2 ^ tf) * 2 ^ (-tf) * 2 ^ (e / 2) : ℚ) : ℝ) - s * 2 ^ (e / 2)| ≤ 2 ^ (-tf) * 2 ^ (e / 2) := by
    push_cast
    rw [← sub_mul, abs_mul, abs_of_pos hz]
    exact hb
  rw [hroot]
  refine ⟨le_trans hmain (le_of_eq ?_), fun hN => le_trans hmain ?_⟩
  · rw [← zpow_add₀ (by norm_num)]; congr 1; ring
  · rw [← mul_assoc]
    apply mul_le_mul_of_nonneg_right _ hz.le
    have hl : (2 : ℝ) ^ (t.I / 2 - 1) ≤ s := by
      apply Real.le_sqrt_of_sq_le
      rw [sq_zR]
      unfold Norm at hN
      rw [abs_of_nonneg h0] at hN
      have h1 : (2 : ℚ) ^ (2 * (t.I / 2 - 1)) ≤ m * 2 ^ (e % 2) := by
        have a : (2 : ℚ) ^ (2 * (t.I / 2 - 1)) ≤ 2 ^ (t.I - 2) := zpow_le_zpow_right₀ (by norm_num) (by omega)
        have b : (1 : ℚ) ≤ 2 ^ (e % 2) := one_le_zpow₀ (by norm_num) (by omega)
        have c := mul_le_mul_of_nonneg_left b h0
        linarith
      have := (Rat.cast_le (K := ℝ)).2 h1
      push_cast at this ⊢
      exact this
    have hz2 : (0 : ℝ) < 2 ^ (1 - tf - t.I / 2) := zpow_pos (by norm_num) _
    refine le_trans (le_of_eq ?_) (mul_le_mul_of_nonneg_left hl hz2.le)
    rw [← zpow_add₀ (by norm_num)]; congr 1; ring

/-- The square root of 2 in `ac_float<16,2,8>`. -/
example : Keeps .TRN 14 ⟨16, 2, 8, .TRN⟩ ∧ Num ⟨16, 2, 8, .TRN⟩ 1 1 ∧ Norm ⟨16, 2, 8, .TRN⟩ 1 ∧
    Model.Float.sqrt .TRN 14 ⟨16, 2, 8, .TRN⟩ (FFmt.dst ⟨16, 2, 8, .TRN⟩) 1 1 = 23170 / 16384 :=
  ⟨Or.inl (Or.inl rfl), ⟨⟨16384, by decide, by decide, by decide +kernel⟩, by decide, by decide⟩, by norm_num [Norm],
    by decide +kernel⟩

/-- `ac_sqrt<false,32,AC_RND>` gives 0 for the number below 4 in `ac_float<16,2,8>` and an output of type `ac_float<8,2,8>`: the
root of the mantissa is rounded up to 2 and wraps. -/
theorem C64_sqrt_wrap_counterexample : ∃ (t o : FFmt) (m : ℚ), Num t m 1 ∧ Norm t m ∧ (7 / 2 : ℚ) ≤ m * 2 ∧
    Model.Float.sqrt .RND (o.W - o.I) t o.dst m 1 = 0 :=
  ⟨⟨16, 2, 8, .TRN⟩, ⟨8, 2, 8, .TRN⟩, 2 - 1 / 2 ^ 14, ⟨⟨32767, by decide, by decide, by decide +kernel⟩, by decide, by decide⟩,
    by norm_num [Norm], by norm_num, by decide +kernel⟩

/-- The square root of 2 in `ac_float<16,16,8>` is right up to 8 of its 16 bits: 181/128. -/
theorem C64_sqrt_precision_counterexample : ∃ (t : FFmt) (m : ℚ) (e : ℤ), Num t m e ∧ Norm t m ∧ m * 2 ^ e = 2 ∧ t.W = 16 ∧
    Model.Float.sqrt .TRN (t.W - t.I) t t.dst m e = 181 / 128 :=
  ⟨⟨16, 16, 8, .TRN⟩, 2 ^ 14, -13, ⟨⟨16384, by decide, by decide, by decide +kernel⟩, by decide, by decide⟩,
    by norm_num [Norm], by norm_num, rfl, by decide +kernel⟩

/-- The square root does not keep the order: it is larger for the number below 2 in `ac_float<18,1,8>` than for 2, with an output
of type `ac_float<18,2,8>`. -/
theorem C64_sqrt_order_counterexample : ∃ (t o : FFmt) (m : ℚ) (e : ℤ) (m' : ℚ) (e' : ℤ), Num t m e ∧ Num t m' e' ∧ Norm t m ∧
    Norm t m' ∧ 0 < m * 2 ^ e ∧ m * 2 ^ e < m' * 2 ^ e' ∧
    Model.Float.sqrt .TRN (o.W - o.I) t o.dst m' e' < Model.Float.sqrt .TRN (o.W - o.I) t o.dst m e :=
  ⟨⟨18, 1, 8, .TRN⟩, ⟨18, 2, 8, .TRN⟩, 1 - 1 / 2 ^ 17, 1, 1 / 2, 2,
    ⟨⟨131071, by decide, by decide, by decide +kernel⟩, by decide, by decide⟩,
    ⟨⟨65536, by decide, by decide, by decide +kernel⟩, by decide, by decide⟩, by norm_num [Norm], by norm_num [Norm], by norm_num,
    by norm_num, by decide +kernel⟩

end Props.FloatDiv
