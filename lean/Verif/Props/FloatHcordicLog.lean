import Verif.Proof.FloatHcordic
import Verif.Proof.FloatCvt
import Verif.Props.FloatRec
import Verif.Props.HcordicLog

/-! # C68: logarithms of ac_float by hyperbolic CORDIC

`log tf tq t o d m e` and `log2 tf tq t o d m e` are the outputs of `ac_log_cordic` and `ac_log2_cordic` for the ac_float number
`m * 2^e` of type `t` and an output of type `ac_float<o.W,o.I,o.E,o.Q>`; `none` would be a table read out of bounds.  `d` is the
conversion of an exact value to the output type, `o.dst` for the output itself.  `tf` is `some TF_` if the template parameter
`OR_TF` overrides the widths of the temporaries with `TF_`, `tq` is the template parameter `TQ`.  The mantissa need not be
normalised. -/

namespace Props.FloatHcordicLog
open Ac Model.Float Model.FloatHcordic Props.FloatRec
open Props.HcordicLog (ulps2 ulpsE ulps2_eq down_or)

/-- Fraction bits of the temporaries: those of the mantissa of the output, unless they are overridden. -/
def bits (tf : Option ℕ) (o : FFmt) : ℕ := tf.getD (o.W - o.I).toNat

/-- **C68**, table safety: no argument, not even zero, in no format that passes the static assertions, makes the functions read
outside their tables. -/
theorem C68_in_table (tf : Option ℕ) (tq : QMode) (t o : FFmt) (d : Dst) (h1 : tf.getD (t.W - 1) ≤ 44) (h2 : bits tf o ≤ 44) (m : ℚ) (e : ℤ) :
    (log tf tq t o d m e).isSome ∧ (log2 tf tq t o d m e).isSome :=
  Proof.FloatHcordic.log_some tf tq t o d h1 h2 m e

/-- Base 2 and base e logarithm of 5/2: 1.321928 and 0.916291. -/
example : log2 none .TRN ⟨16, 2, 8, .TRN⟩ ⟨24, 2, 8, .TRN⟩ (FFmt.dst ⟨24, 2, 8, .TRN⟩) (5 / 4) 1 = some (693071 / 524288) ∧
    log none .TRN ⟨16, 2, 8, .TRN⟩ ⟨24, 2, 8, .TRN⟩ (FFmt.dst ⟨24, 2, 8, .TRN⟩) (5 / 4) 1 = some (3843201 / 4194304) := by
  constructor <;> decide +kernel

/-- **C68**, base 2: for every positive number, normalised or not, the value that is converted to the output type is within 5 units
of the temporaries (8 if their widths are overridden) of the logarithm.  Missing for the full claim: an error relative to the
logarithm, which is false near one (`C68_near_one_wrong`); output types without fraction bits in the mantissa, for which the output
is wrong (`C68_integer_mantissa_wrong`); roundings up of overridden temporaries, for which it is false (`C68_round_wrong`). -/
theorem C68_log2_partial {tf : Option ℕ} {tq : QMode} {t o : FFmt} (hW : 2 ≤ t.W)
    (h44 : max (tf.getD (t.W - 1)) (bits tf o) ≤ 44) (hp1 : 1 ≤ tf.getD (t.W - 1)) (hq : tq = .TRN ∨ tq = .TRN_ZERO ∨ tf = none)
    {m : ℚ} {e : ℤ} (hm : Num t m e) (hm0 : 0 < m) :
    ∃ r : ℚ, (∀ d : Dst, log2 tf tq t o d m e = some (d.cvt r)) ∧
      |(r : ℝ) - Real.logb 2 ((m * 2 ^ e : ℚ) : ℝ)| ≤ ulps2 tf / 2 ^ bits tf o := by
  obtain ⟨r, r1, r2⟩ := Proof.FloatHcordic.log2_eq (tf := tf) (tq := tq) (o := o) hW h44 hp1 (down_or hq) hm.1 hm.2 hm0
  rw [ulps2_eq] at r2
  exact ⟨r, r1, r2⟩

/-- **C68**, base e: the same, within 6 units of the temporaries (8 if their widths are overridden) and half a unit for each factor
of two between the argument and one.  Missing: as for base 2. -/
theorem C68_log_partial {tf : Option ℕ} {tq : QMode} {t o : FFmt} (hW : 2 ≤ t.W)
    (h44 : max (tf.getD (t.W - 1)) (bits tf o) ≤ 44) (hp1 : 1 ≤ tf.getD (t.W - 1)) (hq : tq = .TRN ∨ tq = .TRN_ZERO ∨ tf = none)
    {m : ℚ} {e : ℤ} (hm : Num t m e) (hm0 : 0 < m) :
    ∃ r : ℚ, (∀ d : Dst, log tf tq t o d m e = some (d.cvt r)) ∧
      |(r : ℝ) - Real.log ((m * 2 ^ e : ℚ) : ℝ)| ≤ ulpsE tf ((m * 2 ^ e : ℚ) : ℝ) / 2 ^ bits tf o :=
  Proof.FloatHcordic.log_eq (tf := tf) (tq := tq) (o := o) hW h44 hp1 (down_or hq) hm.1 hm.2 hm0

/-- **C68**, the output: if the output type holds the base 2 logarithm, the output is within the error above, one unit of the
mantissa of the output and the smallest number of the output type of it. -/
theorem C68_log2_output_partial {tf : Option ℕ} {tq : QMode} {t o : FFmt} (hW : 2 ≤ t.W)
    (h44 : max (tf.getD (t.W - 1)) (bits tf o) ≤ 44) (hp1 : 1 ≤ tf.getD (t.W - 1)) (hq : tq = .TRN ∨ tq = .TRN_ZERO ∨ tf = none)
    {m : ℚ} {e : ℤ} (hm : Num t m e) (hm0 : 0 < m)
    (hr : |Real.logb 2 ((m * 2 ^ e : ℚ) : ℝ)| + ulps2 tf / 2 ^ bits tf o ≤ ((o.maxVal : ℚ) : ℝ)) :
    ∃ z : ℚ, log2 tf tq t o o.dst m e = some z ∧ |(z : ℝ) - Real.logb 2 ((m * 2 ^ e : ℚ) : ℝ)| ≤ ulps2 tf / 2 ^ bits tf o +
      (|Real.logb 2 ((m * 2 ^ e : ℚ) : ℝ)| + ulps2 tf / 2 ^ bits tf o) * 2 ^ (2 - (o.W : ℤ)) + 2 ^ (o.I - o.W - 2 ^ (o.E - 1)) := by
  obtain ⟨r, r1, r2⟩ := C68_log2_partial (o := o) hW h44 hp1 hq hm hm0
  exact ⟨_, r1 o.dst, Proof.FloatCvt.output_abs r2 hr⟩

/-- **C68**, the output: the same for base e. -/
theorem C68_log_output_partial {tf : Option ℕ} {tq : QMode} {t o : FFmt} (hW : 2 ≤ t.W)
    (h44 : max (tf.getD (t.W - 1)) (bits tf o) ≤ 44) (hp1 : 1 ≤ tf.getD (t.W - 1)) (hq : tq = .TRN ∨ tq = .TRN_ZERO ∨ tf = none)
    {m : ℚ} {e : ℤ} (hm : Num t m e) (hm0 : 0 < m)
    (hr : |Real.log ((m * 2 ^ e : ℚ) : ℝ)| + ulpsE tf ((m * 2 ^ e : ℚ) : ℝ) / 2 ^ bits tf o ≤ ((o.maxVal : ℚ) : ℝ)) :
    ∃ z : ℚ, log tf tq t o o.dst m e = some z ∧
      |(z : ℝ) - Real.log ((m * 2 ^ e : ℚ) : ℝ)| ≤ ulpsE tf ((m * 2 ^ e : ℚ) : ℝ) / 2 ^ bits tf o +
        (|Real.log ((m * 2 ^ e : ℚ) : ℝ)| + ulpsE tf ((m * 2 ^ e : ℚ) : ℝ) / 2 ^ bits tf o) * 2 ^ (2 - (o.W : ℤ)) +
        2 ^ (o.I - o.W - 2 ^ (o.E - 1)) := by
  obtain ⟨r, r1, r2⟩ := C68_log_partial (o := o) hW h44 hp1 hq hm hm0
  exact ⟨_, r1 o.dst, Proof.FloatCvt.output_abs r2 hr⟩

theorem num52 : Num ⟨16, 2, 8, .TRN⟩ (5 / 4) 1 := ⟨⟨20480, by decide, by decide, by decide +kernel⟩, by decide, by decide⟩

/-- The hypotheses hold for 5/2, which is not normalised as an integer mantissa, and an output with 22 fraction bits. -/
example : ∃ z : ℚ, log2 none .TRN ⟨16, 2, 8, .TRN⟩ ⟨24, 2, 8, .TRN⟩ (FFmt.dst ⟨24, 2, 8, .TRN⟩) (5 / 4) 1 = some z ∧
    |(z : ℝ) - Real.logb 2 ((5 / 4 * 2 ^ (1 : ℤ) : ℚ) : ℝ)| ≤ ulps2 none / 2 ^ 22 +
      (|Real.logb 2 ((5 / 4 * 2 ^ (1 : ℤ) : ℚ) : ℝ)| + ulps2 none / 2 ^ 22) * 2 ^ (2 - (24 : ℤ)) + 2 ^ (2 - 24 - 2 ^ (8 - 1) : ℤ) := by
  refine C68_log2_output_partial (tf := none) (tq := .TRN) (t := ⟨16, 2, 8, .TRN⟩) (o := ⟨24, 2, 8, .TRN⟩) (by norm_num)
    (by decide) (by decide) (Or.inl rfl) num52 (by norm_num) ?_
  have e : (((5 / 4 : ℚ) * 2 ^ (1 : ℤ) : ℚ) : ℝ) = 5 / 2 := by norm_num
  obtain ⟨-, -, h0, h1⟩ := Props.HcordicLog.log52
  have hb : bits none ⟨24, 2, 8, .TRN⟩ = 22 := by decide
  have hM : (10 : ℚ) ≤ FFmt.maxVal ⟨24, 2, 8, .TRN⟩ := by decide +kernel
  have hM' : (10 : ℝ) ≤ ((FFmt.maxVal ⟨24, 2, 8, .TRN⟩ : ℚ) : ℝ) := by exact_mod_cast hM
  refine le_trans ?_ hM'
  rw [e, hb, abs_of_nonneg h0]
  norm_num [ulps2]
  linarith

/-- An output type with an integer mantissa gives temporaries without fraction bits: the natural logarithm of 5/4 * 2^100, 69.54,
comes out as 49.5, that of 5/2 as 0. -/
theorem C68_integer_mantissa_wrong :
    log none .TRN ⟨16, 2, 8, .TRN⟩ ⟨24, 24, 8, .TRN⟩ (FFmt.dst ⟨24, 24, 8, .TRN⟩) (5 / 4) 100 = some (99 / 2) ∧
    log none .TRN ⟨16, 2, 8, .TRN⟩ ⟨24, 2, 8, .TRN⟩ (FFmt.dst ⟨24, 2, 8, .TRN⟩) (5 / 4) 100 = some (284827 / 4096) ∧
    log none .TRN ⟨16, 2, 8, .TRN⟩ ⟨24, 24, 8, .TRN⟩ (FFmt.dst ⟨24, 24, 8, .TRN⟩) (5 / 4) 1 = some 0 := by
  refine ⟨by decide +kernel, by decide +kernel, by decide +kernel⟩

/-- Near one the logarithm has few correct bits, and not even the sign: the natural logarithm of 1 + 2^-14 is negative for an output
with a mantissa of 12 bits, and that of one is not zero. -/
theorem C68_near_one_wrong :
    log none .TRN ⟨16, 2, 8, .TRN⟩ ⟨12, 2, 8, .TRN⟩ (FFmt.dst ⟨12, 2, 8, .TRN⟩) (16385 / 16384) 0 = some (-1 / 2048) ∧
    log none .TRN ⟨16, 2, 8, .TRN⟩ ⟨24, 2, 8, .TRN⟩ (FFmt.dst ⟨24, 2, 8, .TRN⟩) 1 0 = some (-1 / 8388608) := by
  refine ⟨by decide +kernel, by decide +kernel⟩

/-- Rounding an overridden temporary takes a mantissa just below two to one half: the base 2 logarithm of 2 - 2^-38, just below 1,
comes out as 1.77. -/
theorem C68_round_wrong :
    log2 (some 16) .RND ⟨40, 2, 8, .TRN⟩ ⟨24, 2, 8, .TRN⟩ (FFmt.dst ⟨24, 2, 8, .TRN⟩) (2 - 1 / 2 ^ 38) 0 = some (116237 / 65536) := by
  decide +kernel

/-- The logarithms of zero are ordinary numbers: 0.77 for base 2, -0.24 for base e. -/
theorem C68_zero_wrong :
    log2 none .TRN ⟨16, 2, 8, .TRN⟩ ⟨24, 2, 8, .TRN⟩ (FFmt.dst ⟨24, 2, 8, .TRN⟩) 0 0 = some (3244859 / 4194304) ∧
    log none .TRN ⟨16, 2, 8, .TRN⟩ ⟨24, 2, 8, .TRN⟩ (FFmt.dst ⟨24, 2, 8, .TRN⟩) 0 0 = some (-991307 / 4194304) := by
  constructor <;> decide +kernel

end Props.FloatHcordicLog
