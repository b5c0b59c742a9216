import Verif.Proof.FloatHcordic
import Verif.Props.FloatHcordicExp

/-! # C70: powers of ac_float by hyperbolic CORDIC

`pow tf tq t s o d m e n f` is the output of `ac_pow_cordic` for the base `m * 2^e` of type `t`, the exponent `n * 2^f` of type `s` and
an output of type `o`; the other parameters are those of C68. -/

namespace Props.FloatHcordicPow
open Ac Model.Float Model.FloatHcordic Props.FloatRec Proof.Hcordic
open Props.FloatPow (range)
open Props.FloatHcordicLog (bits)
open Props.HcordicLog (ulps2 ulps2_eq down_or)
open Proof.FloatPow (outRange)

/-- Fraction bits of the logarithm of the base: the width of the mantissa of the output, unless it is overridden. -/
def lbits (tf : Option ℕ) (o : FFmt) : ℕ := tf.getD o.W

/-- The error of the product of an exponent `b` and the logarithm. -/
noncomputable def prodErr (tf : Option ℕ) (o : FFmt) (b : ℝ) : ℝ := |b| * (ulps2 tf / 2 ^ lbits tf o)

/-- The relative error of the power. -/
noncomputable def powErr (tf : Option ℕ) (o : FFmt) (b : ℝ) : ℝ :=
  2 ^ (prodErr tf o b + 1 / 2 ^ bits tf o) * (1 + 13 / 2 / 2 ^ bits tf o) - 1

/-- **C70**, table safety, for every base, also zero and negative ones. -/
theorem C70_in_table (tf : Option ℕ) (tq : QMode) (t s o : FFmt) (d : Dst) (h1 : tf.getD (t.W - 1) ≤ 44) (h2 : lbits tf o ≤ 44)
    (h3 : bits tf o ≤ 44) (m : ℚ) (e : ℤ) (n : ℚ) (f : ℤ) : (pow tf tq t s o d m e n f).isSome :=
  (Proof.FloatHcordic.pow_zero tf tq t s o d h1 h2 h3 m e n f).1

/-- (5/2)^(3/2): 3.952847. -/
example : pow none .TRN ⟨16, 2, 8, .TRN⟩ ⟨16, 2, 8, .TRN⟩ ⟨24, 2, 8, .TRN⟩ (FFmt.dst ⟨24, 2, 8, .TRN⟩) (5 / 4) 1 (3 / 2) 0 =
    some (4144859 / 1048576) := by decide +kernel

/-- **C70**, a base of zero: the power is 1 for an exponent of zero, else 0. -/
theorem C70_zero (tf : Option ℕ) (tq : QMode) (t s o : FFmt) (d : Dst) (h1 : tf.getD (t.W - 1) ≤ 44) (h2 : lbits tf o ≤ 44)
    (h3 : bits tf o ≤ 44) (e : ℤ) (n : ℚ) (f : ℤ) : pow tf tq t s o d 0 e n f = some (if n = 0 then d.cvt 1 else d.cvt 0) :=
  (Proof.FloatHcordic.pow_zero tf tq t s o d h1 h2 h3 0 e n f).2 rfl

/-- That includes the pole: 0 to the power -1 is 0, not the largest number or an error. -/
theorem C70_pole_wrong : pow none .TRN ⟨16, 2, 8, .TRN⟩ ⟨16, 2, 8, .TRN⟩ ⟨24, 2, 8, .TRN⟩ (FFmt.dst ⟨24, 2, 8, .TRN⟩) 0 0 (-1) 0 = some 0 := by
  decide +kernel

/-- **C70**: for a positive base, if the output type holds the power, the value that is converted to the output type is within the
relative error `powErr` of the power; it grows with the exponent, as the logarithm has `lbits` fraction bits.  A base of one gives
exactly one.  Missing for the full claim: roundings up of overridden temporaries, for which it is false (`C70_round_wrong`), and an
error that does not grow with the exponent, which is false (`C70_error_grows`). -/
theorem C70_error_partial {tf : Option ℕ} {tq : QMode} {t s o : FFmt} (hW : 2 ≤ t.W) (hWs : 1 ≤ s.W) (ho : 1 ≤ o.W)
    (h44 : max (tf.getD (t.W - 1)) (lbits tf o) ≤ 44) (hp1 : 1 ≤ tf.getD (t.W - 1))
    (hb1 : 1 ≤ bits tf o) (hb44 : bits tf o ≤ 44) (hq : tq = .TRN ∨ tq = .TRN_ZERO ∨ tf = none)
    {m n : ℚ} {e f : ℤ} (hm : Num t m e) (hm0 : 0 < m) (hn : Num s n f)
    (hr : |((n * 2 ^ f : ℚ) : ℝ) * Real.logb 2 ((m * 2 ^ e : ℚ) : ℝ)| + prodErr tf o ((n * 2 ^ f : ℚ) : ℝ) ≤ range o) :
    ∃ r : ℚ, (∀ d : Dst, pow tf tq t s o d m e n f = some (d.cvt r)) ∧
      |(r : ℝ) - ((m * 2 ^ e : ℚ) : ℝ) ^ ((n * 2 ^ f : ℚ) : ℝ)| ≤
        powErr tf o ((n * 2 ^ f : ℚ) : ℝ) * ((m * 2 ^ e : ℚ) : ℝ) ^ ((n * 2 ^ f : ℚ) : ℝ) ∧ (m * 2 ^ e = 1 → r = 1) := by
  obtain ⟨l, l1, l2⟩ := Proof.FloatHcordic.pow_arg (tf := tf) (tq := tq) (o := o) hW hWs h44 hp1 (down_or hq) hm.1 hm.2 hm0
  rw [ulps2_eq] at l1
  have hl1 : |(l : ℝ) - Real.logb 2 ((m * 2 ^ e : ℚ) : ℝ)| ≤ ulps2 tf / 2 ^ lbits tf o := l1
  obtain ⟨r, r1, r2⟩ := Proof.FloatHcordic.end_eq (tf := tf) (tq := tq) (o := o) hb1 hb44
    (Fmt.rep_cvt (Proof.FloatHcordic.arg_W tf tq o).2.1 (n * 2 ^ f * l))
  have ha0 : (0 : ℝ) < ((m * 2 ^ e : ℚ) : ℝ) := by exact_mod_cast mul_pos hm0 (Fmt.z_pos e)
  have key : |(r : ℝ) - ((m * 2 ^ e : ℚ) : ℝ) ^ ((n * 2 ^ f : ℚ) : ℝ)| ≤
      powErr tf o ((n * 2 ^ f : ℚ) : ℝ) * ((m * 2 ^ e : ℚ) : ℝ) ^ ((n * 2 ^ f : ℚ) : ℝ) := by
    have herr := fun h => (Rat.cast_le (K := ℝ)).2 (Proof.FloatHcordic.arg_err tf tq ho (x := n * 2 ^ f * l) h)
    generalize (argFmt tf tq o).cvt (n * 2 ^ f * l) = v at *
    generalize m * 2 ^ e = a at *
    generalize n * 2 ^ f = b at *
    have hd : |(b : ℝ) * l - b * Real.logb 2 a| ≤ prodErr tf o b := by
      rw [← mul_sub, abs_mul]
      exact mul_le_mul_of_nonneg_left hl1 (abs_nonneg _)
    have hin : |b * l| ≤ (outRange o : ℚ) := by
      have : |(b : ℝ) * l| ≤ range o := by
        have h := abs_add_le ((b : ℝ) * l - b * Real.logb 2 a) (b * Real.logb 2 a)
        rw [sub_add_cancel] at h; linarith
      have h' : ((|b * l| : ℚ) : ℝ) ≤ ((outRange o : ℚ) : ℝ) := by push_cast; exact this
      exact Rat.cast_le.1 h'
    have hv := herr hin
    push_cast at hv
    have hA : (a : ℝ) ^ (b : ℝ) = 2 ^ ((b : ℝ) * Real.logb 2 a) := by
      rw [mul_comm, Real.rpow_mul (by norm_num), Real.rpow_logb (by norm_num) (by norm_num) ha0]
    have hD : |(v : ℝ) - b * Real.logb 2 a| ≤ prodErr tf o b + 1 / 2 ^ bits tf o := by
      have h := abs_add_le ((v : ℝ) - b * l) ((b : ℝ) * l - b * Real.logb 2 a)
      rw [sub_add_sub_cancel] at h
      have : |(v : ℝ) - b * l| ≤ 1 / 2 ^ bits tf o := hv
      linarith
    have hpos : (0 : ℝ) < (a : ℝ) ^ (b : ℝ) := Real.rpow_pos_of_pos ha0 _
    obtain ⟨c, c0, c1, c2, c3⟩ := r2.unit hb1
    have e1 : (a : ℝ) ^ (b : ℝ) * 2 ^ ((v : ℝ) - b * Real.logb 2 a) = 2 ^ (v : ℝ) := by
      rw [hA, ← Real.rpow_add (by norm_num)]; congr 1; ring
    have k := pow_rel hpos.le hD (by positivity) c2 (by rw [e1]; exact c3)
    refine k.trans (mul_le_mul_of_nonneg_right ?_ hpos.le)
    refine sub_le_sub_right (mul_le_mul_of_nonneg_left ?_ (by positivity)) 1
    have : c / 2 ^ bits tf o ≤ 13 / 2 / 2 ^ bits tf o := div_le_div_of_nonneg_right c1 (by positivity)
    exact add_le_add_right this 1
  by_cases h1 : m * 2 ^ e = 1
  · refine ⟨1, fun d => ?_, ?_, fun _ => rfl⟩
    · rw [l2 d n f hn.1, r1]; simp [h1]
    · rw [h1]
      rw [h1] at key
      have h := le_trans (abs_nonneg _) key
      simpa using h
  · refine ⟨r, fun d => ?_, key, fun h => absurd h h1⟩
    rw [l2 d n f hn.1, r1]; simp [h1]

/-- The hypotheses hold for (5/2)^(3/2) and an output with 22 fraction bits. -/
example : ∃ r : ℚ, (∀ d : Dst, pow none .TRN ⟨16, 2, 8, .TRN⟩ ⟨16, 2, 8, .TRN⟩ ⟨24, 2, 8, .TRN⟩ d (5 / 4) 1 (3 / 2) 0 = some (d.cvt r)) ∧
      |(r : ℝ) - ((5 / 4 * 2 ^ (1 : ℤ) : ℚ) : ℝ) ^ ((3 / 2 * 2 ^ (0 : ℤ) : ℚ) : ℝ)| ≤
        powErr none ⟨24, 2, 8, .TRN⟩ ((3 / 2 * 2 ^ (0 : ℤ) : ℚ) : ℝ) * ((5 / 4 * 2 ^ (1 : ℤ) : ℚ) : ℝ) ^ ((3 / 2 * 2 ^ (0 : ℤ) : ℚ) : ℝ) ∧
      ((5 / 4 : ℚ) * 2 ^ (1 : ℤ) = 1 → r = 1) := by
  refine C70_error_partial (by norm_num) (by norm_num) (by norm_num) (by decide) (by decide) (by decide) (by decide) (Or.inl rfl)
    Props.FloatHcordicLog.num52 (by norm_num) ⟨⟨24576, by decide, by decide, by decide +kernel⟩, by decide, by decide⟩ ?_
  have e : (((5 / 4 : ℚ) * 2 ^ (1 : ℤ) : ℚ) : ℝ) = 5 / 2 := by norm_num
  have e' : (((3 / 2 : ℚ) * 2 ^ (0 : ℤ) : ℚ) : ℝ) = 3 / 2 := by norm_num
  obtain ⟨-, -, h0, h1⟩ := Props.HcordicLog.log52
  have hr : range ⟨24, 2, 8, .TRN⟩ = 150 := by decide
  have hl : lbits none ⟨24, 2, 8, .TRN⟩ = 24 := by decide
  rw [e, e', hr, abs_of_nonneg (by linarith)]
  unfold prodErr
  rw [hl, abs_of_pos (by norm_num)]
  norm_num [ulps2]
  linarith

/-- **C70**, large powers: if the power is twice the largest number of the output type, up to the error of the logarithm, the output
is the largest number. -/
theorem C70_large {tf : Option ℕ} {tq : QMode} {t s o : FFmt} (hW : 2 ≤ t.W) (hWs : 1 ≤ s.W) (ho : 2 ≤ o.W)
    (h44 : max (tf.getD (t.W - 1)) (lbits tf o) ≤ 44) (hp1 : 1 ≤ tf.getD (t.W - 1))
    (hb1 : 1 ≤ bits tf o) (hb44 : bits tf o ≤ 44) (hq : tq = .TRN ∨ tq = .TRN_ZERO ∨ tf = none)
    {m n : ℚ} {e f : ℤ} (hm : Num t m e) (hm0 : 0 < m) (hn : Num s n f) (hne : m * 2 ^ e ≠ 1)
    (hr : ((o.I - 1 + 2 ^ (o.E - 1) : ℤ) : ℝ) + prodErr tf o ((n * 2 ^ f : ℚ) : ℝ) ≤
      ((n * 2 ^ f : ℚ) : ℝ) * Real.logb 2 ((m * 2 ^ e : ℚ) : ℝ)) :
    pow tf tq t s o o.dst m e n f = some o.maxVal := by
  obtain ⟨l, l1, l2⟩ := Proof.FloatHcordic.pow_arg (tf := tf) (tq := tq) (o := o) hW hWs h44 hp1 (down_or hq) hm.1 hm.2 hm0
  rw [ulps2_eq] at l1
  have hl1 : |(l : ℝ) - Real.logb 2 ((m * 2 ^ e : ℚ) : ℝ)| ≤ ulps2 tf / 2 ^ lbits tf o := l1
  have hd : |((n * 2 ^ f : ℚ) : ℝ) * l - ((n * 2 ^ f : ℚ) : ℝ) * Real.logb 2 ((m * 2 ^ e : ℚ) : ℝ)| ≤ prodErr tf o ((n * 2 ^ f : ℚ) : ℝ) := by
    rw [← mul_sub, abs_mul]
    exact mul_le_mul_of_nonneg_left hl1 (abs_nonneg _)
  have hx : ((o.I - 1 + 2 ^ (o.E - 1) : ℤ) : ℚ) ≤ n * 2 ^ f * l := by
    have h : (((o.I - 1 + 2 ^ (o.E - 1) : ℤ) : ℚ) : ℝ) ≤ ((n * 2 ^ f * l : ℚ) : ℝ) := by
      rw [Rat.cast_mul (n * 2 ^ f) l, Rat.cast_intCast]
      have := (abs_le.1 hd).1
      linarith
    exact Rat.cast_le.1 h
  rw [l2 o.dst n f hn.1, Proof.FloatHcordic.end_large ho hb1 hb44 hx]
  simp [hne]

/-- 4^80 is too large for `ac_float<24,2,8>`. -/
example : pow none .TRN ⟨16, 2, 8, .TRN⟩ ⟨16, 2, 8, .TRN⟩ ⟨24, 2, 8, .TRN⟩ (FFmt.dst ⟨24, 2, 8, .TRN⟩) 1 2 (5 / 4) 6 =
    some (FFmt.maxVal ⟨24, 2, 8, .TRN⟩) ∧ Real.logb 2 ((1 * 2 ^ (2 : ℤ) : ℚ) : ℝ) = 2 := by
  refine ⟨by decide +kernel, ?_⟩
  norm_num
  rw [show (4 : ℝ) = 2 ^ (2 : ℝ) by norm_num, Real.logb_rpow (by norm_num) (by norm_num)]

/-- **C70**, small powers: if the power is the smallest positive number of the output type or less, up to the error of the logarithm,
the value that is converted to the output type is at most 3/2 times the smallest positive number. -/
theorem C70_small {tf : Option ℕ} {tq : QMode} {t s o : FFmt} (hW : 2 ≤ t.W) (hWs : 1 ≤ s.W) (ho : 1 ≤ o.W)
    (h44 : max (tf.getD (t.W - 1)) (lbits tf o) ≤ 44) (hp1 : 1 ≤ tf.getD (t.W - 1))
    (hb1 : 1 ≤ bits tf o) (hb44 : bits tf o ≤ 44) (hq : tq = .TRN ∨ tq = .TRN_ZERO ∨ tf = none)
    {m n : ℚ} {e f : ℤ} (hm : Num t m e) (hm0 : 0 < m) (hn : Num s n f) (hne : m * 2 ^ e ≠ 1)
    (hr : ((n * 2 ^ f : ℚ) : ℝ) * Real.logb 2 ((m * 2 ^ e : ℚ) : ℝ) + prodErr tf o ((n * 2 ^ f : ℚ) : ℝ) ≤
      ((o.I - o.W - 2 ^ (o.E - 1) : ℤ) : ℝ)) :
    ∃ r : ℚ, 0 < r ∧ r ≤ 3 / 2 * 2 ^ (o.I - o.W - 2 ^ (o.E - 1) : ℤ) ∧ pow tf tq t s o o.dst m e n f = some (o.cvt r) := by
  obtain ⟨l, l1, l2⟩ := Proof.FloatHcordic.pow_arg (tf := tf) (tq := tq) (o := o) hW hWs h44 hp1 (down_or hq) hm.1 hm.2 hm0
  rw [ulps2_eq] at l1
  have hl1 : |(l : ℝ) - Real.logb 2 ((m * 2 ^ e : ℚ) : ℝ)| ≤ ulps2 tf / 2 ^ lbits tf o := l1
  have hd : |((n * 2 ^ f : ℚ) : ℝ) * l - ((n * 2 ^ f : ℚ) : ℝ) * Real.logb 2 ((m * 2 ^ e : ℚ) : ℝ)| ≤ prodErr tf o ((n * 2 ^ f : ℚ) : ℝ) := by
    rw [← mul_sub, abs_mul]
    exact mul_le_mul_of_nonneg_left hl1 (abs_nonneg _)
  have hx : n * 2 ^ f * l ≤ ((o.I - o.W - 2 ^ (o.E - 1) : ℤ) : ℚ) := by
    have h : ((n * 2 ^ f * l : ℚ) : ℝ) ≤ (((o.I - o.W - 2 ^ (o.E - 1) : ℤ) : ℚ) : ℝ) := by
      rw [Rat.cast_mul (n * 2 ^ f) l, Rat.cast_intCast]
      have := (abs_le.1 hd).2
      linarith
    exact Rat.cast_le.1 h
  obtain ⟨r, r0, r1, r2⟩ := Proof.FloatHcordic.end_small (tf := tf) (tq := tq) ho hb1 hb44 hx
  refine ⟨r, r0, r1, ?_⟩
  rw [l2 o.dst n f hn.1, r2]
  simp [hne]

/-- 4^(-80) is too small for `ac_float<24,2,8>`. -/
example : pow none .TRN ⟨16, 2, 8, .TRN⟩ ⟨16, 2, 8, .TRN⟩ ⟨24, 2, 8, .TRN⟩ (FFmt.dst ⟨24, 2, 8, .TRN⟩) 1 2 (-5 / 4) 6 = some 0 ∧
    prodErr none ⟨24, 2, 8, .TRN⟩ (-80) ≤ 1 ∧ (-80 : ℝ) * 2 + 1 ≤ ((2 - 24 - 2 ^ 7 : ℤ) : ℝ) := by
  refine ⟨by decide +kernel, ?_, by norm_num⟩
  have hl : lbits none ⟨24, 2, 8, .TRN⟩ = 24 := by decide
  unfold prodErr
  rw [hl]
  norm_num [ulps2]

/-- The error grows with the exponent: (3/2)^64 with a mantissa of 12 bits is 13 units of the temporaries too small, 1.3 percent. -/
theorem C70_error_grows :
    pow none .TRN ⟨16, 2, 8, .TRN⟩ ⟨16, 2, 8, .TRN⟩ ⟨12, 2, 8, .TRN⟩ (FFmt.dst ⟨12, 2, 8, .TRN⟩) (3 / 2) 0 1 6 = some 183744069632 ∧
    (183744069632 : ℚ) ≤ (1 - 13 / 2 ^ 10) * (3 / 2) ^ 64 := by
  refine ⟨by decide +kernel, by norm_num⟩

/-- The temporaries have the fraction bits of the mantissa of the output, not its width: with one fraction bit, the least that the
static assertions allow, a mantissa of 24 bits holds (5/2)^(3/2), 3.95, as 3. -/
theorem C70_few_fraction_bits_wrong :
    pow none .TRN ⟨16, 2, 8, .TRN⟩ ⟨16, 2, 8, .TRN⟩ ⟨24, 23, 8, .TRN⟩ (FFmt.dst ⟨24, 23, 8, .TRN⟩) (5 / 4) 1 (3 / 2) 0 = some 3 := by
  decide +kernel

/-- Rounding an overridden temporary takes a mantissa just below two to one half: the first power of 2 - 2^-38 comes out as 3.42. -/
theorem C70_round_wrong :
    pow (some 16) .RND ⟨40, 2, 8, .TRN⟩ ⟨16, 2, 8, .TRN⟩ ⟨24, 2, 8, .TRN⟩ (FFmt.dst ⟨24, 2, 8, .TRN⟩) (2 - 1 / 2 ^ 38) 0 1 0 =
      some (56019 / 16384) := by
  decide +kernel

/-- A negative base, which the function rejects only if ASSERT_ON_INVALID_INPUT is defined, is read as an unsigned mantissa: the square of -5/4, 1.5625, comes out as 0.56. -/
theorem C70_negative_wrong :
    pow none .TRN ⟨16, 2, 8, .TRN⟩ ⟨16, 2, 8, .TRN⟩ ⟨12, 2, 8, .TRN⟩ (FFmt.dst ⟨12, 2, 8, .TRN⟩) (-5 / 4) 0 1 1 = some (575 / 1024) := by
  decide +kernel

end Props.FloatHcordicPow
