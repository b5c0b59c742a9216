import Verif.Proof.HcordicPow

/-! # C54: powers by hyperbolic CORDIC

`pow tf tq fa fb out a b` is the output of `ac_pow_cordic` for the base `a` of the unsigned type `fa`, the exponent `b` of the type
`fb` and an output of the unsigned type `out`; `none` would be a table read out of bounds. `tf` is `some TF_` if the template parameter
`OR_TF` overrides the widths of the temporaries with `TF_`, `tq` is the template parameter `TQ`. -/

namespace Props.HcordicPow
open Ac Model.Hcordic Proof.Hcordic

/-- Fraction bits of the temporaries of the exponential. -/
def bits (tf : Option ℕ) (out : Fmt) : ℕ := tf.getD out.F.toNat

/-- Fraction bits of the temporaries of the logarithm: the width of the output, or `TF_`. -/
def lbits (tf : Option ℕ) (out : Fmt) : ℕ := tf.getD out.W

/-- Integer bits of the logarithm. -/
def logInt (fa : Fmt) : ℤ := (max (nbits (fa.W - fa.I).toNat) (nbits fa.I.toNat) : ℕ) + 1

/-- Fraction bits of the logarithm: its type is declared with `lbits` bits in all, not after the point. -/
def logFrac (tf : Option ℕ) (fa out : Fmt) : ℤ := lbits tf out - logInt fa

/-- Fraction bits of the product of the exponent and the logarithm. -/
def prodFrac (tf : Option ℕ) (fa fb out : Fmt) : ℤ := min (logFrac tf fa out + fb.F) 45

/-- The error of the product of the exponent and the logarithm. -/
noncomputable def prodErr (tf : Option ℕ) (fa fb out : Fmt) (b : ℝ) : ℝ :=
  |b| * ((if tf.isSome then 8 else 5) / 2 ^ lbits tf out + 2 ^ (-logFrac tf fa out)) + 2 ^ (-prodFrac tf fa fb out)

/-- The relative error of the power. -/
noncomputable def powErr (tf : Option ℕ) (fa fb out : Fmt) (b : ℝ) : ℝ :=
  2 ^ prodErr tf fa fb out b * (1 + 13 / 2 / 2 ^ bits tf out) - 1

/-- **C54**, table safety: no base, not even zero, and no exponent makes the function read outside its tables, in any format that
passes the static assertions and has a product type with a width. -/
theorem C54_in_table (tf : Option ℕ) (tq : QMode) (fa fb out : Fmt) (h1 : tf.getD fa.W ≤ 44) (h2 : lbits tf out ≤ 44) (h3 : bits tf out ≤ 44)
    (h4 : 0 ≤ prodFrac tf fa fb out + (logInt fa + fb.I)) (a b : ℚ) : (pow tf tq fa fb out a b).isSome :=
  pow_some tf tq fa fb out h1 h2 h3 h4 a b

example : pow none .TRN ⟨16, 8, false, .TRN, .WRAP⟩ ⟨16, 8, true, .TRN, .WRAP⟩ ⟨24, 8, false, .TRN, .WRAP⟩ (5 / 2) (3 / 2) =
    some (64763 / 16384) := by decide +kernel

theorem down_of {tq : QMode} (h : tq = .TRN ∨ tq = .TRN_ZERO) : down tq = true := by
  rcases h with h | h <;> rw [h] <;> rfl

/-- **C54**: for a positive base, the output is within the relative error `powErr` and one unit of the output of the power, or of the
largest output if the power is beyond it and the output type saturates. The error grows with the exponent, as the logarithm has
`logFrac` fraction bits. Missing for the full claim: bases with a negative number of integer or fraction bits, whose negative number
the code passes to a template with an unsigned parameter; rounded temporaries, for which it is false (`C54_round_wrong`); and an error
of a few units of the output, which is false (`C54_error_wrong`); a base of zero, for which the output is wrong (`C54_zero_wrong`). -/
theorem C54_error_partial {tf : Option ℕ} {tq : QMode} {fa fb out : Fmt} (hW : 1 ≤ fa.W) (hS : fa.S = false) (hI0 : 0 ≤ fa.I) (hI1 : fa.I ≤ fa.W)
    (hWb : 1 ≤ fb.W) (ho : 1 ≤ out.W) (hSo : out.S = false) (h44 : max (tf.getD fa.W) (lbits tf out) ≤ 44)
    (hp1 : 1 ≤ tf.getD fa.W) (ht44 : bits tf out ≤ 44) (hq : tq = .TRN ∨ tq = .TRN_ZERO)
    (hpI : 0 < prodFrac tf fa fb out + (logInt fa + fb.I)) {a b : ℚ} (ha : fa.Rep a) (ha0 : 0 < a) (hb : fb.Rep b)
    (hr : out.O = .SAT ∨ out.O = .SAT_SYM ∨ (a : ℝ) ^ (b : ℝ) * (1 + powErr tf fa fb out b) ≤ out.maxVal) :
    ∃ z : ℚ, pow tf tq fa fb out a b = some z ∧
      |(z : ℝ) - min ((a : ℝ) ^ (b : ℝ)) out.maxVal| ≤ powErr tf fa fb out b * (a : ℝ) ^ (b : ℝ) + 2 ^ (-out.F) := by
  have hl : (log2aFmt tf fa out).F = logFrac tf fa out := by
    unfold log2aFmt logFrac logInt lbits fbits Fmt.F
    simp only []
  have hpf : (prodFmt tf fa fb out).F = prodFrac tf fa fb out := by
    have h : 0 ≤ prodFrac tf fa fb out + (logInt fa + fb.I) := hpI.le
    exact prodFmt_F h
  have hz1 : 1 ≤ lbits tf out := by
    cases tf with
    | none => exact ho
    | some a => exact hp1
  obtain ⟨r, d, c, r1, r0, c0, c1, c2, r2, r3⟩ := pow_eq (t := bits tf out) (zf := lbits tf out) hW hS hI0 hI1 hWb ho hSo rfl hz1 h44 hp1 rfl ht44
    (down_of hq) (by
      have : min ((log2aFmt tf fa out).F + fb.F) 45 + ((log2aFmt tf fa out).I + fb.I) = prodFrac tf fa fb out + (logInt fa + fb.I) := rfl
      omega) ha ha0 hb
  have hA : (0 : ℝ) < (a : ℝ) ^ (b : ℝ) := Real.rpow_pos_of_pos (by exact_mod_cast ha0) _
  have hd : |d| ≤ prodErr tf fa fb out b := by
    rw [hl, hpf] at r2
    have e : (5 : ℝ) + cutCost tf 3 = if tf.isSome then 8 else 5 := by unfold cutCost; split_ifs <;> norm_num
    rw [e] at r2
    exact r2
  have h : |(r : ℝ) - (a : ℝ) ^ (b : ℝ)| ≤ powErr tf fa fb out b * (a : ℝ) ^ (b : ℝ) := by
    refine (pow_rel hA.le hd c0 c2 r3).trans (mul_le_mul_of_nonneg_right ?_ hA.le)
    have h2 : (0 : ℝ) ≤ 2 ^ prodErr tf fa fb out b := Real.rpow_nonneg (by norm_num) _
    exact sub_le_sub_right (mul_le_mul_of_nonneg_left (by linarith) h2) 1
  refine ⟨_, r1, out_pos ho hSo r0 h ?_⟩
  rcases hr with h | h | h
  · exact Or.inl h
  · exact Or.inr (Or.inl h)
  · refine Or.inr (Or.inr ?_)
    rw [mul_add, mul_one, mul_comm _ (powErr _ _ _ _ _)] at h
    exact h

theorem rep52 : (⟨16, 8, false, .TRN, .WRAP⟩ : Fmt).Rep (5 / 2) := ⟨640, by decide, by decide, by norm_num [Fmt.val, Fmt.F]⟩
theorem rep32 : (⟨16, 8, true, .TRN, .WRAP⟩ : Fmt).Rep (3 / 2) := ⟨384, by decide, by decide, by norm_num [Fmt.val, Fmt.F]⟩

example : ∃ z : ℚ, pow none .TRN ⟨16, 8, false, .TRN, .WRAP⟩ ⟨16, 8, true, .TRN, .WRAP⟩ ⟨24, 8, false, .TRN, .SAT⟩ (5 / 2) (3 / 2) = some z ∧
    |(z : ℝ) - min (((5 / 2 : ℚ) : ℝ) ^ ((3 / 2 : ℚ) : ℝ)) (⟨24, 8, false, .TRN, .SAT⟩ : Fmt).maxVal| ≤
      powErr none ⟨16, 8, false, .TRN, .WRAP⟩ ⟨16, 8, true, .TRN, .WRAP⟩ ⟨24, 8, false, .TRN, .SAT⟩ ((3 / 2 : ℚ) : ℝ) *
        ((5 / 2 : ℚ) : ℝ) ^ ((3 / 2 : ℚ) : ℝ) + 2 ^ (-(16 : ℤ)) :=
  C54_error_partial (tf := none) (by norm_num) rfl (by norm_num) (by norm_num) (by norm_num) (by norm_num) rfl
    (by decide +kernel) (by decide +kernel) (by decide +kernel) (Or.inl rfl) (by decide +kernel) rep52 (by norm_num) rep32
    (Or.inl rfl)

/-- Rounding an overridden temporary takes a mantissa just below one to zero: the first power of 4 - 2^-32 comes out as 6.84. Rounding
a default temporary takes the exponential of a number just below one to zero: the first power of 2 - 2^-23 comes out as zero. -/
theorem C54_round_wrong :
    pow (some 16) .RND ⟨40, 8, false, .TRN, .WRAP⟩ ⟨16, 8, true, .TRN, .WRAP⟩ ⟨24, 8, false, .TRN, .WRAP⟩ (4 - 1 / 2 ^ 32) 1 =
      some (56011 / 8192) ∧
    pow none .RND ⟨24, 1, false, .TRN, .WRAP⟩ ⟨16, 8, true, .TRN, .WRAP⟩ ⟨16, 8, false, .TRN, .WRAP⟩ (2 - 1 / 2 ^ 23) 1 = some 0 := by
  refine ⟨?_, ?_⟩ <;> decide +kernel

/-- Zero to the power 3/2 comes out as 2.24. -/
theorem C54_zero_wrong : pow none .TRN ⟨16, 8, false, .TRN, .WRAP⟩ ⟨16, 8, true, .TRN, .WRAP⟩ ⟨24, 8, false, .TRN, .WRAP⟩ 0 (3 / 2) =
    some (73245 / 32768) := by decide +kernel

/-- An output with 4 fraction bits is 28 units off: `(5/2) ^ (9/2)` is 61.76, the output is 60. -/
theorem C54_error_wrong : pow none .TRN ⟨16, 8, false, .TRN, .WRAP⟩ ⟨16, 8, true, .TRN, .WRAP⟩ ⟨12, 8, false, .RND, .SAT⟩ (5 / 2) (9 / 2) =
    some 60 ∧ (247 / 4 : ℝ) ≤ (5 / 2 : ℝ) ^ (9 / 2 : ℝ) := by
  refine ⟨by decide +kernel, ?_⟩
  rw [show (9 / 2 : ℝ) = 9 * (1 / 2) by norm_num, Real.rpow_mul (by norm_num), ← Real.sqrt_eq_rpow]
  refine Real.le_sqrt_of_sq_le ?_
  norm_num

end Props.HcordicPow
