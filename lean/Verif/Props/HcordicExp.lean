import Verif.Proof.HcordicExp7

/-! # C53: exponentials by hyperbolic CORDIC

`exp2 tf tq f out x` and `exp tf tq f out x` are the outputs of `ac_exp2_cordic` and `ac_exp_cordic` for the argument `x` of the
type `f` and an output of the unsigned type `out`; `none` would be a table read out of bounds. `tf` is `some TF_` if the template
parameter `OR_TF` overrides the number of fraction bits of the temporaries with `TF_`, `tq` is the template parameter `TQ`. -/

namespace Props.HcordicExp
open Ac Model.Hcordic Proof.Hcordic

/-- Fraction bits of the temporaries; the static assertions limit them to 44. -/
def bits (tf : Option ℕ) (out : Fmt) : ℕ := tf.getD out.F.toNat

/-- **C53**, table safety: no argument makes the functions read outside their tables, in any format that passes the static
assertions. -/
theorem C53_in_table (tf : Option ℕ) (tq : QMode) (f out : Fmt) (h : bits tf out ≤ 44) (x : ℚ) :
    ((f.W : ℤ) - f.I ≤ 45 → (exp2 tf tq f out x).isSome) ∧ (0 ≤ bits tf out + f.I + 1 → (exp tf tq f out x).isSome) :=
  ⟨fun h1 => exp2_some tf tq f out h1 h x, fun h1 => exp_some tf tq f out h1 h x⟩

example : exp2 none .TRN ⟨16, 8, true, .TRN, .WRAP⟩ ⟨24, 8, false, .TRN, .WRAP⟩ (3 / 2) = some (92681 / 32768) := by decide +kernel
example : exp none .TRN ⟨16, 8, true, .TRN, .WRAP⟩ ⟨24, 8, false, .TRN, .WRAP⟩ (3 / 2) = some (36713 / 8192) := by decide +kernel

theorem down_of {tq : QMode} (h : tq = .TRN ∨ tq = .TRN_ZERO) : down tq = true := by
  rcases h with h | h <;> rw [h] <;> rfl

/-- **C53**, base 2: the output is within a relative error of 6.5 units of the temporaries and one unit of the output of the power
of two, or of the largest output if the power is beyond it and the output type saturates. Missing for the full claim: arguments
with more fraction bits than the temporaries and just below an integer, if the temporaries are rounded, for which it is false
(`C53_round_wrong`). -/
theorem C53_exp2_partial {tf : Option ℕ} {tq : QMode} {f out : Fmt} (ho : 1 ≤ out.W) (hSo : out.S = false) (hf : (f.W : ℤ) - f.I ≤ 45)
    (h44 : bits tf out ≤ 44) {x : ℚ} (hx : f.Rep x)
    (hq : tq = .TRN ∨ tq = .TRN_ZERO ∨ (2 : ℝ) ^ ((Int.fract x : ℚ) : ℝ) ≤ 2 - 3 / 2 ^ bits tf out ∨ (f.W : ℤ) - f.I ≤ bits tf out)
    (hr : out.O = .SAT ∨ out.O = .SAT_SYM ∨ (2 : ℝ) ^ (x : ℝ) * (1 + 13 / 2 / 2 ^ bits tf out) ≤ out.maxVal) :
    ∃ z : ℚ, exp2 tf tq f out x = some z ∧
      |(z : ℝ) - min ((2 : ℝ) ^ (x : ℝ)) out.maxVal| ≤ 13 / 2 / 2 ^ bits tf out * 2 ^ (x : ℝ) + 2 ^ (-out.F) := by
  have hq' : down tq = true ∨ (2 : ℝ) ^ ((Int.fract x : ℚ) : ℝ) ≤ 2 - 3 / 2 ^ bits tf out ∨ (f.W : ℤ) - f.I ≤ bits tf out := by
    rcases hq with h | h | h
    · exact Or.inl (down_of (Or.inl h))
    · exact Or.inl (down_of (Or.inr h))
    · exact Or.inr h
  obtain ⟨r, c, r1, r0, c0, c1, c2, r2⟩ := exp2_any ho hSo hx hf (show fbits tf out.F.toNat = bits tf out from rfl) h44 hq'
  have hp : (0 : ℝ) < 2 ^ (x : ℝ) := Real.rpow_pos_of_pos (by norm_num) _
  refine ⟨_, r1, out_pos ho hSo r0 (r2.trans (mul_le_mul_of_nonneg_right c1 hp.le)) ?_⟩
  rcases hr with h | h | h
  · exact Or.inl h
  · exact Or.inr (Or.inl h)
  · refine Or.inr (Or.inr ?_)
    linarith

/-- The relative error of the exponential. -/
noncomputable def expErr (tf : Option ℕ) (out : Fmt) (x : ℝ) : ℝ :=
  Real.exp (0.7 * ((|x| + 1) / 2 ^ bits tf out)) * (1 + 13 / 2 / 2 ^ bits tf out) - 1

/-- The relative error is at most `8 + 3/2 |x|` units of temporaries with at least 4 fraction bits. -/
theorem C53_expErr {tf : Option ℕ} {out : Fmt} (h4 : 4 ≤ bits tf out) {x : ℝ} (hx : |x| + 1 ≤ 2 ^ bits tf out) :
    expErr tf out x ≤ (8 + 3 / 2 * |x|) / 2 ^ bits tf out := exp_err_lin h4 (abs_nonneg x) hx

/-- **C53**, base e: the output is within the relative error `expErr` and one unit of the output of the exponential, or of the
largest output if the exponential is beyond it and the output type saturates. The temporaries may be
rounded, as the exponent of two has no more fraction bits than they. -/
theorem C53_exp {tf : Option ℕ} {tq : QMode} {f out : Fmt} (hW : 1 ≤ f.W) (ho : 1 ≤ out.W) (hSo : out.S = false)
    (h44 : bits tf out ≤ 44) (hI : 2 ≤ bits tf out + f.I) {x : ℚ} (hx : f.Rep x)
    (hr : out.O = .SAT ∨ out.O = .SAT_SYM ∨ Real.exp x * (1 + expErr tf out x) ≤ out.maxVal) :
    ∃ z : ℚ, exp tf tq f out x = some z ∧
      |(z : ℝ) - min (Real.exp x) out.maxVal| ≤ expErr tf out x * Real.exp x + 2 ^ (-out.F) := by
  obtain ⟨r, r1, r0, r2⟩ := exp_gen hW ho hSo hx (show fbits tf out.F.toNat = bits tf out from rfl) h44 hI
  refine ⟨_, r1, out_pos ho hSo r0 r2 ?_⟩
  rcases hr with h | h | h
  · exact Or.inl h
  · exact Or.inr (Or.inl h)
  · refine Or.inr (Or.inr ?_)
    rw [mul_add, mul_one, mul_comm _ (expErr _ _ _)] at h
    exact h

theorem rep32 : (⟨16, 8, true, .TRN, .WRAP⟩ : Fmt).Rep (3 / 2) := ⟨384, by decide, by decide, by norm_num [Fmt.val, Fmt.F]⟩

example : ∃ z : ℚ, exp2 none .TRN ⟨16, 8, true, .TRN, .WRAP⟩ ⟨24, 8, false, .TRN, .SAT⟩ (3 / 2) = some z ∧
    |(z : ℝ) - min ((2 : ℝ) ^ (((3 / 2 : ℚ)) : ℝ)) (⟨24, 8, false, .TRN, .SAT⟩ : Fmt).maxVal| ≤
      13 / 2 / 2 ^ 16 * 2 ^ (((3 / 2 : ℚ)) : ℝ) + 2 ^ (-(16 : ℤ)) :=
  C53_exp2_partial (tf := none) (by norm_num) rfl (by norm_num) (by norm_num [bits, Fmt.F]) rep32 (Or.inl rfl) (Or.inl rfl)

example : ∃ z : ℚ, exp none .TRN ⟨16, 8, true, .TRN, .WRAP⟩ ⟨24, 8, false, .TRN, .SAT⟩ (3 / 2) = some z ∧
    |(z : ℝ) - min (Real.exp ((3 / 2 : ℚ) : ℝ)) (⟨24, 8, false, .TRN, .SAT⟩ : Fmt).maxVal| ≤
      expErr none ⟨24, 8, false, .TRN, .SAT⟩ ((3 / 2 : ℚ) : ℝ) * Real.exp ((3 / 2 : ℚ) : ℝ) + 2 ^ (-(16 : ℤ)) :=
  C53_exp (tf := none) (by norm_num) (by norm_num) rfl (by norm_num [bits, Fmt.F])
    (by norm_num [bits, Fmt.F]) rep32 (Or.inl rfl)

example : expErr none ⟨24, 8, false, .TRN, .SAT⟩ (3 / 2) ≤ (8 + 3 / 2 * |(3 / 2 : ℝ)|) / 2 ^ 16 :=
  C53_expErr (tf := none) (by decide) (by
    rw [show bits none ⟨24, 8, false, .TRN, .SAT⟩ = 16 from rfl, abs_of_nonneg] <;> norm_num)

/-- With rounded temporaries, arguments just below an integer give zero: two to the power `3 - 2^-32` with overridden temporaries, and
two to the power `2 - 2^-16` with the default ones. -/
theorem C53_round_wrong :
    exp2 (some 16) .RND ⟨40, 8, true, .TRN, .WRAP⟩ ⟨32, 16, false, .TRN, .WRAP⟩ (3 - 1 / 2 ^ 32) = some 0 ∧
    exp2 none .RND ⟨32, 8, false, .TRN, .WRAP⟩ ⟨16, 8, false, .TRN, .WRAP⟩ (2 - 1 / 2 ^ 16) = some 0 := by
  refine ⟨?_, ?_⟩ <;> decide +kernel

/-- Powers of two with a whole exponent are not exact: the output for 3 is one unit of the temporaries short of 8. -/
theorem C53_whole : exp2 none .TRN ⟨16, 8, true, .TRN, .WRAP⟩ ⟨24, 8, false, .TRN, .WRAP⟩ 3 = some (65535 / 8192) := by decide +kernel

end Props.HcordicExp
