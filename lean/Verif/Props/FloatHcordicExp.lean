import Verif.Proof.FloatHcordic
import Verif.Props.FloatPow
import Verif.Props.FloatHcordicLog

/-! # C69: exponentials of ac_float by hyperbolic CORDIC

`exp2 tf tq t o d m e` and `exp tf tq t o d m e` are the outputs of `ac_exp2_cordic` and `ac_exp_cordic`; the parameters are those of
C68.  The temporaries have `bits tf o` fraction bits; the static assertions of the file limit them
to the numbers from 1 to 44. -/

namespace Props.FloatHcordicExp
open Ac Model.Float Model.FloatHcordic Props.FloatRec Proof.Hcordic
open Props.FloatPow (range)
open Props.FloatHcordicLog (bits)
open Proof.FloatPow (outRange cvt_sat)

/-- **C69**, table safety. -/
theorem C69_in_table (tf : Option ℕ) (tq : QMode) (t o : FFmt) (d : Dst) (h44 : bits tf o ≤ 44) (m : ℚ) (e : ℤ) :
    (exp2 tf tq t o d m e).isSome ∧ (exp tf tq t o d m e).isSome :=
  ⟨Proof.FloatHcordic.end_some tf tq o d h44 _, Proof.FloatHcordic.end_some tf tq o d h44 _⟩

/-- 2^(5/2) and e^(5/2): 5.656854 and 12.182494. -/
example : exp2 none .TRN ⟨16, 2, 8, .TRN⟩ ⟨24, 2, 8, .TRN⟩ (FFmt.dst ⟨24, 2, 8, .TRN⟩) (5 / 4) 1 = some (741455 / 131072) ∧
    exp none .TRN ⟨16, 2, 8, .TRN⟩ ⟨24, 2, 8, .TRN⟩ (FFmt.dst ⟨24, 2, 8, .TRN⟩) (5 / 4) 1 = some (6387131 / 524288) := by
  constructor <;> decide +kernel

/-- **C69**, base 2: one function of the value of the input, whatever its type, gives the output before its conversion.  For an
argument in the range of the output type it is right up to 8 units of the temporaries, relative to the power, in every rounding mode.
The error is not one of the mantissa of the output, which may have more bits (`C69_few_fraction_bits_wrong`). -/
theorem C69_exp2 {tf : Option ℕ} (tq : QMode) {o : FFmt} (ho : 1 ≤ o.W) (h1 : 1 ≤ bits tf o) (h44 : bits tf o ≤ 44) : ∃ p : ℚ → ℚ,
    (∀ x, 0 < p x) ∧ (∀ x : ℚ, |x| ≤ range o → |(p x : ℝ) - 2 ^ (x : ℝ)| ≤ 8 / 2 ^ bits tf o * 2 ^ (x : ℝ)) ∧
    ∀ (t : FFmt) (d : Dst) (m : ℚ) (e : ℤ), 1 ≤ t.W → Num t m e → exp2 tf tq t o d m e = some (d.cvt (p (m * 2 ^ e))) := by
  have key := fun x : ℚ => Proof.FloatHcordic.end_eq (tf := tf) (tq := tq) (o := o) h1 h44
    (Fmt.rep_cvt (Proof.FloatHcordic.arg_W tf tq o).2.1 x)
  choose p hp1 hp2 using key
  refine ⟨p, fun x => (hp2 x).pos, fun x hx => ?_, fun t d m e hW hm => ?_⟩
  · have h2 := (Rat.cast_le (K := ℝ)).2 (Proof.FloatHcordic.arg_err tf tq ho hx)
    push_cast at h2
    exact Proof.FloatHcordic.near_two h1 h2 (hp2 x)
  · rw [Proof.FloatHcordic.exp2_arg d hW hm.1, hp1]

example : 1 ≤ bits none ⟨24, 2, 8, .TRN⟩ ∧ bits none ⟨24, 2, 8, .TRN⟩ ≤ 44 ∧ Num ⟨16, 2, 8, .TRN⟩ (5 / 4) 1 ∧
    |(5 / 4 : ℚ) * 2 ^ (1 : ℤ)| ≤ range ⟨24, 2, 8, .TRN⟩ :=
  ⟨by decide, by decide, Props.FloatHcordicLog.num52, by decide +kernel⟩

/-- **C69**, base e: the same, for an argument up to the range of the output type times log 2.  As the stored 1 / log 2 is cut to the
width of the temporaries, the relative error grows with the argument; while the argument is less than 2 to the number of fraction
bits, by 3/2 units of the temporaries for each unit of the argument.  An error that does not grow is false (`C69_error_grows`). -/
theorem C69_exp {tf : Option ℕ} (tq : QMode) {o : FFmt} (ho : 1 ≤ o.W) (h1 : 1 ≤ bits tf o) (h44 : bits tf o ≤ 44) : ∃ p : ℚ → ℚ,
    (∀ x, 0 < p x) ∧
    (∀ x : ℚ, |(x : ℝ)| ≤ range o * Real.log 2 →
      |(p x : ℝ) - Real.exp x| ≤ (Real.exp (0.7 * ((|(x : ℝ)| + 1) / 2 ^ bits tf o)) * (1 + 13 / 2 / 2 ^ bits tf o) - 1) * Real.exp x ∧
      (|x| + 1 ≤ 2 ^ bits tf o → |(p x : ℝ) - Real.exp x| ≤ (8 + 3 / 2 * |(x : ℝ)|) / 2 ^ bits tf o * Real.exp x)) ∧
    ∀ (t : FFmt) (d : Dst) (m : ℚ) (e : ℤ), 1 ≤ t.W → Num t m e → exp tf tq t o d m e = some (d.cvt (p (m * 2 ^ e))) := by
  have key := fun x : ℚ => Proof.FloatHcordic.end_eq (tf := tf) (tq := tq) (o := o) h1 h44
    (Fmt.rep_cvt (Proof.FloatHcordic.arg_W tf tq o).2.1 x)
  choose p hp1 hp2 using key
  refine ⟨fun x => p (x * ((il (bits tf o) : ℚ) / 2 ^ bits tf o)), fun x => (hp2 _).pos, fun x hx => ?_, fun t d m e hW hm => ?_⟩
  · have hb : |x * ((il (bits tf o) : ℚ) / 2 ^ bits tf o)| ≤ (outRange o : ℚ) := Proof.FloatHcordic.exp_range h44 (R := range o) hx
    have h2 := (Rat.cast_le (K := ℝ)).2 (Proof.FloatHcordic.arg_err tf tq ho hb)
    have fit : |(((argFmt tf tq o).cvt (x * ((il (bits tf o) : ℚ) / 2 ^ bits tf o)) : ℚ) : ℝ) -
        x * ((il (bits tf o) : ℚ) / 2 ^ bits tf o : ℚ)| ≤ 1 / 2 ^ bits tf o := by
      push_cast at h2 ⊢
      exact h2
    exact ⟨Proof.FloatHcordic.near_exp h1 h44 fit (hp2 _), fun hx2 => Proof.FloatHcordic.near_exp_lin h1 h44 hx2 fit (hp2 _)⟩
  · rw [Proof.FloatHcordic.exp_arg d hW h44 hm.1, hp1]; rfl

/-- The hypotheses hold for 5/2 and -80 in the range of an output type of single precision. -/
example : 1 ≤ bits none ⟨25, 2, 8, .TRN⟩ ∧ (range ⟨25, 2, 8, .TRN⟩ : ℤ) = 151 ∧ |((-80 : ℚ) : ℝ)| ≤ 151 * Real.log 2 ∧
    |(-80 : ℚ)| + 1 ≤ 2 ^ bits none ⟨25, 2, 8, .TRN⟩ :=
  ⟨by decide, by decide, by have := Real.log_two_gt_d9; norm_num at this ⊢; linarith, by decide +kernel⟩

/-- **C69**, large and small arguments, base 2: from the exponent of the first power of two above twice the largest number on, the
output is the largest number of the output type; from that of the smallest positive number down, it is at most 3/2 times the smallest
positive number before its conversion. -/
theorem C69_range {tf : Option ℕ} (tq : QMode) {t o : FFmt} (ho : 2 ≤ o.W) (h1 : 1 ≤ bits tf o) (h44 : bits tf o ≤ 44)
    {m : ℚ} {e : ℤ} (hW : 1 ≤ t.W) (hm : Num t m e) :
    (((o.I - 1 + 2 ^ (o.E - 1) : ℤ) : ℚ) ≤ m * 2 ^ e → exp2 tf tq t o o.dst m e = some o.maxVal) ∧
    (m * 2 ^ e ≤ ((o.I - o.W - 2 ^ (o.E - 1) : ℤ) : ℚ) →
      ∃ r : ℚ, 0 < r ∧ r ≤ 3 / 2 * 2 ^ (o.I - o.W - 2 ^ (o.E - 1) : ℤ) ∧ exp2 tf tq t o o.dst m e = some (o.cvt r)) := by
  rw [Proof.FloatHcordic.exp2_arg o.dst hW hm.1]
  exact ⟨fun h => Proof.FloatHcordic.end_large ho h1 h44 h, fun h => Proof.FloatHcordic.end_small (by omega) h1 h44 h⟩

/-- **C69**, large and small arguments, base e: as the stored 1 / log 2 is cut, the bounds of the exponent move by one part in 2 to the
number of fraction bits. -/
theorem C69_exp_range {tf : Option ℕ} (tq : QMode) {t o : FFmt} (ho : 2 ≤ o.W) (h1 : 1 ≤ bits tf o) (h44 : bits tf o ≤ 44)
    {m : ℚ} {e : ℤ} (hW : 1 ≤ t.W) (hm : Num t m e) :
    ((((o.I - 1 + 2 ^ (o.E - 1) : ℤ) : ℝ) + |((o.I - 1 + 2 ^ (o.E - 1) : ℤ) : ℝ)| / 2 ^ bits tf o) * Real.log 2 ≤ ((m * 2 ^ e : ℚ) : ℝ) →
      exp tf tq t o o.dst m e = some o.maxVal) ∧
    (((m * 2 ^ e : ℚ) : ℝ) ≤ (((o.I - o.W - 2 ^ (o.E - 1) : ℤ) : ℝ) - |((o.I - o.W - 2 ^ (o.E - 1) : ℤ) : ℝ)| / 2 ^ bits tf o) * Real.log 2 →
      ∃ r : ℚ, 0 < r ∧ r ≤ 3 / 2 * 2 ^ (o.I - o.W - 2 ^ (o.E - 1) : ℤ) ∧ exp tf tq t o o.dst m e = some (o.cvt r)) := by
  rw [Proof.FloatHcordic.exp_arg o.dst hW h44 hm.1]
  constructor
  · intro h
    exact Proof.FloatHcordic.end_large ho h1 h44 (Proof.FloatHcordic.exp_ge h1 h44 h)
  · intro h
    refine Proof.FloatHcordic.end_small (by omega) h1 h44 ?_
    generalize o.I - o.W - 2 ^ (o.E - 1) = M at *
    have := Proof.FloatHcordic.exp_ge (T := bits tf o) (x := -(m * 2 ^ e)) (L := -M) h1 h44
      (by rw [Int.cast_neg, abs_neg, Rat.cast_neg]; linarith)
    rw [Int.cast_neg, neg_mul] at this
    exact neg_le_neg_iff.1 this

/-- 1280 and -1280 are beyond the range of `ac_float<24,2,8>`. -/
example : exp2 none .TRN ⟨16, 2, 8, .TRN⟩ ⟨24, 2, 8, .TRN⟩ (FFmt.dst ⟨24, 2, 8, .TRN⟩) (5 / 4) 10 = some (FFmt.maxVal ⟨24, 2, 8, .TRN⟩) ∧
    exp2 none .TRN ⟨16, 2, 8, .TRN⟩ ⟨24, 2, 8, .TRN⟩ (FFmt.dst ⟨24, 2, 8, .TRN⟩) (-5 / 4) 10 = some 0 ∧
    Num ⟨16, 2, 8, .TRN⟩ (5 / 4) 10 ∧ ((2 - 1 + 2 ^ (8 - 1) : ℤ) : ℚ) ≤ 5 / 4 * 2 ^ (10 : ℤ) :=
  ⟨by decide +kernel, by decide +kernel, ⟨⟨20480, by decide, by decide, by decide +kernel⟩, by decide, by decide⟩, by norm_num⟩

/-- The temporaries have the fraction bits of the mantissa of the output, not its width: with one fraction bit, the least that the
static assertions allow, a mantissa of 24 bits holds e^8, 2981, as 384. -/
theorem C69_few_fraction_bits_wrong :
    exp none .TRN ⟨16, 2, 8, .TRN⟩ ⟨24, 23, 8, .TRN⟩ (FFmt.dst ⟨24, 23, 8, .TRN⟩) 1 3 = some 384 ∧ bits none ⟨24, 23, 8, .TRN⟩ = 1 := by
  constructor <;> decide +kernel

/-- The error grows with the argument: e^64 with temporaries of 10 fraction bits is 15 units too small, that is 1.5 percent. -/
theorem C69_error_grows :
    exp none .TRN ⟨16, 2, 8, .TRN⟩ ⟨12, 2, 8, .TRN⟩ (FFmt.dst ⟨12, 2, 8, .TRN⟩) 1 6 = some 6141343163642316207507374080 ∧
    (6141343163642316207507374080 : ℝ) ≤ (1 - 15 / 2 ^ 10) * Real.exp 64 := by
  refine ⟨by decide +kernel, ?_⟩
  have h := pow_le_pow_left₀ (by norm_num) Real.exp_one_gt_d9.le 64
  rw [← Real.exp_nat_mul] at h
  norm_num at h ⊢
  linarith

/-- Powers of two are not exact: 2^4 and e^0 are one unit of the temporaries too small. -/
theorem C69_exact_wrong :
    exp2 none .TRN ⟨16, 2, 8, .TRN⟩ ⟨24, 2, 8, .TRN⟩ (FFmt.dst ⟨24, 2, 8, .TRN⟩) 1 2 = some (4194303 / 262144) ∧
    exp none .TRN ⟨16, 2, 8, .TRN⟩ ⟨24, 2, 8, .TRN⟩ (FFmt.dst ⟨24, 2, 8, .TRN⟩) 0 0 = some (4194303 / 4194304) := by
  constructor <;> decide +kernel

end Props.FloatHcordicExp
