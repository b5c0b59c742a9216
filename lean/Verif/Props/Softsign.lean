import Verif.Proof.Softsign

/-! # C47: softsign

`softsign q f out x` is the output of `ac_softsign_pwl<q>` for the input `x` of type `f` and an output of type `out`; `none`
for a table read out of bounds. `out.cvt r` is the assignment of the exact number `r` to the output. -/

namespace Props.Softsign
open Ac Model.Activations

/-- **C47**, table safety: no input makes the function read outside its tables. -/
theorem C47_in_table (q : QMode) (f out : Fmt) (x : ℚ) : (softsign q f out x).isSome := Proof.Softsign.softsign_some q f out x

example : softsign .TRN ⟨16, 5, true, .TRN, .WRAP⟩ ⟨16, 1, true, .TRN, .WRAP⟩ (-3) = some (-6135 / 8192) := by decide +kernel

/-- **C47**, odd: the numbers that are converted to the output for `x` and `-x` are opposite; they have the sign of the input
or are zero. -/
theorem C47_odd (q : QMode) {f : Fmt} (out : Fmt) (hW : 1 ≤ f.W) {x : ℚ} (hx : f.Rep x) (hn : f.Rep (-x)) :
    ∃ r : ℚ, softsign q f out x = some (out.cvt r) ∧ softsign q f out (-x) = some (out.cvt (-r)) ∧ 0 ≤ r * x := by
  refine ⟨_, Proof.Softsign.softsign_eq q out hW hx, ?_, ?_⟩
  · rw [Proof.Softsign.softsign_eq q out hW hn, Proof.Softsign.rc_even, neg_mul]
  · have := mul_nonneg (mul_self_nonneg x) (Proof.Softsign.rc_facts q out hW hx).2
    linarith

example : (⟨16, 5, true, .TRN, .WRAP⟩ : Fmt).Rep 3 ∧ (⟨16, 5, true, .TRN, .WRAP⟩ : Fmt).Rep (-3) :=
  ⟨⟨6144, by decide, by decide, by decide +kernel⟩, ⟨-6144, by decide, by decide, by decide +kernel⟩⟩

/-- **C47**, error: the output is the conversion of a number within 1/512 of the real function, plus a term for the precision
of the stored reciprocal that grows with the input: 11 to 20 fraction bits, depending on the width of the input. For types of
negative integer width there is one more term, because the denominator keeps less than the fraction bits of the input.
Missing: an error that does not grow with the input, which is false, see `C47_vanish`. -/
theorem C47_softsign_partial (q : QMode) {f : Fmt} (out : Fmt) (hW : 1 ≤ f.W) {x : ℚ} (hx : f.Rep x) :
    ∃ r : ℚ, softsign q f out x = some (out.cvt r) ∧
    |(r : ℝ) - Spec.Activations.softsign x| ≤ 1 / 512 + |(x : ℝ)| / 2 ^ ((max 1 (min 10 ((f.W : ℤ) - 4))).toNat + 10) +
      (if f.I < 0 then |(x : ℝ)| / 2 ^ (if (f.W : ℤ) < -f.I then f.W else f.W - f.I.natAbs) else 0) := by
  refine ⟨_, Proof.Softsign.softsign_eq q out hW hx, ?_⟩
  have h := Rat.cast_le (K := ℝ) |>.2 (Proof.Softsign.err q out hW hx)
  rw [Rat.cast_abs, Rat.cast_sub] at h
  have hb : Proof.Softsign.bits f = (max 1 (min 10 ((f.W : ℤ) - 4))).toNat + 10 := rfl
  unfold Spec.Activations.softsign
  rw [← hb]
  by_cases hI : f.I < 0
  · have hr : Proof.Softsign.rf f = (if (f.W : ℤ) < -f.I then f.W else f.W - f.I.natAbs) := by
      unfold Proof.Softsign.rf; split_ifs <;> omega
    rw [if_pos hI] at h ⊢
    rw [← hr]
    push_cast at h ⊢
    exact h
  · rw [if_neg hI] at h ⊢
    push_cast at h ⊢
    exact h

example : (⟨16, 5, true, .TRN, .WRAP⟩ : Fmt).Rep (-3) := ⟨-6144, by decide, by decide, by decide +kernel⟩

/-- With truncation, the default, the output is zero for every input of large magnitude, where the real function is near one:
the reciprocal vanishes in the type declared for it. For inputs of 14 bits and more this starts at `2 ^ 21`, for 5 bits at
`2 ^ 12`. -/
theorem C47_vanish {f out : Fmt} (hW : 1 ≤ f.W) (ho : 1 ≤ out.W) {x : ℚ} (hx : f.Rep x)
    (h : 2 ^ ((max 1 (min 10 ((f.W : ℤ) - 4))).toNat + 11) ≤ |x|) : softsign .TRN f out x = some 0 := by
  rw [Proof.Softsign.softsign_eq .TRN out hW hx, Proof.Softsign.rc_zero out hW hx h, mul_zero, Fmt.cvt_zero' ho]

example : softsign .TRN ⟨24, 24, true, .TRN, .WRAP⟩ ⟨16, 1, true, .TRN, .WRAP⟩ (2 ^ 21) = some 0 ∧
    (⟨24, 24, true, .TRN, .WRAP⟩ : Fmt).Rep (2 ^ 21) := ⟨by decide +kernel, ⟨2 ^ 21, by decide, by decide, by decide +kernel⟩⟩

/-- The magnitude of the real function is below one, so that one integer bit should do for a signed output; but softsign of
2400 is -1 there: the error of the reciprocal lets the product reach one. -/
theorem C47_wrap_wrong : softsign .TRN ⟨24, 16, true, .TRN, .WRAP⟩ ⟨16, 1, true, .TRN, .WRAP⟩ 2400 = some (-32761 / 32768) := by
  decide +kernel

end Props.Softsign
