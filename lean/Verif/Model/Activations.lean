import Verif.Model.PwlFixed

/-! Activation functions built on the PWL functions: ELU, SELU, softplus, softsign and GELU of `ac_fixed` inputs. -/

namespace Model.Activations
open Ac Model.Pwl Model.PwlFixed

/-- `out_pow_type`: the type of `exp(input)`. The product by `log2(e)` inside it is given the integer width `|I| + 1`.
ac_elu_pwl.h:126-142, ac_softplus_pwl.h:132-148 -/
def outPow (f : Fmt) : Fmt :=
  let i := piiExp 12 ⟨f.W, |f.I|, f.S, .TRN, .WRAP⟩
  ⟨((i.I + 1) * i.I + scBits 10 (i.W - i.I - 2) + 10).toNat, (i.I + 1) * i.I, false, .TRN, .WRAP⟩

/-- `ac_elu_pwl`. The exponential is computed for every input, with the default rounding: the template argument `pwl_Q` has
no effect. ac_elu_pwl.h:110-158 -/
def elu (f out : Fmt) (alpha x : ℚ) : Option ℚ := do
  let p ← exp 12 .TRN f (outPow f) x
  some (if 0 ≤ x then out.cvt x else out.cvt (alpha * (p - 1)))

/-- Type of the constants of SELU. ac_selu_pwl.h:118-123 -/
def seluFmt : Fmt := ⟨22, 2, false, .TRN, .WRAP⟩

/-- `lambda`: the literal 1.0507009873554804934193349852946; the double nearest to it has the same first 20 fraction bits.
ac_selu_pwl.h:120 -/
def lambda : ℚ := seluFmt.cvt (10507009873554804934193349852946 / 10 ^ 31 : ℚ)

/-- `alpha`: the literal 1.6732632423543772848170429916717. ac_selu_pwl.h:123 -/
def alpha : ℚ := seluFmt.cvt (16732632423543772848170429916717 / 10 ^ 31 : ℚ)

/-- `ac_selu_pwl`. ac_selu_pwl.h:107-133 -/
def selu (f out : Fmt) (x : ℚ) : Option ℚ :=
  if 0 ≤ x then some (out.cvt (lambda * x))
  else do
    let e ← elu f out alpha x
    some (out.cvt (lambda * out.cvt e))

/-- `ac_softplus_pwl`. ac_softplus_pwl.h:117-157 -/
def softplus (q : QMode) (f out : Fmt) (x : ℚ) : Option ℚ := do
  let fp := outPow f
  let p ← exp 12 .TRN f fp x
  let fl : Fmt := ⟨fp.W + 1, fp.I + 1, false, .TRN, .WRAP⟩
  log q fl out (fl.cvt (p + 1))

/-- `rec_inp_type` of softsign. ac_softsign_pwl.h:143-147 -/
def recInp (f : Fmt) : Fmt := ⟨(if (f.W : ℤ) < |f.I| then f.W + |f.I|.toNat else f.W) + 1, |f.I| + 1, false, .TRN, .WRAP⟩

/-- `rec_out_type` of softsign. ac_softsign_pwl.h:126, 151 -/
def recOut (q : QMode) (f out : Fmt) : Fmt := ⟨scBits 10 (f.W - 4) + 10 + 1, 1, out.S, q, .WRAP⟩

/-- `ac_softsign_pwl`. The reciprocal uses the default rounding. ac_softsign_pwl.h:108-158 -/
def softsign (q : QMode) (f out : Fmt) (x : ℚ) : Option ℚ := do
  let d := (recInp f).cvt (magnitude f x + 1)
  let r ← reciprocal .TRN (recInp f) (recOut q f out) d
  some (out.cvt (x * r))

/-- `input_tanh_type` of GELU. ac_gelu_pwl.h:121-123 -/
def tanhInp (f out : Fmt) : Fmt :=
  ⟨(f.W + 2 * f.I + 10).toNat,
    if f.I < f.W ∧ f.I = 1 then 1 else if f.I < f.W ∧ f.I = 0 then 0 else if f.I < 0 then f.I else 3 * f.I - 3,
    out.S, out.Q, out.O⟩

/-- `aconst`. ac_gelu_pwl.h:129 -/
def geluA : ℚ := (⟨20, 1, false, .TRN, .WRAP⟩ : Fmt).cvt (7978845608 / 10 ^ 10 : ℚ)

/-- `bconst`. ac_gelu_pwl.h:131 -/
def geluB : ℚ := (⟨20, 1, false, .TRN, .WRAP⟩ : Fmt).cvt (44715 / 10 ^ 6 : ℚ)

/-- `ac_gelu_pwl`; `oob` as in `tanhPwl`. ac_gelu_pwl.h:107-147 -/
def gelu (oob : ℕ → Option (ℤ × ℤ)) (q : QMode) (f out : Fmt) (x : ℚ) : Option ℚ := do
  let t := (tanhInp f out).cvt (geluA * (x + geluB * x * x * x))
  let y ← tanh oob q (tanhInp f out) ⟨21, 1, true, q, .WRAP⟩ t
  some (out.cvt (1 / 2 * x * (1 + y)))

end Model.Activations
