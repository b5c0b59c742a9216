import Verif.Ac.Arith

/-! # Models of ac_relu.h, ac_leakyrelu.h and ac_prelu.h

`x` and `alpha` are the exact values of the operands, `fx`, `fa`, `fo` the formats of input, slope and output. -/

namespace Model.Relu
open Ac

/-- `output = (input>0)?input:0`; the literal is converted to the type of `input`. ac_relu.h:109-117 -/
def relu (fx fo : Fmt) (x : ℚ) : ℚ := fo.cvt (if x > 0 then x else fx.cvt (0 : ℚ))

/-- ac_leakyrelu.h:110-122; the product has the full-precision type of `*`. -/
def leakyrelu (fx fa fo : Fmt) (x alpha : ℚ) : ℚ :=
  if x > 0 then fo.cvt x else fo.cvt ((fa.mult fx).cvt (alpha * x))

/-- ac_prelu.h:109-122 -/
def prelu (fx fa fo : Fmt) (x alpha : ℚ) : ℚ :=
  if x > 0 then fo.cvt x else fo.cvt ((fa.mult fx).cvt (alpha * x))

end Model.Relu
