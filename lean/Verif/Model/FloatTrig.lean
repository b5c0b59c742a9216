import Verif.Model.Float
import Verif.Model.Pwl
import Verif.Model.Atan
import Verif.Model.Tan
import Verif.Model.Cordic
import Verif.Model.Arcsin

/-! # Models of the ac_float versions of the trigonometric and activation functions

They shift the mantissa by the exponent into a fixed-point type, call the ac_fixed version and convert its output.  The
parameters are those of Model/Float.lean. -/

namespace Model.FloatTrig
open Ac Model.Float

/-- `angle_input_fi`. ac_sincos_cordic.h:403, 426 -/
def angleIn : Fmt := ⟨40, 15, true, .RND, .WRAP⟩
/-- `sin_output_fi`, `cos_output_fi`. ac_sincos_cordic.h:406, 429 -/
def angleOut : Fmt := ⟨35, 7, true, .TRN, .WRAP⟩

/-- `ac_sin_cordic` for ac_float. ac_sincos_cordic.h:392-412 -/
def sin (t : FFmt) (d : Dst) (m : ℚ) (e : ℤ) : Option ℚ :=
  (Cordic.sin angleIn angleOut (Shift.leftSS t.mant angleIn (t.mant.raw m) e)).map d.cvt

/-- `ac_cos_cordic` for ac_float. ac_sincos_cordic.h:414-435 -/
def cos (t : FFmt) (d : Dst) (m : ℚ) (e : ℤ) : Option ℚ :=
  (Cordic.cos angleIn angleOut (Shift.leftSS t.mant angleIn (t.mant.raw m) e)).map d.cvt

/-- `input_fi`. ac_arcsin_cordic.h:337, ac_arccos_cordic.h:328 -/
def arcIn : Fmt := ⟨20, 2, true, .RND, .WRAP⟩

/-- `ac_arcsin_cordic` for ac_float. ac_arcsin_cordic.h:326-346 -/
def arcsin (t : FFmt) (d : Dst) (m : ℚ) (e : ℤ) : Option ℚ :=
  (Arcsin.arcsin ⟨35, 5, true, .TRN, .WRAP⟩ (Shift.leftSS t.mant arcIn (t.mant.raw m) e)).map d.cvt

/-- `ac_arccos_cordic` for ac_float. ac_arccos_cordic.h:317-337 -/
def arccos (t : FFmt) (d : Dst) (m : ℚ) (e : ℤ) : Option ℚ :=
  (Arcsin.arccos ⟨35, 5, false, .TRN, .WRAP⟩ (Shift.leftSS t.mant arcIn (t.mant.raw m) e)).map d.cvt

/-- `sigmoid_input_fi`, `tanh_input_fi`. ac_sigmoid_pwl.h:223, ac_tanh_pwl.h:222 -/
def actIn : Fmt := ⟨14, 4, true, .RND, .SAT⟩

/-- `ac_sigmoid_pwl` for ac_float. ac_sigmoid_pwl.h:210-235 -/
def sigmoid (q : QMode) (t : FFmt) (d : Dst) (m : ℚ) (e : ℤ) : Option ℚ :=
  (Pwl.sigmoid q actIn ⟨21, 1, false, .TRN, .WRAP⟩ (Shift.leftSS t.mant actIn (t.mant.raw m) e)).map d.cvt

/-- `ac_tanh_pwl` for ac_float; for `oob` see `Pwl.tanhPwl`. ac_tanh_pwl.h:207-234 -/
def tanh (oob : ℕ → Option (ℤ × ℤ)) (q : QMode) (t : FFmt) (d : Dst) (m : ℚ) (e : ℤ) : Option ℚ :=
  (Pwl.tanh oob q actIn ⟨21, 1, true, .TRN, .WRAP⟩ (Shift.leftSS t.mant actIn (t.mant.raw m) e)).map d.cvt

/-- `tan_input_fi`. ac_tan_pwl.h:299 -/
def tanIn : Fmt := ⟨22, 1, false, .RND, .WRAP⟩
/-- `mantVal`. ac_tan_pwl.h:295 -/
def tanMant (t : FFmt) : Fmt := ⟨t.W - 1, t.I - 1, false, .TRN, .WRAP⟩

/-- `ac_tan_pwl` for ac_float. ac_tan_pwl.h:281-310 -/
def tan (q : QMode) (t : FFmt) (d : Dst) (m : ℚ) (e : ℤ) : Option ℚ :=
  let x := Shift.leftUS (tanMant t) tanIn ((tanMant t).raw ((tanMant t).cvt m)) e
  (Tan.tan q tanIn ⟨36, 7, false, .TRN, .WRAP⟩ x).map d.cvt

end Model.FloatTrig
