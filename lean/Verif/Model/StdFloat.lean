import Verif.Model.CholFloat
import Verif.Model.FloatAtan
import Verif.Model.FloatHcordic
import Verif.Model.FloatTrig
import Verif.Model.StdAddTree

/-! # The ac_std_float and ac_ieee_float versions of the scalar functions

A number of `ac_std_float<W,E>` is its bit pattern, `M = W-E-1` is the number of mantissa bits; `ac_ieee_float` differs in how it
stores the same patterns.  Every function converts its input with `to_ac_float`, calls the ac_float version with an output of the
type `ac_float<outW-outE+1,2,outE>` and converts this number to the output type.  The two conversions belong to ac_types; they are
the parameter `Conv`. -/

namespace Model.StdFloat
open Ac Model.Float Model.StdAddTree

/-- `ac_float<W-E+1,2,E,Q>`. ac_reciprocal_pwl.h:640 -/
def fl (q : QMode) (M E : ℕ) : FFmt := ⟨M + 2, 2, E, q⟩

/-- The conversions of ac_std_float with `M` mantissa and `E` exponent bits to and from ac_float, and its `nan()` (ac_types). -/
structure Conv where
  toF : (M E : ℕ) → ℕ → ℚ × ℤ
  ofF : (M E : ℕ) → ℚ → ℕ
  nan : (M E : ℕ) → ℕ

/-- The wrapper around the ac_float function `f`, which takes input and output type, mantissa and exponent; `Mi`, `Ei` and `Mo`, `Eo`
are the bits of the input and output type, `q` the rounding mode of the ac_float output.
ac_reciprocal_pwl.h:635-644, 694-703; the other functions have the same text -/
def call (c : Conv) (q : QMode) (f : FFmt → FFmt → ℚ → ℤ → Option ℚ) (Mi Ei Mo Eo d : ℕ) : Option ℕ :=
  (f (fl .TRN Mi Ei) (fl q Mo Eo) (c.toF Mi Ei d).1 (c.toF Mi Ei d).2).map (c.ofF Mo Eo)

/-- ac_reciprocal_pwl.h:635-644, 694-703 -/
def reciprocal (c : Conv) (q : QMode) := call c .TRN fun t o m e => Model.Float.reciprocal q t o.Q o.dst m e

/-- ac_reciprocal_pwl_ha.h:617-626, 676-685 -/
def reciprocalHa (c : Conv) (q : QMode) := call c .TRN fun t o m e => Model.Float.reciprocalHa q t o.Q o.dst m e

/-- ac_reciprocal_pwl_vha.h:666-679, 728-738 -/
def reciprocalVha (c : Conv) (q : QMode) := call c .RND_CONV fun t o m e => Model.Float.reciprocalVha q t o.Q o.dst m e

/-- ac_sqrt_pwl.h:384-394, 440-449 -/
def sqrtPwl (c : Conv) (q : QMode) := call c .TRN fun t o m e => Model.Float.sqrtPwl q t o.dst m e

/-- ac_inverse_sqrt_pwl.h:481-491, 535-544 -/
def inverseSqrtPwl (c : Conv) (q : QMode) := call c .TRN fun t o m e => Model.Float.inverseSqrtPwl q t o.Q o.dst m e

/-- The ac_ieee_float version; the ac_std_float one has an output with AC_RND_CONV. ac_inverse_sqrt_pwl_vha.h:493-506, 550-559 -/
def inverseSqrtPwlVha (c : Conv) (oq q : QMode) := call c oq fun t o m e => Model.Float.inverseSqrtPwlVha q t o.Q o.dst m e

/-- ac_log_pwl.h:535-545, 647-657 -/
def log2Pwl (c : Conv) (q : QMode) := call c .TRN fun t o m e => Model.Float.log2Pwl q t o.dst m e

/-- ac_log_pwl.h:589-599, 711-721 -/
def logPwl (c : Conv) (q : QMode) := call c .TRN fun t o m e => Model.Float.logPwl q t o.dst m e

/-- ac_sigmoid_pwl.h:237-247, 296-308 -/
def sigmoidPwl (c : Conv) (q : QMode) := call c .TRN fun t o m e => Model.FloatTrig.sigmoid q t o.dst m e

/-- `oob` is what the reads past the end of the table give. ac_tanh_pwl.h:236-246, 295-307 -/
def tanhPwl (c : Conv) (oob : ℕ → Option (ℤ × ℤ)) (q : QMode) := call c .TRN fun t o m e => Model.FloatTrig.tanh oob q t o.dst m e

/-- ac_tan_pwl.h:357-367, 413-425 -/
def tanPwl (c : Conv) (q : QMode) := call c .TRN fun t o m e => Model.FloatTrig.tan q t o.dst m e

/-- ac_atan_pwl.h:335-345, 388-400 -/
def atanPwl (c : Conv) (q : QMode) := call c .TRN fun t o m e => Model.FloatAtan.atanPwl q t o.dst m e

/-- ac_atan_pwl_ha.h:315-325, 369-381 -/
def atanPwlHa (c : Conv) (q : QMode) := call c .TRN fun t o m e => Model.FloatAtan.atanHa q t o.dst m e

/-- ac_atan_pwl_vha.h:330-340, 384-396 -/
def atanPwlVha (c : Conv) (q : QMode) := call c .TRN fun t o m e => Model.FloatAtan.atanVha q t o.dst m e

/-- ac_sincos_cordic.h:443-453, 479-491 -/
def sinCordic (c : Conv) := call c .TRN fun t o m e => Model.FloatTrig.sin t o.dst m e

/-- ac_sincos_cordic.h:460-470, 500-512 -/
def cosCordic (c : Conv) := call c .TRN fun t o m e => Model.FloatTrig.cos t o.dst m e

/-- ac_arcsin_cordic.h:353-363, 371-384 -/
def arcsinCordic (c : Conv) := call c .TRN fun t o m e => Model.FloatTrig.arcsin t o.dst m e

/-- ac_arccos_cordic.h:344-354, 362-375 -/
def arccosCordic (c : Conv) := call c .TRN fun t o m e => Model.FloatTrig.arccos t o.dst m e

/-- `set_signbit(s)` (ac_types). -/
def setSign (M E d : ℕ) (s : Bool) : ℕ := d % 2 ^ (M + E) + if s then 2 ^ (M + E) else 0

/-- `nanSup` is the macro AC_POW_PWL_NAN_SUPPORTED. ac_pow_pwl.h:566-585, 690-713 -/
def pow2Pwl (c : Conv) (nanSup : Bool) (q : QMode) (Mi Ei Mo Eo d : ℕ) : Option ℕ :=
  (call c .TRN (fun t o m e => Model.Float.pow2Pwl q t o o.dst m e) Mi Ei Mo Eo d).map fun r =>
    if nanSup = true ∧ nan Mi Ei d = true then c.nan Mo Eo else r

/-- ac_pow_pwl.h:626-647, 757-782 -/
def expPwl (c : Conv) (nanSup : Bool) (q : QMode) (Mi Ei Mo Eo d : ℕ) : Option ℕ :=
  (call c .TRN (fun t o m e => Model.Float.expPwl q t o o.dst m e) Mi Ei Mo Eo d).map fun r =>
    if nanSup = true ∧ nan Mi Ei d = true then setSign Mo Eo (c.nan Mo Eo) (sgn Mi Ei d) else r

/-- The special cases of the logarithms; `nanSup` is the macro AC_HCORDIC_NAN_SUPPORTED. ac_hcordic.h:948-962, 1114-1125 -/
def logNan (c : Conv) (nanSup : Bool) (Mi Ei Mo Eo d r : ℕ) : ℕ :=
  if nanSup = true ∧ (nan Mi Ei d = true ∨ sgn Mi Ei d = true) then
    if nan Mi Ei d = true then setSign Mo Eo (c.nan Mo Eo) (sgn Mi Ei d) else c.nan Mo Eo
  else r

/-- ac_hcordic.h:938-963, 1101-1126 -/
def logCordic (c : Conv) (nanSup : Bool) (tf : Option ℕ) (tq : QMode) (Mi Ei Mo Eo d : ℕ) : Option ℕ :=
  (call c .TRN (fun t o m e => Model.FloatHcordic.log tf tq t o o.dst m e) Mi Ei Mo Eo d).map (logNan c nanSup Mi Ei Mo Eo d)

/-- ac_hcordic.h:1019-1044, 1184-1209 -/
def log2Cordic (c : Conv) (nanSup : Bool) (tf : Option ℕ) (tq : QMode) (Mi Ei Mo Eo d : ℕ) : Option ℕ :=
  (call c .TRN (fun t o m e => Model.FloatHcordic.log2 tf tq t o o.dst m e) Mi Ei Mo Eo d).map (logNan c nanSup Mi Ei Mo Eo d)

/-- The special case of the exponentials. ac_hcordic.h:1681-1688, 1855-1862 -/
def expNan (c : Conv) (nanSup : Bool) (Mi Ei Mo Eo d r : ℕ) : ℕ :=
  if nanSup = true ∧ nan Mi Ei d = true then setSign Mo Eo (c.nan Mo Eo) (sgn Mi Ei d) else r

/-- ac_hcordic.h:1671-1691, 1842-1865 -/
def expCordic (c : Conv) (nanSup : Bool) (tf : Option ℕ) (tq : QMode) (Mi Ei Mo Eo d : ℕ) : Option ℕ :=
  (call c .TRN (fun t o m e => Model.FloatHcordic.exp tf tq t o o.dst m e) Mi Ei Mo Eo d).map (expNan c nanSup Mi Ei Mo Eo d)

/-- ac_hcordic.h:1756-1776, 1931-1954 -/
def exp2Cordic (c : Conv) (nanSup : Bool) (tf : Option ℕ) (tq : QMode) (Mi Ei Mo Eo d : ℕ) : Option ℕ :=
  (call c .TRN (fun t o m e => Model.FloatHcordic.exp2 tf tq t o o.dst m e) Mi Ei Mo Eo d).map (expNan c nanSup Mi Ei Mo Eo d)

/-- `ac_pow_cordic`; `Ma`, `Ea` and `Mb`, `Eb` are the bits of the types of base and exponent. ac_hcordic.h:2292-2304, 2373-2388 -/
def powCordic (c : Conv) (tf : Option ℕ) (tq : QMode) (Ma Ea Mb Eb Mo Eo a b : ℕ) : Option ℕ :=
  (Model.FloatHcordic.pow tf tq (fl .TRN Ma Ea) (fl .TRN Mb Eb) (fl .TRN Mo Eo) (fl .TRN Mo Eo).dst (c.toF Ma Ea a).1 (c.toF Ma Ea a).2
    (c.toF Mb Eb b).1 (c.toF Mb Eb b).2).map (c.ofF Mo Eo)

/-- `ac_sqrt` with its default precision: the fraction bits of the ac_float output.  `nanSup` is the macro AC_SQRT_NAN_SUPPORTED.
ac_sqrt.h:313-344, 365-399 -/
def sqrt (c : Conv) (nanSup : Bool) (tq : QMode) (Mi Ei Mo Eo d : ℕ) : ℕ :=
  let x := c.toF Mi Ei d
  let r := c.ofF Mo Eo (Model.Float.sqrt tq Mo (fl .TRN Mi Ei) (fl .TRN Mo Eo).dst x.1 x.2)
  if expo Mi Ei d = 0 ∧ mantZero Mi d = true ∧ sgn Mi Ei d = true then setSign Mo Eo r true
  else if nanSup = true ∧ (nan Mi Ei d = true ∨ sgn Mi Ei d = true) then setSign Mo Eo (c.nan Mo Eo) (sgn Mi Ei d)
  else r

end Model.StdFloat
