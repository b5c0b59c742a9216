import Verif.Ac.Arith
import Verif.Model.AddTree
import Verif.Model.Bits

/-! # Model of include/ac_math/ac_flfx_mul.h

An `ac_float<W,I,E>` is a pair of a mantissa (raw integer with `W-I` fraction bits) and an exponent
(`Model.AddTree.Flt`).  `MAX_EXP = 2^(E-1)-1` and `MIN_EXP = -2^(E-1)`; `is_norm()` tells whether the two top mantissa
bits differ (ac_float.h, not in /repo). -/

namespace Model.FlfxMul
open Ac Model.Bits Model.AddTree

/-- `leading_sign()` of a W-bit word: the number of redundant copies of the sign bit (signed) or of leading zeros
(unsigned).  ac_types. -/
def lsign (W : ℕ) (S : Bool) (x : ℤ) : ℕ :=
  if S then leadingSignU (W - 1) (if x < 0 then -x - 1 else x).toNat else leadingSignU W x.toNat

/-- `is_norm()` of ac_float. -/
def isNorm (W : ℕ) (m : ℤ) : Bool := decide (lsign W true m = 0)

/-- Template parameters: the ac_float operand `<W1,I1,E1>`, the ac_fixed operand `<W2,I2,S>`, the ac_float output
`<oW,oI,oE>`. -/
structure Par where
  W1 : ℕ
  I1 : ℤ
  E1 : ℕ
  W2 : ℕ
  I2 : ℤ
  S : Bool
  oW : ℕ
  oI : ℤ
  oE : ℕ

namespace Par
variable (p : Par)

/-- `mprod_W`. ac_flfx_mul.h:116-119 -/
def mW : ℕ := p.W1 + p.W2
/-- `rshift`. ac_flfx_mul.h:123, 200, 333 -/
def rshift : ℤ := p.I1 + p.I2 - p.oI
/-- `MAX_EXP` of the operand. -/
def maxE1 : ℤ := 2 ^ (p.E1 - 1) - 1
/-- `MIN_EXP` of the operand. -/
def minE1 : ℤ := -2 ^ (p.E1 - 1)
/-- `MAX_EXP` of the output. -/
def maxEo : ℤ := 2 ^ (p.oE - 1) - 1
/-- `MIN_EXP` of the output. -/
def minEo : ℤ := -2 ^ (p.oE - 1)
/-- `1 + int(S)`. -/
def oneS : ℕ := if p.S then 2 else 1
/-- `min_oexp_t`. ac_flfx_mul.h:125 (subnormals supported), 202 (not supported) -/
def minT (subn : Bool) : ℤ :=
  if subn then p.minE1 - ((p.mW : ℤ) - 1) + p.rshift else p.minE1 - ((p.W2 : ℤ) - 1) - p.oneS + p.rshift
/-- `temp_oexp_w`. ac_flfx_mul.h:124-127, 201-204 -/
def tempW (subn : Bool) : ℕ := nbits (max (p.maxE1 + p.rshift) |p.minT subn|).toNat + 1
/-- `extra_exp_masking`. ac_flfx_mul.h:130-132, 207-209 -/
def masking (subn : Bool) : Bool :=
  decide ((if subn then p.maxE1 - ((p.mW : ℤ) - 1) + p.rshift else p.maxE1 - p.oneS + p.rshift) > p.maxEo)

/-- `calc_in2_ls`. ac_flfx_mul.h:145-147, 222-224 -/
def in2Ls (subn : Bool) (b : ℤ) : ℕ := if subn then 0 else lsign p.W2 p.S b

/-- `calc_mprod_ls`: the whole product, or its top `2+S` bits. ac_flfx_mul.h:149-152, 226-235 -/
def mprodLs (subn : Bool) (n : ℤ) : ℕ :=
  if subn then lsign p.mW true n
  else lsign (p.oneS + 1) true (wrap (p.oneS + 1) true (n / 2 ^ (p.mW - (p.oneS + 1))))

/-- `ls_sum`. ac_flfx_mul.h:143, 220, 335.  Stored in a word that holds up to `W2 + S` when subnormals are not
supported. -/
def lsSum (subn : Bool) (l1 l2 : ℕ) : ℕ :=
  if subn then (l1 + l2) % 2 ^ nbits (p.mW - 1) else (l1 + l2) % 2 ^ nbits (p.W2 - 1 + p.oneS)

/-- `final_omant_calc`. ac_flfx_mul.h:156-178 (subnormals supported), 239-264 (not supported).  `t` is the
temporary exponent, `nrm` is `in1.is_norm()`, `m` the output mantissa.  The masks are written as conditionals. -/
def finalMant (subn nrm : Bool) (t m : ℤ) : ℤ :=
  let gt := decide (t > p.maxEo)
  let lt := decide (t < p.minEo)
  let msb := decide (m < 0)
  let lsbs := m % 2 ^ (p.oW - 1)
  let clear := if subn then msb && gt else (msb && gt) || lt || !nrm
  let lsbs := if clear then 0 else lsbs
  let lsbs := if !msb && gt then 2 ^ (p.oW - 1) - 1 else lsbs
  let msb := if subn then msb else msb && !lt && nrm
  let m := (if msb then -2 ^ (p.oW - 1) else 0) + lsbs
  if subn && lt then wrap p.oW true (m / 2 ^ (p.minEo - t).toNat) else m

/-- `ac_flfx_mul`, ac_float output. ac_flfx_mul.h:286-358.  `x` is the ac_float operand, `b` the raw integer of the
ac_fixed operand.  The assertion at line 294 constrains the caller only. -/
def mulFloat (subn : Bool) (x : Flt) (b : ℤ) : Flt :=
  let l1 := p.in2Ls subn b
  let b' := wrap p.W2 p.S (b * 2 ^ l1)
  let n := wrap p.mW true (x.m * b')
  let l2 := p.mprodLs subn n
  let n' := wrap p.mW true (n * 2 ^ l2)
  let om := (⟨p.oW, p.oI, true, .TRN, .WRAP⟩ : Fmt).cvtRaw ((⟨p.mW, p.oI, true, .TRN, .WRAP⟩ : Fmt).val n')
  let t := wrap (p.tempW subn) true (x.e - p.lsSum subn l1 l2 + p.rshift)
  let t := if p.masking subn && decide (om = 0) then 0 else t
  let oe := if t > p.maxEo then p.maxEo else if t < p.minEo then p.minEo else t
  ⟨p.finalMant subn (isNorm p.W1 x.m) t om, oe⟩

end Par

/-- `ac_flfx_mul` with the operands swapped, ac_float output. ac_flfx_mul.h:410-417 -/
def mulFloatSwap (p : Par) (subn : Bool) (b : ℤ) (x : Flt) : Flt := p.mulFloat subn x b

/-- `ac_float<W,I,E>::rt_unary::to_ac_fixed_t`: the fixed point type holding every `m * 2^e` (ac_float.h, not in
/repo). -/
def toFixed (W : ℕ) (I : ℤ) (E : ℕ) : Fmt := ⟨W + 2 ^ E - 1, I + 2 ^ (E - 1) - 1, true, .TRN, .WRAP⟩

/-- `ac_flfx_mul`, ac_fixed output. ac_flfx_mul.h:444-477.  `W1 I1 E1` float operand, `g` the type of the ac_fixed
operand `y`, `out` the output type. -/
def mulFixed (subn : Bool) (W1 : ℕ) (I1 : ℤ) (E1 : ℕ) (g out : Fmt) (x : Flt) (y : ℚ) : ℚ :=
  let a : Fmt := ⟨W1, I1, true, .TRN, .WRAP⟩
  let mp := a.mult g
  let full := toFixed mp.W mp.I E1
  let n := mp.cvt (a.val x.m * y)
  let v := full.shl (full.cvt n) x.e
  if !subn && !isNorm W1 x.m then out.cvt (0 : ℚ) else out.cvt (out.cvt v)

/-- `ac_flfx_mul` with the operands swapped, ac_fixed output. ac_flfx_mul.h:532-538 -/
def mulFixedSwap (subn : Bool) (W1 : ℕ) (I1 : ℤ) (E1 : ℕ) (g out : Fmt) (y : ℚ) (x : Flt) : ℚ :=
  mulFixed subn W1 I1 E1 g out x y

/-- `ac_flfx_mul`, two ac_float operands, ac_fixed output. ac_flfx_mul.h:581-623 -/
def mulFloats (subn : Bool) (W1 : ℕ) (I1 : ℤ) (E1 W2 : ℕ) (I2 : ℤ) (E2 : ℕ) (out : Fmt) (x y : Flt) : ℚ :=
  let a : Fmt := ⟨W1, I1, true, .TRN, .WRAP⟩
  let b : Fmt := ⟨W2, I2, true, .TRN, .WRAP⟩
  let mp := a.mult b
  let EW := max E1 E2 + 1
  let full := toFixed mp.W mp.I EW
  let n := mp.cvt (a.val x.m * b.val y.m)
  let v := full.shl (full.cvt n) (wrap EW true (x.e + y.e))
  if !subn && (!isNorm W1 x.m || !isNorm W2 y.m) then out.cvt (0 : ℚ) else out.cvt (out.cvt v)

end Model.FlfxMul
