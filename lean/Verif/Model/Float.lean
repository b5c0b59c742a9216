import Verif.Model.PwlHa
import Verif.Model.Complex
import Verif.Model.DivFixed
import Verif.Model.SqrtFixed
import Mathlib.Data.Int.Log

/-! # Models of the ac_float versions of the scalar functions

`ac_float<W,I,E,Q>` is not part of /repo.  A number of the type is the pair of its mantissa, a number of the format
`ac_fixed<W,I,true>`, and its exponent.  The functions below read the two parts and end with a call of a constructor that
takes a mantissa and an exponent, or with `set_val`: the result depends on the value of mantissa and exponent only.  What the
constructor does with the value is the parameter `d : Dst`; `FFmt.dst` is the conversion of ac_float itself.  The versions for
`ac_std_float` and `ac_ieee_float` convert the input to ac_float, which keeps its value, call the same function and convert its
output: for them `d` is the composition of two conversions. -/

namespace Model.Float
open Ac Model.PwlFixed Model.Normalize

/-- The conversion of an exact value to the output type and the extreme values of the type. -/
structure Dst where
  cvt : ℚ → ℚ
  maxVal : ℚ
  minVal : ℚ

/-- The parameters of `ac_float<W,I,E,Q>`. -/
structure FFmt where
  W : ℕ
  I : ℤ
  E : ℕ
  Q : QMode := .TRN

/-- The type of the mantissa. -/
def FFmt.mant (t : FFmt) : Fmt := ⟨t.W, t.I, true, .TRN, .WRAP⟩

/-- The least exponent for which the mantissa holds numbers of the magnitude of `x`, not below the least exponent of the
type. -/
def FFmt.exp (t : FFmt) (x : ℚ) : ℤ :=
  max (-2 ^ (t.E - 1)) ((if x < 0 then Int.clog 2 (-x) else Int.log 2 x + 1) - (t.I - 1))

/-- The largest value of the type. -/
def FFmt.maxVal (t : FFmt) : ℚ := t.mant.maxVal * 2 ^ ((2 : ℤ) ^ (t.E - 1) - 1)
/-- The smallest value of the type. -/
def FFmt.minVal (t : FFmt) : ℚ := t.mant.minVal * 2 ^ ((2 : ℤ) ^ (t.E - 1) - 1)

/-- Conversion of an exact value to ac_float (ac_types): the mantissa is normalised as far as the exponent allows and
quantised; values out of range saturate. -/
def FFmt.cvt (t : FFmt) (x : ℚ) : ℚ :=
  if x = 0 then 0 else
    let e := t.exp x
    let v := (quant t.Q (x * 2 ^ (-e) * 2 ^ t.mant.F) : ℚ) * 2 ^ (-t.mant.F) * 2 ^ e
    if t.maxVal < v then t.maxVal else if v < t.minVal then t.minVal else v

/-- The output conversion of ac_float. -/
def FFmt.dst (t : FFmt) : Dst := ⟨t.cvt, t.maxVal, t.minVal⟩

/-- The constructor `ac_float<W,I,E_temp>(m, e, true)`, as (mantissa, exponent): the mantissa is shifted up as far as it holds
no sign bit twice and the exponent stays in range; zero gets the exponent 0 (ac_types). -/
def renorm (t : FFmt) (Et : ℕ) (m : ℚ) (e : ℤ) : ℚ × ℤ :=
  if m = 0 then (0, 0) else
    let k := min (leadingSign t.W true (t.mant.raw m) : ℤ) (e + 2 ^ (Et - 1))
    (m * 2 ^ k, e - k)

/-- `E_temp_min + 1`. ac_reciprocal_pwl.h:313-315, ac_reciprocal_pwl_vha.h:331-333,
ac_inverse_sqrt_pwl_vha.h:393-395 -/
def Etemp (t : FFmt) : ℕ := nbits (max (t.W - 1 + 2 ^ (t.E - 1)) 1) + 1

/-- The type of `recip_mantissa`: `p` is `n_frac_bits`, `lg` is `log2_sc_constant`.
ac_reciprocal_pwl.h:311, 322-326, ac_reciprocal_pwl_vha.h:329, 340-344 -/
def recMant (p lg : ℕ) (t : FFmt) (oq : QMode) : Fmt := ⟨scBits p (t.W - lg - 1) + p + 2, -t.I + 3, true, oq, .WRAP⟩

/-- `ac_reciprocal_pwl` for ac_float; `oq` is the rounding mode of the output. ac_reciprocal_pwl.h:295-338 -/
def reciprocal (q : QMode) (t : FFmt) (oq : QMode) (d : Dst) (m : ℚ) (e : ℤ) : Option ℚ := do
  let n := renorm t (max (Etemp t) t.E) m e
  let r ← PwlFixed.reciprocal q t.mant (recMant 10 4 t oq) n.1
  some (if m = 0 then d.maxVal else d.cvt (r * 2 ^ (-n.2)))

/-- The type of `recip_mantissa` of the second version. ac_reciprocal_pwl_ha.h:301-307 -/
def recMantHa (t : FFmt) (oq : QMode) : Fmt := ⟨t.W + 16 + scBits 16 (t.W - 6 - 1) + 1, t.W - t.I + 2, true, oq, .WRAP⟩

/-- `ac_reciprocal_pwl_ha` for ac_float. ac_reciprocal_pwl_ha.h:285-318 -/
def reciprocalHa (q : QMode) (t : FFmt) (oq : QMode) (d : Dst) (m : ℚ) (e : ℤ) : Option ℚ := do
  let r ← PwlHa.reciprocalHa q t.mant (recMantHa t oq) m
  some (if m = 0 then d.maxVal else d.cvt (r * 2 ^ (-e)))

/-- `ac_reciprocal_pwl_vha` for ac_float. ac_reciprocal_pwl_vha.h:313-359 -/
def reciprocalVha (q : QMode) (t : FFmt) (oq : QMode) (d : Dst) (m : ℚ) (e : ℤ) : Option ℚ := do
  let n := renorm t (Etemp t) m e
  let r ← PwlHa.reciprocalVha q false t.mant (recMant 16 7 t oq) n.1
  some (if m = 0 then d.maxVal else d.cvt (r * 2 ^ (-n.2)))

/-- The mantissa without its sign bit: `ac_fixed<W-1,I-1,false>`. ac_sqrt_pwl.h:303, ac_inverse_sqrt_pwl.h:407,
ac_inverse_sqrt_pwl_vha.h:407, ac_log_pwl.h:339 -/
def posMant (t : FFmt) : Fmt := ⟨t.W - 1, t.I - 1, false, t.Q, .WRAP⟩

/-- `root2`. ac_sqrt_pwl.h:300 -/
def root2 : ℚ := 46341 / 32768

/-- `ac_sqrt_pwl` for ac_float. ac_sqrt_pwl.h:290-327 -/
def sqrtPwl (q : QMode) (t : FFmt) (d : Dst) (m : ℚ) (e : ℤ) : Option ℚ := do
  let m1 := (posMant t).cvt m
  let f2 := Complex.rtSqrt (t.W - t.I) (t.I - 1)
  let m2 ← PwlFixed.sqrt q false (posMant t) f2 m1
  let x : ℕ := if t.I.tmod 2 = 0 then 1 else 0
  let f3 : Fmt := ⟨f2.W + x, f2.I + x, false, .TRN, .WRAP⟩
  let m3 := if e.tmod 2 = 0 then f3.cvt m2 else f3.cvt (m2 * root2)
  some (d.cvt (m3 * 2 ^ (e / 2)))

/-- `find_rt_inv_sqrt_pwl<n, I>`. ac_inverse_sqrt_pwl.h:334-341 -/
def rtIsqI (n : ℤ) : ℤ := if n.tmod 2 = 0 then n.tdiv 2 else (n + 1).tdiv 2
/-- See `rtIsqI`. -/
def rtIsqF (I : ℤ) : ℤ := (if I.tmod 2 = 0 then I.tdiv 2 else (I - 1).tdiv 2) + 24

/-- `ac_inverse_sqrt_pwl` for ac_float. ac_inverse_sqrt_pwl.h:393-425 -/
def inverseSqrtPwl (q : QMode) (t : FFmt) (oq : QMode) (d : Dst) (m : ℚ) (e : ℤ) : Option ℚ := do
  let m1 := (posMant t).cvt m
  let I2 := rtIsqI (t.W - t.I)
  let W2 := (I2 + rtIsqF (t.I - 1)).toNat
  let y ← PwlFixed.inverseSqrt q false (posMant t) ⟨W2, I2, false, q, .WRAP⟩ m1
  let o2 : Fmt := ⟨W2 + 1, I2 + 1, true, oq, .WRAP⟩
  let m2 := (⟨W2 + 1, I2 + 1, true, q, .WRAP⟩ : Fmt).cvt (if e.tmod 2 = 0 then o2.cvt y else o2.cvt (y * inverseroot2))
  some (if m1 = 0 then d.maxVal else d.cvt (m2 * 2 ^ (-(e / 2))))

/-- `I_2`. ac_inverse_sqrt_pwl_vha.h:402-404 -/
def isqVhaI (I : ℤ) : ℤ :=
  if I.tmod 2 ≠ 0 then (if 0 < I then (-I).tdiv 2 + 1 else (-(I - 2)).tdiv 2 + 1)
  else (if 0 < I then (-(I - 1)).tdiv 2 else (-(I - 2)).tdiv 2)

/-- `ac_inverse_sqrt_pwl_vha` for ac_float. ac_inverse_sqrt_pwl_vha.h:375-425 -/
def inverseSqrtPwlVha (q : QMode) (t : FFmt) (oq : QMode) (d : Dst) (m : ℚ) (e : ℤ) : Option ℚ := do
  let n := renorm t (Etemp t) m e
  let I2 := isqVhaI t.I
  let W2 : ℕ := 2 * 16 - (if t.I.tmod 2 = 0 then 3 else 5)
  let m1 := (posMant t).cvt n.1
  let y ← PwlHa.inverseSqrtVha q false (posMant t) ⟨W2, I2, false, q, .WRAP⟩ m1
  let o2 : Fmt := ⟨W2 + 1, I2 + 1, true, oq, .WRAP⟩
  let m2 := (⟨W2 + 1, I2 + 1, true, q, .WRAP⟩ : Fmt).cvt
    (if n.2.tmod 2 = 0 then o2.cvt y else o2.cvt (y * PwlHa.invroot2))
  some (if m = 0 then d.maxVal else d.cvt (m2 * 2 ^ (-(n.2 / 2))))

/-- `input_mant_norm`: the bits of the mantissa as `ac_fixed<W-1,0,false>`. ac_log_pwl.h:339-341 -/
def logMant (t : FFmt) (m : ℚ) : ℚ :=
  (⟨t.W - 1, 0, false, .TRN, .WRAP⟩ : Fmt).val ((posMant { t with Q := .TRN }).raw ((posMant { t with Q := .TRN }).cvt m))

/-- `output_mant_norm + denorm_sum`. ac_log_pwl.h:343-357 -/
def logSum (q : QMode) (t : FFmt) (m : ℚ) (e : ℤ) : Option ℚ := do
  let y ← PwlFixed.log2 q false ⟨t.W - 1, 0, false, .TRN, .WRAP⟩ ⟨23, 1, true, .TRN, .WRAP⟩ (logMant t m)
  some (y + ((t.I - 1 + e : ℤ) : ℚ))

/-- `ac_log2_pwl` for ac_float. ac_log_pwl.h:325-371, 431-436 -/
def log2Pwl (q : QMode) (t : FFmt) (d : Dst) (m : ℚ) (e : ℤ) : Option ℚ := do
  let y ← logSum q t m e
  some (if logMant t m = 0 then d.minVal else d.cvt y)

/-- `ln2` of the ac_float version, 15 bits. ac_log_pwl.h:334 -/
def ln2 : ℚ := 22713 / 32768

/-- `ac_log_pwl` for ac_float. ac_log_pwl.h:325-371, 483-488 -/
def logPwl (q : QMode) (t : FFmt) (d : Dst) (m : ℚ) (e : ℤ) : Option ℚ := do
  let y ← logSum q t m e
  some (if logMant t m = 0 then d.minVal else d.cvt (y * ln2))

/-- `I_fxpt`; `o` is the output type. ac_pow_pwl.h:354-355 -/
def powI (o : FFmt) : ℕ := nbits (2 ^ (o.E - 1) + max (o.I - 1) (o.W - o.I)).toNat + 1

/-- The type of `input_to_pow2_fxpt`. ac_pow_pwl.h:363-373 -/
def powIn (q : QMode) (o : FFmt) : Fmt := ⟨powI o + 10 + 2, powI o, true, q, .SAT⟩

/-- The end of both exponentials; `x` is `input_to_pow2_fxpt`. ac_pow_pwl.h:389-399 -/
def powEnd (q : QMode) (o : FFmt) (d : Dst) (x : ℚ) : Option ℚ := do
  let fr := (⟨12, 0, false, .TRN, .WRAP⟩ : Fmt).val ((powIn q o).raw x % 2 ^ 12)
  let y ← PwlFixed.pow2 q ⟨12, 0, false, .TRN, .WRAP⟩ ⟨21, 1, false, .TRN, .WRAP⟩ fr
  some (d.cvt (y * 2 ^ wrap (powI o) true ⌊x⌋))

/-- `ac_pow2_pwl` for ac_float. ac_pow_pwl.h:352-399, 462-472 -/
def pow2Pwl (q : QMode) (t o : FFmt) (d : Dst) (m : ℚ) (e : ℤ) : Option ℚ :=
  powEnd q o d (Shift.leftSS t.mant (powIn q o) (t.mant.raw m) e)

/-- `ac_exp_pwl` for ac_float. ac_pow_pwl.h:352-399, 517-526 -/
def expPwl (q : QMode) (t o : FFmt) (d : Dst) (m : ℚ) (e : ℤ) : Option ℚ :=
  let fp : Fmt := ⟨t.W + 17, t.I + 3, true, .TRN, .WRAP⟩
  powEnd q o d (Shift.leftSS fp (powIn q o) (fp.raw (m * log2e)) e)

/-- The type of `tm`; `o` is the quotient type. ac_div.h:482-485 -/
def divFmt (n v o : FFmt) : Fmt := ⟨(n.I + (v.W - v.I) + (o.W - o.I)).toNat, n.I + (v.W - v.I), true, .TRN, .WRAP⟩

/-- `ac_div` for ac_float: dividend `m * 2^e` of type `n`, divisor `m' * 2^e'` of type `v`. ac_div.h:467-505 -/
def div (noSat : Bool) (n v o : FFmt) (d : Dst) (m : ℚ) (e : ℤ) (m' : ℚ) (e' : ℤ) (junk : ℚ) : ℚ × Bool :=
  let x := DivFixed.divS noSat n.mant v.mant (divFmt n v o) (n.mant.raw m) (v.mant.raw m') junk
  let te := wrap (max n.E v.E + 1) true (e - e')
  (if !noSat && m' = 0 then (if m < 0 then d.minVal else d.maxVal) else d.cvt (x.1 * 2 ^ te), x.2)

/-- The type of `sqrt_mant`; `tf` is `TF`. ac_sqrt.h:280-283 -/
def sqrtMant (tq : QMode) (tf : ℤ) (t : FFmt) : Fmt :=
  let TI := if t.I.tmod 2 = 0 then t.I.tdiv 2 else (t.I + 1).tdiv 2
  ⟨(tf + TI).toNat, TI, false, tq, .WRAP⟩

/-- `ac_sqrt` for ac_float; `tf` is `TF_` if `OR_TF` is set and the number of fraction bits of the output otherwise.
ac_sqrt.h:258-293 -/
def sqrt (tq : QMode) (tf : ℤ) (t : FFmt) (d : Dst) (m : ℚ) (e : ℤ) : ℚ :=
  let fx : Fmt := ⟨t.W, t.I, false, t.Q, .WRAP⟩
  let x := fx.raw (fx.cvt m)
  let x := wrap t.W false (x * 2 ^ (e % 2).toNat)
  d.cvt (SqrtFixed.sqrtFixed fx (sqrtMant tq tf t) x * 2 ^ (e / 2))

/-- `ac_abs` for ac_float. ac_abs.h:250-267 -/
def abs (t : FFmt) (d : Dst) (m : ℚ) (e : ℤ) : ℚ :=
  let xm := (Fmt.mk t.W t.I false .TRN .WRAP).raw (Bits.absFixed t.W t.I ⟨t.W, t.I, false, .TRN, .WRAP⟩ (t.mant.raw m))
  let ismax : ℕ := if xm / 2 ^ (t.W - 1) % 2 = 1 then 1 else 0
  let e1 := wrap (t.E + 1) true (e + ismax)
  let m1 := t.mant.val (xm / 2 ^ ismax % 2 ^ (t.W - 1))
  d.cvt (m1 * 2 ^ e1)

end Model.Float
