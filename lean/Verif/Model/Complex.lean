import Verif.Model.PwlHa
import Verif.Model.DivFixed

/-! # Models of the functions that take complex fixed-point numbers

A complex number is the pair of its parts.  `ac_complex` is not part of /repo.  Of it the functions below use the exact sum
and product (every intermediate type of `ac_complex` is wide enough), the componentwise assignment, `conj` and `mag_sqr`.
The type of the result of `mag_sqr` is a parameter `fm`, that of `conj` a parameter `fc`. -/

namespace Model.Complex
open Ac Model.PwlFixed Model.PwlHa

/-- `ac_complex::mag_sqr`, whose result has the format `fm`. -/
def magSqr (fm : Fmt) (a b : ℚ) : ℚ := fm.cvt (a * a + b * b)

/-- `ac_abs` for `ac_complex<ac_fixed>`. ac_abs.h:309-318 -/
def abs (q : QMode) (fm out : Fmt) (a b : ℚ) : Option ℚ := sqrt q true fm out (magSqr fm a b)

/-- `W1`. ac_reciprocal_pwl.h:421, ac_reciprocal_pwl_ha.h:400, ac_reciprocal_pwl_vha.h:444 -/
def W1 (f : Fmt) : ℕ := if f.S then 2 * f.W - 1 else 2 * f.W + 1

/-- `I1`. ac_reciprocal_pwl.h:422, ac_reciprocal_pwl_ha.h:401, ac_reciprocal_pwl_vha.h:445 -/
def I1 (f : Fmt) : ℤ := if f.S then 2 * f.I - 1 else 2 * f.I + 1

/-- `sc_input_frac_bits`, with `lg` for `log2_sc_constant` and `n` for `n_frac_bits`. ac_reciprocal_pwl.h:432 -/
def scIn (lg n : ℕ) (f : Fmt) : ℕ := scBits n (W1 f - lg - (if f.S then 1 else 0))

/-- The type of `recip_mag_sqr`. ac_reciprocal_pwl.h:434-437, ac_reciprocal_pwl_ha.h:414-417 -/
def recFmt (lg n : ℕ) (f out : Fmt) : Fmt :=
  ⟨W1 f + scIn lg n f + n + (if f.S then 0 else 1), W1 f - I1 f + 1, false, out.Q, out.O⟩

/-- The type of `recip_mag_sqr` of the third version, one bit shorter. ac_reciprocal_pwl_vha.h:458-461 -/
def recFmtVha (lg n : ℕ) (f out : Fmt) : Fmt := ⟨W1 f + scIn lg n f + n, W1 f - I1 f, false, out.Q, out.O⟩

/-- The common end of the three functions: `c` is `recip_mag_sqr`. ac_reciprocal_pwl.h:440-452,
ac_reciprocal_pwl_ha.h:420-432, ac_reciprocal_pwl_vha.h:464-476 -/
def scaleConj (out : Fmt) (a b c : ℚ) : ℚ × ℚ :=
  if a ≠ 0 ∨ b ≠ 0 then (out.cvt (a * c), out.cvt (-b * c)) else (out.maxVal, out.maxVal)

/-- `ac_reciprocal_pwl` for `ac_complex<ac_fixed>`. ac_reciprocal_pwl.h:413-453 -/
def reciprocal (q : QMode) (f fm out : Fmt) (a b : ℚ) : Option (ℚ × ℚ) := do
  let c ← PwlFixed.reciprocal q fm (recFmt 4 10 f out) (magSqr fm a b)
  some (scaleConj out a b c)

/-- `ac_reciprocal_pwl_ha` for `ac_complex<ac_fixed>`. ac_reciprocal_pwl_ha.h:392-433 -/
def reciprocalHa (q : QMode) (f fm out : Fmt) (a b : ℚ) : Option (ℚ × ℚ) := do
  let c ← PwlHa.reciprocalHa q fm (recFmt 6 16 f out) (magSqr fm a b)
  some (scaleConj out a b c)

/-- `ac_reciprocal_pwl_vha` for `ac_complex<ac_fixed>`. ac_reciprocal_pwl_vha.h:436-477 -/
def reciprocalVha (q : QMode) (f fm out : Fmt) (a b : ℚ) : Option (ℚ × ℚ) := do
  let c ← PwlHa.reciprocalVha q true fm (recFmtVha 7 16 f out) (magSqr fm a b)
  some (scaleConj out a b c)

/-- `find_rt_sqrt_pwl<n, I>::rt_sqrt_pwl`; the divisions are those of C++. ac_sqrt_pwl.h:230-243 -/
def rtI (I : ℤ) : ℤ := if I.tmod 2 = 0 then I.tdiv 2 + 1 else (I + 1).tdiv 2
/-- See `rtI`. -/
def rtF (n : ℤ) : ℤ := (if n.tmod 2 = 0 then n.tdiv 2 else (n - 1).tdiv 2) + 22
/-- See `rtI`. -/
def rtSqrt (n I : ℤ) : Fmt := ⟨(rtI I + rtF n).toNat, rtI I, false, .TRN, .WRAP⟩

/-- The type of `sqrt_mod`. ac_sqrt_pwl.h:507 -/
def modFmt (f : Fmt) : Fmt := rtSqrt (2 * f.F) (2 * f.I - 1)
/-- `t_n_f_b`. ac_sqrt_pwl.h:510-512 -/
def tF (f : Fmt) : ℤ := max f.F (modFmt f).F
/-- `t_W`. ac_sqrt_pwl.h:511-513 -/
def tW (f : Fmt) : ℤ := f.I + 1 + tF f
/-- The type of `x` and `y`. ac_sqrt_pwl.h:514 -/
def xyFmt (f : Fmt) : Fmt := rtSqrt (tW f) f.I
/-- The type of `temp_real` and `temp_imag`. ac_sqrt_pwl.h:525-526 -/
def tFmt (f : Fmt) : Fmt := ⟨(tW f).toNat, f.I + 1, false, .TRN, .SAT⟩
/-- The type of the cast before the shift. ac_sqrt_pwl.h:527-528 -/
def tFmt' (f : Fmt) : Fmt := ⟨(tW f).toNat + 1, f.I + 1, false, .TRN, .WRAP⟩
/-- The type of `sqr_real` and `sqr_imag`. ac_sqrt_pwl.h:527-528 -/
def sqFmt (f : Fmt) : Fmt := ⟨(tW f).toNat, f.I, false, .TRN, .WRAP⟩

/-- `ac_sqrt_pwl` for `ac_complex<ac_fixed>`; `f` is the input type, signed. ac_sqrt_pwl.h:503-533 -/
def sqrt (q : QMode) (f fm out : Fmt) (a b : ℚ) : Option (ℚ × ℚ) := do
  let m ← PwlFixed.sqrt q true fm (modFmt f) (magSqr fm a b)
  let tr := (tFmt f).cvt (m + a)
  let ti := (tFmt f).cvt (m - a)
  let sr := (sqFmt f).cvt ((tFmt' f).shr ((tFmt' f).cvt tr) 1)
  let si := (sqFmt f).cvt ((tFmt' f).shr ((tFmt' f).cvt ti) 1)
  let x ← PwlFixed.sqrt q true (sqFmt f) (xyFmt f) sr
  let y ← PwlFixed.sqrt q true (sqFmt f) (xyFmt f) si
  some (out.cvt x, out.cvt (if b < 0 then -y else y))

/-- The type of `sqrt_conj`. ac_inverse_sqrt_pwl.h:279-288 -/
def conjFmt (q : QMode) (f : Fmt) : Fmt := ⟨(xyFmt f).W + 1, (xyFmt f).I + 1, true, q, .WRAP⟩
/-- The type of `inverse_sqrt`. ac_inverse_sqrt_pwl.h:292 -/
def invFmt (q : QMode) (f : Fmt) : Fmt := ⟨f.W + 23, f.W - f.I, false, q, .WRAP⟩
/-- `output_temp_type`. ac_inverse_sqrt_pwl.h:296 -/
def otFmt (q : QMode) (f : Fmt) : Fmt :=
  ⟨(conjFmt q f).W + (invFmt q f).W, (conjFmt q f).I + (invFmt q f).I, true, q, .WRAP⟩

/-- `ac_inverse_sqrt_pwl` for `ac_complex<ac_fixed>`; `fc` is the type of the parts of `input.conj()`, `fmc`
the type of its `mag_sqr()`.
ac_inverse_sqrt_pwl.h:275-314 -/
def inverseSqrt (q : QMode) (f fm fc fmc out : Fmt) (a b : ℚ) : Option (ℚ × ℚ) := do
  let s ← sqrt q fc fmc (conjFmt q f) (fc.cvt a) (fc.cvt (-b))
  let v ← PwlFixed.inverseSqrt q true fm (invFmt q f) (magSqr fm a b)
  let oi := (otFmt q f).cvt (s.2 * v)
  let or' := (otFmt q f).cvt (s.1 * v)
  let oi := if a < 0 ∧ b = 0 then (otFmt q f).cvt (-oi) else oi
  if a ≠ 0 ∨ b ≠ 0 then some (out.cvt or', out.cvt oi) else some (out.maxVal, out.maxVal)

/-- The type of `inverse_sqrt` of the more accurate version. ac_inverse_sqrt_pwl_vha.h:265-272, 288 -/
def invFmtVha (q : QMode) (f : Fmt) : Fmt := ⟨f.W + PwlFixed.scBits 16 (f.W - 6) + 16 - 1, f.W - f.I, false, q, .WRAP⟩
/-- `output_temp_type` of the more accurate version. ac_inverse_sqrt_pwl_vha.h:292 -/
def otFmtVha (q : QMode) (f : Fmt) : Fmt :=
  ⟨(conjFmt q f).W + (invFmtVha q f).W, (conjFmt q f).I + (invFmtVha q f).I, true, q, .WRAP⟩

/-- `ac_inverse_sqrt_pwl_vha` for `ac_complex<ac_fixed>`; the types are those of `inverseSqrt`.
ac_inverse_sqrt_pwl_vha.h:261-311 -/
def inverseSqrtVha (q : QMode) (f fm fc fmc out : Fmt) (a b : ℚ) : Option (ℚ × ℚ) := do
  let s ← sqrt q fc fmc (conjFmt q f) (fc.cvt a) (fc.cvt (-b))
  let v ← PwlHa.inverseSqrtVha q true fm (invFmtVha q f) (magSqr fm a b)
  let oi := (otFmtVha q f).cvt (s.2 * v)
  let or' := (otFmtVha q f).cvt (s.1 * v)
  let oi := if a < 0 ∧ b = 0 then (otFmtVha q f).cvt (-oi) else oi
  if a ≠ 0 ∨ b ≠ 0 then some (out.cvt or', out.cvt oi) else some (out.maxVal, out.maxVal)

/-- The type of `prod` in the division of complex numbers: that of a product of numbers of the types of the quotient `fq` and
of the conjugated divisor. ac_div.h:549 -/
def prodFmt (fd fq : Fmt) : Fmt := ⟨fq.W + (fd.W + 1) + 1, fq.I + (fd.I + 1) + 1, true, .TRN, .WRAP⟩

/-- The type of `s`. ac_div.h:546 -/
def denFmt (fd : Fmt) : Fmt := ⟨2 * fd.W + 2, 2 * fd.I + 2, true, .TRN, .WRAP⟩

/-- `ac_div` for complex numbers with a signed quotient type; `(a, b)` is divided by `(c, d)`. `noSat` is the macro
`AC_DIV_DISABLE_SATURATION_IF_INPUT_IS_ZERO`, `junk` and `junk'` the values of an uninitialised variable of the two real divisions.
ac_div.h:519-573 -/
def div (noSat : Bool) (fd fq : Fmt) (a b c d junk junk' : ℚ) : ℚ × ℚ × Bool :=
  let s := (denFmt fd).cvt (c * c + d * d)
  let pr := (prodFmt fd fq).cvt (a * c + b * d)
  let pi := (prodFmt fd fq).cvt (b * c - a * d)
  let x := DivFixed.divS noSat (prodFmt fd fq) (denFmt fd) fq ((prodFmt fd fq).raw pr) ((denFmt fd).raw s) junk
  let y := DivFixed.divS noSat (prodFmt fd fq) (denFmt fd) fq ((prodFmt fd fq).raw pi) ((denFmt fd).raw s) junk'
  let r := x.2 || y.2
  if !noSat && c = 0 && d = 0 then
    (if pr < 0 then fq.minVal else fq.maxVal, if pi < 0 then fq.minVal else fq.maxVal, r)
  else
    (x.1, y.1, r)

end Model.Complex
