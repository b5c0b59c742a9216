import Verif.Model.Pwl
import Verif.Model.Normalize

/-! # Models of the ac_fixed functions of ac_reciprocal_pwl.h, ac_sqrt_pwl.h, ac_inverse_sqrt_pwl.h, ac_log_pwl.h
and ac_pow_pwl.h

Tables are lists of raw integers.  A table read out of bounds is `none`.  The optional assertion on invalid input
(`ASSERT_ON_INVALID_INPUT`) is off, as it is by default. -/

namespace Model.PwlFixed
open Ac Model.Pwl Model.Normalize

/-- The segment evaluation all these functions share: the argument `v`, already scaled to the number of segments,
is assigned to `ac_fixed<ib + s, ib, false>`; its low `s` bits are the fraction, its integer part the index; the value
is `m_lut[index]*x_in_sc_frac + c_lut[index]`, the tables having `p` fraction bits.
ac_reciprocal_pwl.h:206-216, ac_sqrt_pwl.h:187-195, ac_inverse_sqrt_pwl.h:185-195, ac_log_pwl.h:170-179,
ac_pow_pwl.h:183-191 -/
def segVal (m c : List ℤ) (p ib s : ℕ) (v : ℚ) : Option ℚ := do
  let g : Fmt := ⟨ib + s, ib, false, .TRN, .WRAP⟩
  let xs := g.cvt v
  let i := index ib xs
  let mi ← rd m i
  let ci ← rd c i
  some (fx p mi * fracBits g s xs + fx p ci)

/-- `sc_input_frac_bits`. ac_reciprocal_pwl.h:178, ac_sqrt_pwl.h:176, ac_inverse_sqrt_pwl.h:174, ac_pow_pwl.h:171 -/
def scBits (n : ℕ) (w : ℤ) : ℕ := (max 1 (min (n : ℤ) w)).toNat

/-- `m_lut` of ac_reciprocal_pwl.h:180, times 2^10. -/
def recM : List ℤ := [-228, -181, -148, -124, -105, -90, -77, -68]
/-- `c_lut` of ac_reciprocal_pwl.h:181, times 2^10. -/
def recC : List ℤ := [2045, 1817, 1636, 1488, 1364, 1259, 1169, 1092]

/-- `ac_reciprocal_pwl`. ac_reciprocal_pwl.h:152-229 -/
def reciprocal (q : QMode) (f out : Fmt) (x : ℚ) : Option ℚ := do
  let u := magnitude f x
  let ne := normalize (uns f) ((uns f).raw u)
  let s := scBits 10 (f.W - 4 - (if f.S then 1 else 0))
  let y ← segVal recM recC 10 3 s ((ne.1 - 1 / 2) * 16)
  let os : ℕ := if out.S then 1 else 0
  let o : Fmt := ⟨s + 10 + 1 + os, 1 + os, out.S, q, .WRAP⟩
  let y := o.cvt y
  if x ≠ 0 then
    let y := if f.S ∧ out.S ∧ x < 0 then o.cvt (-y) else y
    some (if out.S then Shift.rightSS o out (o.raw y) ne.2 else Shift.rightUS o out (o.raw y) ne.2)
  else
    some out.maxVal

/-- The normalization of the functions with a `call_normalize` parameter: without it the word is taken as it is.
ac_sqrt_pwl.h:162-167, ac_inverse_sqrt_pwl.h:160-165, ac_log_pwl.h:148-153 -/
def norm (cn : Bool) (f : Fmt) (x : ℚ) : ℚ × ℤ :=
  if cn then normalize f (f.raw x) else ((nfmt f).val (f.raw x), f.I)

/-- `m_lut` of ac_sqrt_pwl.h:178, times 2^12. -/
def sqrtM : List ℤ := [342, 308, 284, 264]
/-- `c_lut` of ac_sqrt_pwl.h:179, times 2^12. -/
def sqrtC : List ℤ := [2899, 3241, 3549, 3833]

/-- `root2`. ac_sqrt_pwl.h:153 -/
def root2 : ℚ := 5793 / 4096

/-- `ac_sqrt_pwl`, unsigned input and output. ac_sqrt_pwl.h:146-206 -/
def sqrt (q : QMode) (cn : Bool) (f out : Fmt) (x : ℚ) : Option ℚ := do
  let ne := norm cn f x
  let s := scBits 12 (f.W - 3)
  let y ← segVal sqrtM sqrtC 12 2 s ((ne.1 - 1 / 2) * 8)
  let o : Fmt := ⟨s + 12 + 1, 1, false, q, .WRAP⟩
  let y := o.cvt y
  let yt := o.cvt (y * root2)
  let m1 := o.cvt (if ne.2.tmod 2 = 0 then y else yt)
  let t := Shift.leftUS o out (o.raw m1) (ne.2 / 2)
  some (if x = 0 then out.cvt (0 : ℚ) else t)

/-- `m_lut` of ac_inverse_sqrt_pwl.h:175, times 2^12. -/
def isqrtM : List ℤ := [-331, -279, -240, -210, -185, -165, -148, -134]
/-- `c_lut` of ac_inverse_sqrt_pwl.h:176, times 2^12. -/
def isqrtC : List ℤ := [5789, 5458, 5178, 4938, 4728, 4543, 4378, 4229]

/-- `inverseroot2`. ac_inverse_sqrt_pwl.h:152 -/
def inverseroot2 : ℚ := 181 / 256

/-- `ac_inverse_sqrt_pwl`, unsigned input and output. ac_inverse_sqrt_pwl.h:136-210 -/
def inverseSqrt (q : QMode) (cn : Bool) (f out : Fmt) (x : ℚ) : Option ℚ := do
  let ne := norm cn f x
  let s := scBits 12 (f.W - 4)
  let y ← segVal isqrtM isqrtC 12 3 s ((ne.1 - 1 / 2) * 16)
  let o : Fmt := ⟨s + 12 + 1, 1, false, q, .WRAP⟩
  let y := o.cvt y
  let yt := (⟨24, 0, false, q, .WRAP⟩ : Fmt).cvt (y * inverseroot2)
  let o1 : Fmt := ⟨25, 1, false, .TRN, .WRAP⟩
  let m1 := if ne.2.tmod 2 = 0 then o1.cvt y else o1.cvt yt
  let t := Shift.rightUS o1 out (o1.raw m1) (ne.2 / 2)
  some (if x ≠ 0 then t else out.maxVal)

/-- `m_lut` of ac_log_pwl.h:159, times 2^11. -/
def logM : List ℤ := [348, 310, 281, 256, 236, 218, 204, 191]
/-- `c_lut` of ac_log_pwl.h:160, times 2^11. -/
def logC : List ℤ := [-2045, -1697, -1387, -1105, -849, -612, -394, -190]

/-- `ac_log2_pwl`, unsigned input. ac_log_pwl.h:128-187 -/
def log2 (q : QMode) (cn : Bool) (f out : Fmt) (x : ℚ) : Option ℚ := do
  let ne := norm cn f x
  let y ← segVal logM logC 11 3 11 ((ne.1 - 1 / 2) * 16)
  let t := (⟨23, 1, true, q, .WRAP⟩ : Fmt).cvt y
  let t2 := out.cvt (t + ne.2)
  some (if x = 0 then out.minVal else t2)

/-- `ln2`, declared with 12 fraction bits and initialized with a number of 15. ac_log_pwl.h:250 -/
def ln2 : ℚ := (⟨12, 0, false, .TRN, .WRAP⟩ : Fmt).cvt (22713 / 32768 : ℚ)

/-- `t_I`. ac_log_pwl.h:253-255 -/
def logI (f : Fmt) : ℕ := max (nbits (f.W - f.I).toNat) (nbits f.I.toNat) + 1

/-- `ac_log_pwl`, unsigned input. ac_log_pwl.h:246-268 -/
def log (q : QMode) (f out : Fmt) (x : ℚ) : Option ℚ := do
  let t ← log2 q true f ⟨22 + logI f, logI f, true, q, .WRAP⟩ x
  some (if x ≠ 0 then out.cvt (t * ln2) else out.minVal)

/-- `m_lut` of ac_pow_pwl.h:173, times 2^10. -/
def powM : List ℤ := [194, 230, 273, 325]
/-- `c_lut` of ac_pow_pwl.h:174, times 2^10. -/
def powC : List ℤ := [1022, 1216, 1446, 1719]

/-- `input_frac_part`: the low `W - I` bits of the input. A slice beyond the top of the word repeats its sign (ac_types).
ac_pow_pwl.h:149-162 -/
def fracPart (f : Fmt) (x : ℚ) : ℚ :=
  if f.I < f.W then (⟨(f.W - f.I).toNat, 0, false, .TRN, .WRAP⟩ : Fmt).val (f.raw x % 2 ^ (f.W - f.I).toNat) else 0

/-- `ac_pow2_pwl`, unsigned output. ac_pow_pwl.h:141-200 -/
def pow2 (q : QMode) (f out : Fmt) (x : ℚ) : Option ℚ := do
  let s := scBits 10 (f.W - f.I - 2)
  let y ← segVal powM powC 10 2 s ((fracPart f x - 0) * 4)
  let o : Fmt := ⟨s + 10 + 1, 1, false, q, .WRAP⟩
  let y := o.cvt y
  some (if f.S = false ∧ f.I ≤ 0 then out.cvt y else Shift.leftUS o out (o.raw y) ⌊x⌋)

/-- `log2e`, the double 1.44269504089 stored with 14 fraction bits. ac_pow_pwl.h:282 -/
def log2e : ℚ := (⟨17, 3, true, .TRN, .WRAP⟩ : Fmt).cvt (144269504089 / 100000000000 : ℚ)

/-- `comp_pii_exp<W, I, S, n>::pit_t`. ac_pow_pwl.h:261-269 -/
def piiExp (n : ℕ) (f : Fmt) : Fmt :=
  ⟨if (n : ℤ) < f.W - f.I then f.W + 1 else (f.I + 1 + n).toNat, f.I + 1, f.S, .TRN, .WRAP⟩

/-- `ac_exp_pwl`; `n` is the minimum number of fraction bits of `input_inter`, 12 by default. ac_pow_pwl.h:274-306 -/
def exp (n : ℕ) (q : QMode) (f out : Fmt) (x : ℚ) : Option ℚ :=
  pow2 q (piiExp n f) out ((piiExp n f).cvt (x * log2e))

/-- `ac_pow_pwl`: the exponent is multiplied by `log2(base)` at full precision. The calls inside use the default rounding.
ac_pow_pwl.h:876-909 -/
def pow (q : QMode) (f fe out : Fmt) (base expon : ℚ) : Option ℚ := do
  let fl : Fmt := ⟨22 + logI f, logI f, true, q, .WRAP⟩
  let l ← log2 .TRN true f fl base
  let fp : Fmt := ⟨fe.W + fl.W, fe.I + fl.I, true, .TRN, .WRAP⟩
  pow2 .TRN fp out (expon * l)

end Model.PwlFixed
