import Verif.Model.Bits

/-! # Model of include/ac_math/ac_normalize.h -/

namespace Model.Normalize
open Ac Model.Bits

/-- The word whose leading one decides the shift: the bits of `x`, complemented when `x` is negative. -/
def mag (x : ℤ) : ℕ := (if x < 0 then -x - 1 else x).toNat

/-- `leading_sign()` of a W-bit word (ac_types): the number of leading bits equal to the sign, not counting the sign
bit itself of a signed word. -/
def leadingSign (W : ℕ) (S : Bool) (x : ℤ) : ℕ := leadingSignU (W - S.toNat) (mag x)

/-- The type of the normalized value: `ac_fixed<W, int(S), S, Q, O>`. ac_normalize.h:125 -/
def nfmt (f : Fmt) : Fmt := { f with I := S f }
  where S (f : Fmt) : ℤ := if f.S then 1 else 0

/-- `ac_normalize(ac_fixed)`, as (normalized_fixed, returned exponent); `X` is the raw word of the input.
ac_normalize.h:122-158 -/
def normalize (f : Fmt) (X : ℤ) : ℚ × ℤ :=
  let ls := leadingSign f.W f.S X
  let t := wrap f.W f.S (X * 2 ^ ls)
  ((nfmt f).cvt ((nfmt f).val t), if X ≠ 0 then f.I - nfmt.S f - ls else 0)

/-- `ac_normalize(ac_complex<ac_fixed>)`, as (real part, imaginary part, exponent). The OR of the two
`input_l1_ind` words decides the shift. ac_normalize.h:213-257 -/
def normalizeC (f : Fmt) (R I : ℤ) : ℚ × ℚ × ℤ :=
  let ind : ℤ := if f.S then ((mag R ||| mag I : ℕ) : ℤ) else ((R.toNat ||| I.toNat : ℕ) : ℤ)
  let ls := leadingSign f.W f.S ind
  let t (X : ℤ) := (nfmt f).cvt ((nfmt f).val (wrap f.W f.S (X * 2 ^ ls)))
  (t R, t I, if R ≠ 0 ∨ I ≠ 0 then f.I - nfmt.S f - ls else 0)

end Model.Normalize
