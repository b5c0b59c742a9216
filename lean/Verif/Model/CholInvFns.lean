import Verif.Model.CholInv
import Verif.Model.CholFns
import Verif.Model.Complex

/-! # ac_cholinv: the PWL reciprocal and complex elements (ac_cholinv.h:153-220, 283-350), signed result types -/

namespace Model.CholInv
open Ac

/-- The reciprocal of a diagonal element: `ac_reciprocal_pwl` with its default rounding for `use_pwl2`, `ac_div` of one by
it otherwise.  `junk` is the content of the uninitialised `recip_L`; no table is read out of bounds (`C29_in_table`).
ac_cholinv.h:176-182, 196-202 -/
def recipReal (pwl : Bool) (t : Fmt) (junk x : ℚ) : ℚ :=
  if pwl then (Model.PwlFixed.reciprocal .TRN t t x).getD junk
  else (Model.DivFixed.divS false ⟨2, 2, true, .TRN, .WRAP⟩ t t 1 (t.raw x) junk).1

/-- The real version. ac_cholinv.h:153-220 -/
def realOps (pwl : Bool) (out t : Fmt) (junk : ℚ) : Ops ℚ ℚ where
  zero := 0
  recip := recipReal pwl t junk
  acc s x y := t.cvt (s + x * y)
  acc0 s := t.cvt (s + 0)
  negMul s r := t.cvt (-(s * r))
  accC s x y := t.cvt (s + x * y)
  out s := out.cvt s

/-- The complex version; elements are pairs of the real and the imaginary part.  Sums, products and the negation of
ac_complex are exact, assignments convert both parts.  `fm` is the type of `mag_sqr`. ac_cholinv.h:283-350 -/
def complexOps (pwl : Bool) (out t fm : Fmt) (junk : ℚ) : Ops (ℚ × ℚ) (ℚ × ℚ) where
  zero := (0, 0)
  recip x := if pwl then (Model.Complex.reciprocal .TRN t fm t x.1 x.2).getD (junk, junk) else (recipReal false t junk x.1, 0)
  acc s x y := (t.cvt (s.1 + (x.1 * y.1 - x.2 * y.2)), t.cvt (s.2 + (x.1 * y.2 + x.2 * y.1)))
  acc0 s := (t.cvt (s.1 + 0), t.cvt (s.2 + 0))
  negMul s r := (t.cvt (-(s.1 * r.1 - s.2 * r.2)), t.cvt (-(s.1 * r.2 + s.2 * r.1)))
  accC s x y := (t.cvt (s.1 + (x.1 * y.1 + x.2 * y.2)), t.cvt (s.2 + (x.1 * y.2 - x.2 * y.1)))
  out s := (out.cvt s.1, out.cvt s.2)

end Model.CholInv
