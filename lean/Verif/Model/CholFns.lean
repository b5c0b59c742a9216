import Verif.Model.Chol
import Verif.Model.PwlFixed

/-! # ac_chol_d: the PWL functions and complex elements (ac_chol_d.h:176-277, 730-852) -/

namespace Model.Chol
open Ac

/-- The diagonal element `imd_Ljj` and the reciprocal `recip_Ljj` as functions of the sum. -/
structure Fns where
  diag : ℚ → ℚ
  recip : ℚ → ℚ

/-- `use_pwl = false`: `ac_sqrt` and `ac_div`.  `junk` is the uninitialised `recip_Ljj`, which `ac_div` leaves alone when
the quotient type cannot hold any bit of the quotient. ac_chol_d.h:231-240, 795-808 -/
def exactFns (t : Types) (junk : ℚ) : Fns where
  diag := imdLjj t
  recip s := (Model.DivFixed.divU false ⟨1, 1, false, .TRN, .WRAP⟩ (unsignedFmt t.out) (unsignedFmt t.imd)
    1 ((unsignedFmt t.out).raw (imdLjj t s)) junk).1

/-- `use_pwl = true`: `ac_sqrt_pwl` and `ac_inverse_sqrt_pwl` with their default arguments.  `junk` stands for the value
of a table read out of bounds, which never happens (`C30_in_table`, `C31_in_table`). ac_chol_d.h:225-230, 782-793 -/
def pwlFns (t : Types) (junk : ℚ) : Fns where
  diag s := (Model.PwlFixed.sqrt .TRN true (unsignedFmt t.imd) (unsignedFmt t.out) ((unsignedFmt t.imd).cvt s)).getD junk
  recip s := (Model.PwlFixed.inverseSqrt .TRN true (unsignedFmt t.imd) (unsignedFmt t.imd)
    ((unsignedFmt t.imd).cvt s)).getD junk

/-- The functions for the template argument `use_pwl`. -/
def fns (usePwl : Bool) (t : Types) (junk : ℚ) : Fns := if usePwl then pwlFns t junk else exactFns t junk

/-- The ac_fixed version. ac_chol_d.h:176-277 -/
def realOps (t : Types) (f : Fns) : Ops ℚ ℚ ℚ ℚ ℚ where
  dInit a := t.imd.cvt a
  dStep s x := t.imd.cvt (s - x * x)
  nonPos s := decide (s ≤ 0)
  diag s := t.out.cvt (f.diag s)
  recip := f.recip
  oInit a := t.imd.cvt a
  oStep s x y := t.imd.cvt (s - x * y)
  off r s := t.out.cvt (r * s)
  zero := 0

/-- The ac_complex<ac_fixed> version; elements are pairs of the real and the imaginary part.  Products and `mag_sqr` of
ac_complex are exact, assignments convert both parts. ac_chol_d.h:730-852 -/
def complexOps (t : Types) (f : Fns) : Ops (ℚ × ℚ) (ℚ × ℚ) ℚ (ℚ × ℚ) ℚ where
  dInit a := t.imd.cvt a.1
  dStep s x := t.imd.cvt (s - (x.1 * x.1 + x.2 * x.2))
  nonPos s := decide (s ≤ 0)
  diag s := (t.out.cvt (f.diag s), 0)
  recip := f.recip
  oInit a := (t.imd.cvt a.1, t.imd.cvt a.2)
  oStep s x y := (t.imd.cvt (s.1 - (x.1 * y.1 + x.2 * y.2)), t.imd.cvt (s.2 - (x.2 * y.1 - x.1 * y.2)))
  off r s := (t.out.cvt (r * s.1), t.out.cvt (r * s.2))
  zero := (0, 0)

end Model.Chol
