import Verif.Model.Sqrt
import Verif.Model.Shift

/-! # Model of include/ac_math/ac_sqrt.h, fixed-point version

The input is given by its raw word `X` in the format `fx`; the output is a value of format `fo`.  `/` on constant
`int` expressions truncates toward zero (`Int.tdiv`). -/

namespace Model.SqrtFixed
open Ac Model.Sqrt

/-- `RBIT`. ac_sqrt.h:181 -/
def RBIT (q : QMode) : ℤ := if q = .TRN ∨ q = .TRN_ZERO then 0 else 1

/-- `OF = (OW-OI) + RBIT`. ac_sqrt.h:182 -/
def OF (fo : Fmt) : ℤ := fo.F + RBIT fo.Q

/-- `RI = (XI+1)/2`. ac_sqrt.h:184 -/
def RI (fx : Fmt) : ℤ := (fx.I + 1).tdiv 2

/-- `RF = AC_MAX(OF, -RI+1)`. ac_sqrt.h:194 -/
def RF (fx fo : Fmt) : ℤ := max (OF fo) (-RI fx + 1)

/-- `RW = RI + RF` (positive). ac_sqrt.h:195 -/
def RW (fx fo : Fmt) : ℕ := (RI fx + RF fx fo).toNat

/-- `ZF = 2*AC_MIN((XW-XI+1)/2, RF)`. ac_sqrt.h:198 -/
def ZF (fx fo : Fmt) : ℤ := 2 * min ((fx.F + 1).tdiv 2) (RF fx fo)

/-- `ZW = 2*RI+ZF` (positive). ac_sqrt.h:199 -/
def ZW (fx fo : Fmt) : ℕ := (2 * RI fx + ZF fx fo).toNat

/-- `z`: `ac_shift_left(x, ZF, z_fx)` into `ac_fixed<ZW,ZW,false>` and `slc<ZW>(0)`. ac_sqrt.h:200-202 -/
def zInit (fx fo : Fmt) (X : ℤ) : ℤ :=
  let g : Fmt := ⟨ZW fx fo, ZW fx fo, false, .TRN, .WRAP⟩
  g.raw (Model.Shift.leftUS fx g X (ZF fx fo))

/-- `!!zr` with `ac_fixed<rbits,-ZF,false> zr = x`. ac_sqrt.h:239-241 -/
def zrNonzero (fx fo : Fmt) (X : ℤ) : Bool :=
  let rbits := (max (fx.F - ZF fx fo) 1).toNat
  (⟨rbits, -ZF fx fo, false, .TRN, .WRAP⟩ : Fmt).cvt (fx.val X) ≠ 0

/-- `ac_sqrt` for unsigned `ac_fixed`. ac_sqrt.h:174-247 -/
def sqrtFixed (fx fo : Fmt) (X : ℤ) : ℚ :=
  if RI fx - 1 < -OF fo then fo.cvt (0 : ℚ)
  else
    let rw := RW fx fo
    let zw := ZW fx fo
    let s := loop rw zw (zw - 2) rw { mask := 0, d := 0, r := 0, z := (zInit fx fo X).toNat }
    let r2 : ℤ := wrap (rw + 1) false (s.r * 2)
    let rem : Bool := s.d ≠ 0 ∨ s.z / 2 ^ (2 * rw) ≠ 0
    let rem : Bool := if ZF fx fo < fx.F then rem || zrNonzero fx fo X else rem
    let r2 := if fo.Q ∈ [QMode.RND_ZERO, .RND_MIN_INF, .RND_CONV, .RND_CONV_ODD] then
        Model.Shift.setBit (rw + 1) false r2 0 rem else r2
    Model.Shift.rightUS ⟨rw + 1, rw, false, .TRN, .WRAP⟩ fo r2 (RF fx fo)

end Model.SqrtFixed
