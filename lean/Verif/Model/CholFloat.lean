import Verif.Model.Chol
import Verif.Model.Float

/-! # ac_chol_d for ac_float (ac_chol_d.h:349-444)

The loops are those of `Model.Chol`.  The numbers are given by their values; ac_float keeps what it stores normalised, so that
mantissa and exponent are functions of the value (`rep`).  Products of ac_float are exact, assignments convert the exact value, and
the subtraction `-=` of ac_float, which stores a difference, is the parameter `sub` (ac_types is not part of /repo). -/

namespace Model.CholFloat
open Ac Model.Float Model.Chol

/-- `T_imd`. ac_chol_d.h:369 -/
def imdT (out : FFmt) (dw : ℕ) (di : ℤ) (de : ℕ) (q : QMode) : FFmt := ⟨out.W + dw, out.I + di, out.E + de, q⟩

/-- Mantissa and exponent of a stored number (ac_types). -/
def rep (t : FFmt) (x : ℚ) : ℚ × ℤ := if x = 0 then (0, 0) else (x * 2 ^ (-t.exp x), t.exp x)

/-- `imd_Ljj`: `ac_sqrt_pwl` with its default rounding for `use_pwl`, `ac_sqrt` with its default arguments otherwise.  `junk` stands
for a table read out of bounds. ac_chol_d.h:391-403 -/
def diag (usePwl : Bool) (out imd : FFmt) (junk s : ℚ) : ℚ :=
  let p := rep imd s
  if usePwl then (sqrtPwl .TRN imd out.dst p.1 p.2).getD junk
  else Model.Float.sqrt .TRN (out.W - out.I) imd out.dst p.1 p.2

/-- `recip_Ljj`: `ac_inverse_sqrt_pwl` of the sum for `use_pwl`, `ac_div` of `unity`, an `ac_float<2,2,2>`, by `imd_Ljj` otherwise.
`junk` is also the uninitialised quotient. ac_chol_d.h:390, 399, 405-407 -/
def recip (usePwl : Bool) (out imd : FFmt) (junk s : ℚ) : ℚ :=
  if usePwl then (inverseSqrtPwl .TRN imd imd.Q imd.dst (rep imd s).1 (rep imd s).2).getD junk
  else
    let l := rep out (diag usePwl out imd junk s)
    (Model.Float.div false ⟨2, 2, 2, .TRN⟩ out imd imd.dst 1 0 l.1 l.2 junk).1

/-- The arithmetic of the ac_float version. ac_chol_d.h:349-444 -/
def floatOps (usePwl : Bool) (out imd : FFmt) (sub : ℚ → ℚ → ℚ) (junk : ℚ) : Ops ℚ ℚ ℚ ℚ ℚ where
  dInit a := imd.cvt a
  dStep s x := sub s (x * x)
  nonPos s := decide (s ≤ 0)
  diag := diag usePwl out imd junk
  recip := recip usePwl out imd junk
  oInit a := imd.cvt a
  oStep s x y := sub s (x * y)
  off r s := out.cvt (r * s)
  zero := 0

/-- The version for ac_float arrays; `sub` is given the type of the sums. ac_chol_d.h:340-444 -/
def floatArray (usePwl : Bool) (out : FFmt) (dw : ℕ) (di : ℤ) (de : ℕ) (q : QMode) (sub : FFmt → ℚ → ℚ → ℚ) (junk : ℚ) (M : ℕ)
    (A L : Mem ℚ) : Option (Mem ℚ) :=
  let imd := imdT out dw di de q
  chol (floatOps usePwl out imd (sub imd) junk) M A L

/-- The version for ac_matrix objects of ac_float; the helper function has no parameter `delta_e` and passes 0 (not _WIN32).
ac_chol_d.h:877-889, 1021-1032 -/
def floatMatrix (usePwl : Bool) (out : FFmt) (dw : ℕ) (di : ℤ) (_de : ℕ) (q : QMode) (sub : FFmt → ℚ → ℚ → ℚ) (junk : ℚ) (M : ℕ)
    (A L : Mem ℚ) : Option (Mem ℚ) :=
  floatArray usePwl out dw di 0 q sub junk M A L

end Model.CholFloat
