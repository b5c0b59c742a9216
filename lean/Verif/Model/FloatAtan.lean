import Verif.Model.Float
import Verif.Model.Atan

/-! # Models of the ac_float versions of ac_atan_pwl.h, ac_atan_pwl_ha.h and ac_atan_pwl_vha.h

Conventions as in `Model.Float`. -/

namespace Model.FloatAtan
open Ac Model.Float

/-- The body the three functions share: `s` is the type of `atan_input_fl`, `g` that of `atan_input_fi`, `out` that of
`atan_output_fi`.  The comparison `input >= 1` is that of the values (ac_types).  `atan_input_fl` is given by its value: the left
shift of its mantissa by its exponent converts the value to `g` (`C13_left_unsigned_int`).
ac_atan_pwl.h:248-294, ac_atan_pwl_ha.h:224-274, ac_atan_pwl_vha.h:242-289 -/
def atan (rec : FFmt → QMode → Dst → ℚ → ℤ → Option ℚ) (fix : Fmt → Fmt → ℚ → Option ℚ) (pi2 : ℚ) (s : FFmt) (g out : Fmt)
    (t : FFmt) (d : Dst) (m : ℚ) (e : ℤ) : Option ℚ := do
  let v ← if 1 ≤ m * 2 ^ e then rec t s.Q s.dst m e else some (s.cvt (m * 2 ^ e))
  let y ← fix g out (g.cvt v)
  some (d.cvt (if 1 ≤ m * 2 ^ e then out.cvt (pi2 - y) else y))

/-- The type of `atan_input_fl`. ac_atan_pwl.h:264-266 -/
def tmp (t : FFmt) : FFmt := ⟨max 1 (min 10 (t.W - 4)) + 12, t.I, t.E, .TRN⟩

/-- `ac_atan_pwl` for ac_float. ac_atan_pwl.h:248-294 -/
def atanPwl (q : QMode) (t : FFmt) (d : Dst) (m : ℚ) (e : ℤ) : Option ℚ :=
  atan (reciprocal q) (Atan.atanPwl q) (1608 / 1024) (tmp t) ⟨14, 0, false, .RND, .SAT⟩ ⟨23, 1, false, .TRN, .WRAP⟩ t d m e

/-- `recipE`. ac_atan_pwl_ha.h:244-245, ac_atan_pwl_vha.h:259-260 -/
def recE (t : FFmt) : ℕ := nbits ((max (2 * t.I - 3) 1).toNat + 2 ^ (t.E - 1) - 1) + 1

/-- The type of `atan_input_fl`. ac_atan_pwl_ha.h:240-247 -/
def tmpHa (t : FFmt) : FFmt := ⟨max 34 t.W, t.I, recE t, .TRN⟩

/-- `ac_atan_pwl_ha` for ac_float. ac_atan_pwl_ha.h:224-274 -/
def atanHa (q : QMode) (t : FFmt) (d : Dst) (m : ℚ) (e : ℤ) : Option ℚ :=
  atan (reciprocalHa q) (Atan.atanHa q) (3373259426 / 2147483648) (tmpHa t) ⟨32, 0, false, .RND, .SAT⟩ ⟨43, 1, false, .TRN, .WRAP⟩
    t d m e

/-- The type of `atan_input_fl`. ac_atan_pwl_vha.h:257-262 -/
def tmpVha (t : FFmt) : FFmt := ⟨16, t.I, recE t, .TRN⟩

/-- `ac_atan_pwl_vha` for ac_float. ac_atan_pwl_vha.h:242-289 -/
def atanVha (q : QMode) (t : FFmt) (d : Dst) (m : ℚ) (e : ℤ) : Option ℚ :=
  atan (reciprocalVha q) (Atan.atanVha q) (51471 / 32768) (tmpVha t) ⟨15, 0, false, .TRN, .SAT⟩ ⟨28, 1, false, .TRN, .WRAP⟩ t d m e

end Model.FloatAtan
