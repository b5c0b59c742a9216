import Verif.Model.Float

/-! # Models of the reciprocals of complex floating-point numbers

A complex number is the pair of the values of its parts.  `ac_float` is not part of /repo: products and the negation are exact
(their types are as wide as needed), the assignment to the parts of the output is the parameter `d`, and the method `add` that
stores a sum in an ac_float is the parameter `add`, which gives mantissa and exponent of the stored number. -/

namespace Model.FloatComplex
open Ac Model.Float

/-- `i_m_s_type`, the type of `input_mag_sqr`; `x` is 2, or 1 for the third version. ac_reciprocal_pwl.h:547,
ac_reciprocal_pwl_ha.h:529, ac_reciprocal_pwl_vha.h:568 -/
def magT (x : ℕ) (t : FFmt) : FFmt := ⟨2 * t.W + 1, 2 * t.I + 1, t.E + x, t.Q⟩

/-- The type of `recip_mag_sqr`: `p` is `n_frac_bits`, `lg` is `log2_sc_constant`.
ac_reciprocal_pwl.h:537, 551-554, ac_reciprocal_pwl_ha.h:519, 533-536 -/
def recT (p lg : ℕ) (t : FFmt) (oq : QMode) : FFmt :=
  ⟨2 * t.W + 1 + PwlFixed.scBits p (2 * t.W + 1 - lg) + p + 1, 2 * t.W + 1 - (2 * t.I + 1) + 2, t.E + 3, oq⟩

/-- The type of `recip_mag_sqr` of the third version. ac_reciprocal_pwl_vha.h:562, 571-575 -/
def recTVha (t : FFmt) (oq : QMode) : FFmt :=
  ⟨PwlFixed.scBits 16 (2 * t.W + 1 - 7) + 16 + 2, -(2 * t.I + 1) + 3, t.E + 3, oq⟩

/-- The common end: `s` is the mantissa of `input_mag_sqr`, `c` is `recip_mag_sqr`. ac_reciprocal_pwl.h:560-573,
ac_reciprocal_pwl_ha.h:542-555, ac_reciprocal_pwl_vha.h:581-594 -/
def finish (d : Dst) (s a b c : ℚ) : ℚ × ℚ := if s ≠ 0 then (d.cvt (a * c), d.cvt (-b * c)) else (d.maxVal, d.maxVal)

/-- `ac_reciprocal_pwl` for `ac_complex<ac_float>`. ac_reciprocal_pwl.h:521-575 -/
def reciprocal (q : QMode) (t : FFmt) (oq : QMode) (d : Dst) (add : ℚ → ℚ → ℚ × ℤ) (a b : ℚ) : Option (ℚ × ℚ) := do
  let s := add (a * a) (b * b)
  let c ← Float.reciprocal q (magT 2 t) oq (recT 10 4 t oq).dst s.1 s.2
  some (finish d s.1 a b c)

/-- `ac_reciprocal_pwl_ha` for `ac_complex<ac_float>`. ac_reciprocal_pwl_ha.h:503-557 -/
def reciprocalHa (q : QMode) (t : FFmt) (oq : QMode) (d : Dst) (add : ℚ → ℚ → ℚ × ℤ) (a b : ℚ) : Option (ℚ × ℚ) := do
  let s := add (a * a) (b * b)
  let c ← Float.reciprocalHa q (magT 2 t) oq (recT 16 6 t oq).dst s.1 s.2
  some (finish d s.1 a b c)

/-- `ac_reciprocal_pwl_vha` for `ac_complex<ac_float>`. ac_reciprocal_pwl_vha.h:546-596 -/
def reciprocalVha (q : QMode) (t : FFmt) (oq : QMode) (d : Dst) (add : ℚ → ℚ → ℚ × ℤ) (a b : ℚ) : Option (ℚ × ℚ) := do
  let s := add (a * a) (b * b)
  let c ← Float.reciprocalVha q (magT 1 t) oq (recTVha t oq).dst s.1 s.2
  some (finish d s.1 a b c)

end Model.FloatComplex
