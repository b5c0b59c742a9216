import Verif.Model.PwlHa

/-! # Models of the ac_fixed functions of ac_atan_pwl.h, ac_atan_pwl_ha.h and ac_atan_pwl_vha.h

Inputs and outputs are unsigned.  Conventions as in `Model.PwlFixed`. -/

namespace Model.Atan
open Ac Model.Pwl Model.PwlFixed Model.PwlHa

/-- The body the three functions share: `fb` is `f_b_n_i`, the number of fraction bits of the normalized input, the tables
have `2^ib` segments and `p` fraction bits, `rec` is the reciprocal that is called for inputs above 1. The products with the
scaling constant `2^ib` and the subtraction of `x_min_lut`, which is 0, are exact.
ac_atan_pwl.h:134-197, ac_atan_pwl_ha.h:130-173, ac_atan_pwl_vha.h:128-191 -/
def atan (m c : List ℤ) (p ib fb : ℕ) (pi2 : ℚ) (rec : Fmt → Fmt → ℚ → Option ℚ) (q : QMode) (f out : Fmt) (x : ℚ) :
    Option ℚ := do
  let nf : Fmt := ⟨fb, 0, false, q, .SAT⟩
  let ni ← if 1 ≤ f.I ∧ 1 < x then rec f nf x else some (nf.cvt x)
  let y ← segVal m c p ib (fb - ib) (ni * 2 ^ ib)
  let o : Fmt := ⟨fb - ib + p + 1, 1, false, q, .WRAP⟩
  let y := o.cvt y
  let y := if 1 ≤ f.I ∧ 1 < x then o.cvt (pi2 - y) else y
  some (out.cvt y)

/-- `m_lut` of ac_atan_pwl.h:161, times 2^10. -/
def atanM : List ℤ := [
  251, 225, 184, 142]
/-- `c_lut` of ac_atan_pwl.h:162, times 2^10. -/
def atanC : List ℤ := [
  1, 252, 477, 662]

/-- `ac_atan_pwl`; `pi_by_2` is 1.5703125. ac_atan_pwl.h:126-197 -/
def atanPwl (q : QMode) (f out : Fmt) (x : ℚ) : Option ℚ := atan atanM atanC 10 2 14 (1608 / 1024) (reciprocal q) q f out x

/-- `m_lut` of ac_atan_pwl_ha.h:140, times 2^16. -/
def atanHaM : List ℤ := [
  2047, 2044, 2036, 2024, 2008, 1989, 1967, 1941, 1913, 1882, 1849, 1814, 1777, 1738, 1699, 1659, 1618, 1577,
  1535, 1493, 1452, 1411, 1370, 1330, 1291, 1253, 1215, 1178, 1142, 1107, 1073, 1037]
/-- `c_lut` of ac_atan_pwl_ha.h:141, times 2^16. -/
def atanHaC : List ℤ := [
  0, 2047, 4091, 6127, 8151, 10159, 12148, 14115, 16057, 17970, 19852, 21701, 23515, 25292, 27030, 28729, 30388,
  32006, 33583, 35118, 36611, 38063, 39474, 40845, 42175, 43466, 44719, 45934, 47112, 48254, 49361, 50434]

/-- `ac_atan_pwl_ha`; `pi_by_2` is 1.570796326734125614166259765625. ac_atan_pwl_ha.h:122-173 -/
def atanHa (q : QMode) (f out : Fmt) (x : ℚ) : Option ℚ :=
  atan atanHaM atanHaC 16 5 32 (3373259426 / 2147483648) (reciprocalHa q) q f out x

/-- `m_lut` of ac_atan_pwl_vha.h:138-147, times 2^18. -/
def atanVhaM : List ℤ := [
  4096, 4094, 4089, 4084, 4076, 4066, 4054, 4041, 4025, 4008, 3988, 3968, 3946, 3921, 3896, 3869, 3841, 3811,
  3780, 3748, 3715, 3681, 3645, 3609, 3572, 3535, 3497, 3457, 3418, 3378, 3338, 3297, 3256, 3215, 3174, 3132,
  3091, 3049, 3008, 2966, 2925, 2883, 2843, 2802, 2761, 2720, 2681, 2641, 2602, 2563, 2524, 2486, 2448, 2411,
  2374, 2338, 2302, 2266, 2231, 2197, 2163, 2130, 2096, 2062]
/-- `c_lut` of ac_atan_pwl_vha.h:148-157, times 2^18. -/
def atanVhaC : List ℤ := [
  0, 4096, 8190, 12279, 16363, 20439, 24505, 28559, 32600, 36625, 40633, 44621, 48589, 52535, 56456, 60352,
  64221, 68062, 71873, 75653, 79401, 83116, 86797, 90442, 94052, 97624, 101159, 104656, 108113, 111532, 114910,
  118248, 121545, 124801, 128016, 131190, 134322, 137413, 140462, 143470, 146436, 149361, 152244, 155087,
  157889, 160650, 163370, 166051, 168692, 171294, 173857, 176381, 178868, 181316, 183727, 186101, 188439,
  190741, 193008, 195239, 197436, 199599, 201729, 203825]

/-- `ac_atan_pwl_vha`; `pi_by_2` is 1.570770263671875. ac_atan_pwl_vha.h:120-191 -/
def atanVha (q : QMode) (f out : Fmt) (x : ℚ) : Option ℚ :=
  atan atanVhaM atanVhaC 18 6 15 (51471 / 32768) (reciprocalVha q true) q f out x

end Model.Atan
