import Verif.Model.PwlFixed

/-! # Models of the ac_fixed functions of ac_reciprocal_pwl_ha.h, ac_reciprocal_pwl_vha.h and ac_inverse_sqrt_pwl_vha.h

Conventions as in `Model.PwlFixed`. -/

namespace Model.PwlHa
open Ac Model.Pwl Model.PwlFixed Model.Normalize

/-- The normalization of the magnitude `u`. Without `call_normalize` the word is taken as it is; if the input is signed and
the top bit of its magnitude is 0, the other bits are moved up by one place.
ac_reciprocal_pwl_ha.h:192, ac_reciprocal_pwl_vha.h:201-218 -/
def recNorm (cn : Bool) (f : Fmt) (u : ℚ) : ℚ × ℤ :=
  let r := (uns f).raw u
  if cn then normalize (uns f) r
  else if f.S ∧ r / 2 ^ (f.W - 1) % 2 = 0 then ((nfmt (uns f)).val (r % 2 ^ (f.W - 1) * 2), f.I - 1)
  else ((nfmt (uns f)).val r, f.I)

/-- The body the two functions share: tables of `2^ib` segments with `p` fraction bits.
ac_reciprocal_pwl_ha.h:161-219, ac_reciprocal_pwl_vha.h:161-247 -/
def recip (m c : List ℤ) (p ib : ℕ) (cn : Bool) (q : QMode) (f out : Fmt) (x : ℚ) : Option ℚ := do
  let u := magnitude f x
  let ne := recNorm cn f u
  let s := scBits p (f.W - (ib + 1) - (if f.S then 1 else 0))
  let y ← segVal m c p ib s ((ne.1 - 1 / 2) * 2 ^ (ib + 1))
  let os : ℕ := if out.S then 1 else 0
  let o : Fmt := ⟨s + p + 1 + os, 1 + os, out.S, q, .WRAP⟩
  let y := o.cvt y
  if x ≠ 0 then
    let y := if f.S ∧ out.S ∧ x < 0 then o.cvt (-y) else y
    some (if out.S then Shift.rightSS o out (o.raw y) ne.2 else Shift.rightUS o out (o.raw y) ne.2)
  else
    some out.maxVal

/-- `m_lut` of ac_reciprocal_pwl_ha.h:162-167, times 2^16. -/
def haM : List ℤ := [
  -3972, -3737, -3523, -3327, -3148, -2982, -2829, -2688, -2557, -2435, -2322, -2216, -2118, -2026, -1940,
  -1859, -1783, -1711, -1645, -1581, -1522, -1465, -1412, -1362, -1314, -1268, -1226, -1184, -1146, -1109,
  -1074, -1040]
/-- `c_lut` of ac_reciprocal_pwl_ha.h:168-173, times 2^16. -/
def haC : List ℤ := [
  131057, 127085, 123348, 119824, 116497, 113349, 110366, 107537, 104849, 102292, 99857, 97535, 95319, 93201,
  91175, 89235, 87376, 85593, 83882, 82237, 80656, 79134, 77669, 76257, 74895, 73581, 72313, 71087, 69903,
  68757, 67648, 66574]

/-- `ac_reciprocal_pwl_ha`: 32 segments, scaling constant 64. ac_reciprocal_pwl_ha.h:136-219 -/
def reciprocalHa (q : QMode) (f out : Fmt) (x : ℚ) : Option ℚ := recip haM haC 16 5 true q f out x

/-- `m_lut` of ac_reciprocal_pwl_vha.h:163-172, times 2^16. -/
def vhaM : List ℤ := [
  -2016, -1955, -1896, -1841, -1787, -1737, -1688, -1640, -1596, -1553, -1511, -1472, -1433, -1397, -1361,
  -1327, -1294, -1263, -1232, -1203, -1175, -1147, -1121, -1095, -1071, -1047, -1024, -1002, -980, -960, -939,
  -920, -901, -882, -865, -847, -831, -814, -798, -783, -768, -754, -740, -726, -712, -700, -687, -674, -663,
  -651, -640, -629, -618, -608, -597, -587, -577, -568, -559, -549, -541, -532, -524, -516]
/-- `c_lut` of ac_reciprocal_pwl_vha.h:173-182, times 2^16. -/
def vhaC : List ℤ := [
  131068, 129052, 127096, 125200, 123358, 121571, 119834, 118146, 116506, 114910, 113357, 111846, 110374,
  108941, 107544, 106183, 104856, 103561, 102298, 101066, 99863, 98688, 97540, 96419, 95324, 94253, 93205,
  92181, 91179, 90199, 89239, 88300, 87380, 86479, 85597, 84732, 83885, 83054, 82240, 81442, 80659, 79891,
  79137, 78397, 77671, 76959, 76259, 75572, 74898, 74235, 73584, 72944, 72315, 71697, 71089, 70492, 69904,
  69327, 68758, 68199, 67650, 67108, 66576, 66052]

/-- `ac_reciprocal_pwl_vha`: 64 segments, scaling constant 128; `cn` is `call_normalize`. ac_reciprocal_pwl_vha.h:136-247 -/
def reciprocalVha (q : QMode) (cn : Bool) (f out : Fmt) (x : ℚ) : Option ℚ := recip vhaM vhaC 16 6 cn q f out x

/-- `m_lut` of ac_inverse_sqrt_pwl_vha.h:162, times 2^16. -/
def isqM : List ℤ := [
  -1415, -1352, -1294, -1239, -1189, -1141, -1097, -1056, -1017, -980, -946, -914, -883, -854, -826, -801, -776,
  -753, -730, -709, -689, -670, -651, -634, -617, -601, -585, -571, -557, -543, -531, -518]
/-- `c_lut` of ac_inverse_sqrt_pwl_vha.h:163, times 2^16. -/
def isqC : List ℤ := [
  92678, 91263, 89911, 88617, 87378, 86189, 85048, 83951, 82895, 81878, 80897, 79951, 79037, 78154, 77300,
  76474, 75673, 74897, 74144, 73414, 72704, 72015, 71345, 70694, 70060, 69443, 68841, 68256, 67684, 67127,
  66584, 66053]

/-- `inverseroot2`, 0.7071056365966796875. ac_inverse_sqrt_pwl_vha.h:138 -/
def invroot2 : ℚ := 370727 / 524288

/-- `ac_inverse_sqrt_pwl_vha`, unsigned input and output; the scaling constant is 64. ac_inverse_sqrt_pwl_vha.h:122-197 -/
def inverseSqrtVha (q : QMode) (cn : Bool) (f out : Fmt) (x : ℚ) : Option ℚ := do
  let ne := norm cn f x
  let s := scBits 16 (f.W - 6)
  let y ← segVal isqM isqC 16 5 s ((ne.1 - 1 / 2) * 64)
  let o : Fmt := ⟨s + 16 + 1, 1, false, q, .WRAP⟩
  let y := o.cvt y
  let yt := (⟨32, 0, false, q, .WRAP⟩ : Fmt).cvt (y * invroot2)
  let o1 : Fmt := ⟨33, 1, false, .TRN, .WRAP⟩
  let m1 := if ne.2.tmod 2 = 0 then o1.cvt y else o1.cvt yt
  let t := Shift.rightUS o1 out (o1.raw m1) (ne.2 / 2)
  some (if x ≠ 0 then t else out.maxVal)

end Model.PwlHa
