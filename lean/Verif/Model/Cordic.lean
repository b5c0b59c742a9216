import Verif.Ac.Types
import Verif.Ac.Loop

/-! # Model of ac_sincos_cordic.h (ac_fixed version)

The angle is given in half turns. -/

namespace Model.Cordic
open Ac

/-- `table_st`. ac_sincos_cordic.h:101 -/
def tableFmt : Fmt := ⟨72, 1, true, .RND, .WRAP⟩

/-- `atan_pi_pow2_table`, in units of `2^-71`: every literal is a double and a multiple of that unit.
ac_sincos_cordic.h:104-175 -/
def atanTable : List ℤ := [
    590295810358705651712, 348471964706527510528, 184123015828705542144, 93463717766533627904, 46913226622283481088,
    23479482954761273344, 11742606459574562816, 5871661549248229376, 2935875570707412992, 1467943385056360448,
    733972392497019776, 366986283744802624, 183493152809443744, 91746577771852368, 45873289056817496,
    22936644549770164, 11468322277555258, 5734161139111401, 2867080569597422, 1433540284803926, 716770142402615,
    358385071201389, 179192535600705, 89596267800354, 44798133900177, 22399066950089, 11199533475044, 5599766737522,
    2799883368761, 1399941684381, 699970842190, 349985421095, 174992710548, 87496355274, 43748177637, 21874088818,
    10937044409, 5468522205, 2734261102, 1367130551, 683565276, 341782638, 170891319, 85445659, 42722830, 21361415,
    10680707, 5340354, 2670177, 1335088, 667544, 333772, 166886, 83443, 41722, 20861, 10430, 5215, 2608, 1304, 652,
    326, 163, 81, 41, 20, 10, 5, 3, 1]

/-- `K_table`, in units of `2^-71`. ac_sincos_cordic.h:177-248 -/
def kTable : List ℤ := [
    -2361183241434822606848, 1669608681642595975168, 1493343403190660104192, 1448755902746925203456,
    1437568431054111899648, 1434768879359156813824, 1434068821313402437632, 1433893796131654336512,
    1433850039168732495872, 1433839099886275133440, 1433836365063052591104, 1433835681357083705344,
    1433835510430581653504, 1433835467698955091968, 1433835457016048648192, 1433835454345322168320,
    1433835453677640351744, 1433835453510719897600, 1433835453468989980672, 1433835453458557173760,
    1433835453455949103104, 1433835453455297150976, 1433835453455134359552, 1433835453455093465088,
    1433835453455083241472, 1433835453455080620032, 1433835453455080095744, 1433835453455079833600,
    1433835453455079833600, 1433835453455079833600, 1433835453455079833600, 1433835453455079833600,
    1433835453455079833600, 1433835453455079833600, 1433835453455079833600, 1433835453455079833600,
    1433835453455079833600, 1433835453455079833600, 1433835453455079833600, 1433835453455079833600,
    1433835453455079833600, 1433835453455079833600, 1433835453455079833600, 1433835453455079833600,
    1433835453455079833600, 1433835453455079833600, 1433835453455079833600, 1433835453455079833600,
    1433835453455079833600, 1433835453455079833600, 1433835453455079833600, 1433835453455079833600,
    1433835453455079833600, 1433835453455079833600, 1433835453455079833600, 1433835453455079833600,
    1433835453455079833600, 1433835453455079833600, 1433835453455079833600, 1433835453455079833600,
    1433835453455079833600, 1433835453455079833600, 1433835453455079833600, 1433835453455079833600,
    1433835453455079833600, 1433835453455079833600, 1433835453455079833600, 1433835453455079833600,
    1433835453455079833600, 1433835453455079833600]

/-- `atan_pi_2mi`; `none` would be a read beyond the table. ac_sincos_cordic.h:250-256 -/
def atanPi (i : ℕ) : Option ℚ := if 70 ≤ i then some 0 else atanTable[i]?.map tableFmt.val

/-- `K`. ac_sincos_cordic.h:258-264 -/
def kOf (n : ℕ) : Option ℚ := if 70 ≤ n then some 0 else kTable[n]?.map tableFmt.val

/-- `N_I`. ac_sincos_cordic.h:294 -/
def numIter (t : Fmt) : ℕ := t.W + 1

/-- `LOG_N_I`. ac_sincos_cordic.h:297 -/
def logIter (n : ℕ) : ℕ := if n < 16 then 4 else if n < 32 then 5 else if n < 64 then 6 else 7

/-- `ICW`. ac_sincos_cordic.h:299 -/
def icw (t : Fmt) : ℕ := numIter t + logIter (numIter t)

/-- `fx_xy`. ac_sincos_cordic.h:301 -/
def xyFmt (t : Fmt) : Fmt := ⟨icw t, t.I, true, .TRN, .WRAP⟩

/-- Type of `acc_a`. ac_sincos_cordic.h:309 -/
def accFmt (t : Fmt) : Fmt := ⟨icw t + 2, 2, true, .TRN, .WRAP⟩

/-- Type of `target_a`. ac_sincos_cordic.h:313 -/
def targetFmt (f : Fmt) : Fmt := ⟨(f.W - (f.I - 1)).toNat, 1, true, .TRN, .WRAP⟩

/-- Type of `d_a`. ac_sincos_cordic.h:333 -/
def daFmt (t : Fmt) : Fmt := ⟨icw t + 1, 1, true, .TRN, .WRAP⟩

/-- `x`, `y` and `acc_a`. -/
structure St where
  x : ℚ
  y : ℚ
  acc : ℚ
  deriving DecidableEq

/-- The variables before the loop. ac_sincos_cordic.h:315-330 -/
def start (t : Fmt) (target c k : ℚ) : St :=
  let kxy := (xyFmt t).cvt k
  let ks := (xyFmt t).cvt (c * kxy)
  if target > 1 / 2 then ⟨(xyFmt t).cvt (0 : ℚ), (xyFmt t).cvt ks, (accFmt t).cvt (1 / 2 : ℚ)⟩
  else if target < -1 / 2 then ⟨(xyFmt t).cvt (0 : ℚ), (xyFmt t).cvt (-ks), (accFmt t).cvt (-1 / 2 : ℚ)⟩
  else ⟨(xyFmt t).cvt ks, (xyFmt t).cvt (0 : ℚ), (accFmt t).cvt (0 : ℚ)⟩

/-- The body of the loop. ac_sincos_cordic.h:332-345 -/
def step (t : Fmt) (target : ℚ) (i : ℕ) (s : St) : Option St := do
  let a ← atanPi i
  let d := (daFmt t).cvt a
  let x2 := (xyFmt t).cvt ((xyFmt t).shr s.x i)
  let y2 := (xyFmt t).cvt ((xyFmt t).shr s.y i)
  if target < s.acc then
    some ⟨(xyFmt t).cvt (s.x + y2), (xyFmt t).cvt (s.y - x2), (accFmt t).cvt (s.acc - d)⟩
  else
    some ⟨(xyFmt t).cvt (s.x - y2), (xyFmt t).cvt (s.y + x2), (accFmt t).cvt (s.acc + d)⟩

/-- The variables after the loop; `f` is the type of the angle `a`, `t` the type of the scaling factor `c` and of the outputs.
ac_sincos_cordic.h:286-345 -/
def run (f t : Fmt) (a c : ℚ) : Option St := do
  let target := (targetFmt f).cvt a
  let k ← kOf (numIter t)
  forUp (fun i s => s.bind (step t target i)) (numIter t) (some (start t target c k))

/-- `ac_sincos_cordic`: sine and cosine. ac_sincos_cordic.h:286-348 -/
def sincos (f t : Fmt) (a c : ℚ) : Option (ℚ × ℚ) := (run f t a c).map fun s => (t.cvt s.y, t.cvt s.x)

/-- `ac_sin_cordic`. ac_sincos_cordic.h:350-360 -/
def sin (f t : Fmt) (a : ℚ) : Option ℚ := (sincos f t a (t.cvt (1 : ℚ))).map (·.1)

/-- `ac_cos_cordic`. ac_sincos_cordic.h:362-372 -/
def cos (f t : Fmt) (a : ℚ) : Option ℚ := (sincos f t a (t.cvt (1 : ℚ))).map (·.2)

end Model.Cordic
