import Verif.Ac.Types
import Verif.Ac.Loop

/-! # Model of ac_atan2_cordic.h

The types of the two arguments and of the output are signed. -/

namespace Model.Atan2
open Ac

/-- `table_t`. ac_atan2_cordic.h:96 -/
def tableFmt : Fmt := ⟨71, 0, false, .RND, .WRAP⟩

/-- `atan_pow2_table`, in units of `2^-71`: every literal is a double and a multiple of that unit.
ac_atan2_cordic.h:98-169 -/
def atanTable : List ℤ := [
    1854468981267743375360, 1094756964304028565504, 578439513884258533376, 293624929112531861504, 147382248112758882304,
    73762971160764784640, 36890486187395493888, 18446368787483899904, 9223325124788149248, 4611680154378795008,
    2305842276206361600, 1152921412980891136, 576460740850177792, 288230374720056000, 144115187896898896, 72057594015558312,
    36028797016167764, 18014398509132458, 9007199254697301, 4503599627365035, 2251799813684565, 1125899906842539,
    562949953421301, 281474976710655, 140737488355328, 70368744177664, 35184372088832, 17592186044416, 8796093022208,
    4398046511104, 2199023255552, 1099511627776, 549755813888, 274877906944, 137438953472, 68719476736, 34359738368,
    17179869184, 8589934592, 4294967296, 2147483648, 1073741824, 536870912, 268435456, 134217728, 67108864, 33554432,
    16777216, 8388608, 4194304, 2097152, 1048576, 524288, 262144, 131072, 65536, 32768, 16384, 8192, 4096, 2048, 1024, 512,
    256, 128, 64, 32, 16, 8, 4]

/-- `atan_2mi`; `none` would be a read beyond the table. ac_atan2_cordic.h:171-177 -/
def atan2mi (i : ℕ) : Option ℚ := if 70 ≤ i then some 0 else atanTable[i]?.map tableFmt.val

/-- `M_PI`, the double nearest to the literal. ac_atan2_cordic.h:92 -/
def mPi : ℚ := 884279719003555 / 2 ^ 48

/-- `N_I`. ac_atan2_cordic.h:197 -/
def numIter (t : Fmt) : ℤ := t.W - t.I + 3

/-- `LOG_N_I`. ac_atan2_cordic.h:200 -/
def logIter (t : Fmt) : ℤ := if numIter t < 16 then 4 else if numIter t < 32 then 5 else if numIter t < 64 then 6 else 7

/-- `ICW`. ac_atan2_cordic.h:202 -/
def icw (t : Fmt) : ℤ := numIter t + logIter t

/-- `fx_a`. ac_atan2_cordic.h:204 -/
def accFmt (t : Fmt) : Fmt := ⟨(icw t + 4).toNat, 3, true, .TRN, .WRAP⟩

/-- Type of `d_a`. ac_atan2_cordic.h:218 -/
def daFmt (t : Fmt) : Fmt := ⟨(icw t).toNat, 0, false, .TRN, .WRAP⟩

/-- `XYI`. ac_atan2_cordic.h:208 -/
def xyi (fy fx : Fmt) : ℤ := max fy.I fx.I + 2

/-- `XYW`. ac_atan2_cordic.h:209 -/
def xyw (fy fx t : Fmt) : ℤ := icw t + 4 + xyi fy fx

/-- `fx_xy`. ac_atan2_cordic.h:210 -/
def xyFmt (fy fx t : Fmt) : Fmt := ⟨(xyw fy fx t).toNat, xyi fy fx, true, .TRN, .WRAP⟩

/-- `fx_xy_1`. ac_atan2_cordic.h:211 -/
def xyFmt1 (fy fx t : Fmt) : Fmt := ⟨(xyw fy fx t - 1).toNat, xyi fy fx - 1, false, .TRN, .WRAP⟩

/-- `fx_xy_2`. ac_atan2_cordic.h:212 -/
def xyFmt2 (fy fx t : Fmt) : Fmt := ⟨(xyw fy fx t - 2).toNat, xyi fy fx - 2, false, .TRN, .WRAP⟩

/-- `x1`, `y1` and `acc_a`. -/
structure St where
  x : ℚ
  y : ℚ
  acc : ℚ
  deriving DecidableEq

/-- The variables before the loop. ac_atan2_cordic.h:205-215 -/
def start (fy fx t : Fmt) (y x : ℚ) : St :=
  ⟨if x < 0 then (xyFmt1 fy fx t).cvt (-x) else (xyFmt1 fy fx t).cvt x, (xyFmt fy fx t).cvt y, (accFmt t).cvt (0 : ℚ)⟩

/-- The body of the loop. ac_atan2_cordic.h:217-231 -/
def step (fy fx t : Fmt) (i : ℕ) (s : St) : Option St := do
  let a ← atan2mi i
  let d := (daFmt t).cvt a
  let x2 := (xyFmt2 fy fx t).cvt ((xyFmt1 fy fx t).shr s.x i)
  let y2 := (xyFmt fy fx t).cvt ((xyFmt fy fx t).shr s.y i)
  if s.y < 0 then
    some ⟨(xyFmt1 fy fx t).cvt (s.x - y2), (xyFmt fy fx t).cvt (s.y + x2), (accFmt t).cvt (s.acc - d)⟩
  else
    some ⟨(xyFmt1 fy fx t).cvt (s.x + y2), (xyFmt fy fx t).cvt (s.y - x2), (accFmt t).cvt (s.acc + d)⟩

/-- The variables after the loop. ac_atan2_cordic.h:195-231 -/
def run (fy fx t : Fmt) (y x : ℚ) : Option St :=
  forUp (fun i s => s.bind (step fy fx t i)) (numIter t).toNat (some (start fy fx t y x))

/-- The corrections after the loop. ac_atan2_cordic.h:232-237 -/
def fix (t : Fmt) (y x acc : ℚ) : ℚ :=
  let a := accFmt t
  if y = 0 then (if x < 0 then a.cvt mPi else a.cvt (0 : ℚ))
  else if x = 0 then (if y < 0 then a.cvt (-mPi / 2) else a.cvt (mPi / 2))
  else if x < 0 then a.cvt ((if y < 0 then a.cvt (-mPi) else a.cvt mPi) - acc)
  else acc

/-- `ac_atan2_cordic`: the arguments `y` and `x` have the types `fy` and `fx`, the output has type `t`.
ac_atan2_cordic.h:187-239 -/
def atan2 (fy fx t : Fmt) (y x : ℚ) : Option ℚ := (run fy fx t y x).map fun s => t.cvt (fix t y x s.acc)

end Model.Atan2
