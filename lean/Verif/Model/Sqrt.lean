import Verif.Ac.Types

/-! # Model of include/ac_math/ac_sqrt.h, integer version and the digit recurrence shared with ac_fixed -/

namespace Model.Sqrt
open Ac

/-- Registers of the digit recurrence. All are unsigned ac_int, written as naturals. ac_sqrt.h:136-140 -/
structure St where
  mask : ℕ
  d : ℕ
  r : ℕ
  z : ℕ
  deriving Repr, DecidableEq

/-- One iteration. ac_sqrt.h:149-160 (ac_int) and ac_sqrt.h:219-230 (ac_fixed).  `mask_d`, `d` and `t` are
`ac_int<RW+2,false>`, `r` is `ac_int<RW,false>`, `z` is `ac_int<ZW,false>`; `sh` is `z_shift`.
Or-ing into cleared low bits is written as `+`.  `t` is the difference modulo `2^(RW+2)`;
`2*r+1` is below `2^(RW+2)` so the natural subtraction does not truncate. -/
def step (RW ZW sh : ℕ) (s : St) : St :=
  let r := 2 * s.r % 2 ^ RW
  let mask := 4 * s.mask % 2 ^ (RW + 2) + 3
  let d := (mask &&& (4 * s.d % 2 ^ (RW + 2))) + s.z / 2 ^ sh % 4
  let t := (d + 2 ^ (RW + 2) - (2 * (r % 2 ^ (RW + 1)) % 2 ^ (RW + 1) + 1)) % 2 ^ (RW + 2)
  let z := 4 * s.z % 2 ^ ZW
  if t / 2 ^ (RW + 1) % 2 = 0 then { mask, d := mask &&& t, r := r + 1, z }
  else { mask, d, r, z }

/-- `for (int i = RW-1; i >= 0; i--)`. ac_sqrt.h:148 -/
def loop (RW ZW sh : ℕ) : ℕ → St → St
  | 0, s => s
  | n + 1, s => loop RW ZW sh n (step RW ZW sh s)

/-- The root register after the loop of the integer version. ac_sqrt.h:134-161 -/
def root (XW : ℕ) (x : ℕ) : ℕ :=
  let RW := (XW + 1) / 2
  (loop RW (2 * RW) ((RW - 1) * 2) RW { mask := 0, d := 0, r := 0, z := x % 2 ^ (2 * RW) }).r

/-- `ac_sqrt` for `ac_int<XW,false>` with output `ac_int<OW,OS>`. ac_sqrt.h:128-163 -/
def sqrtInt (XW OW : ℕ) (OS : Bool) (x : ℕ) : ℤ := wrap OW OS (root XW x)

end Model.Sqrt
