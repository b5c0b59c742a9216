import Verif.Model.SincosTable
import Verif.Ac.Types

/-! # Model of ac_sincos_lut.h

An `ac_complex` is a pair of real and imaginary part: the cosine and the sine. The angle is a number of turns. -/

namespace Model.Sincos
open Ac

/-- The double nearest to the literal `n / 10^22`, not greater than 1. -/
def dbl (n : ℕ) : ℚ :=
  let e := 53 + Nat.log2 ((10 ^ 22 - 1) / n)
  quant .RND_CONV ((n : ℚ) * 2 ^ e / 10 ^ 22) / 2 ^ e

/-- The type of the table, `luttype`. ac_sincos_lut.h:130 -/
def lutFmt (t : Fmt) : Fmt := ⟨t.W, t.I, false, .RND, .WRAP⟩

/-- `sincos[k]`. ac_sincos_lut.h:141-654 -/
def entry (t : Fmt) (k : ℕ) : Option (ℚ × ℚ) :=
  literals[k]?.map fun p => ((lutFmt t).cvt (dbl p.1), (lutFmt t).cvt (dbl p.2))

/-- `lut_index1`: the bits below the octant; `n` is the number of fraction bits of the input and `p` the raw `posinput`.
ac_sincos_lut.h:658-660 -/
def index1 (n : ℕ) (p : ℤ) : ℤ := p % 2 ^ (max (n - 3) 1)

/-- `lut_index` before the octant is looked at. `1 << k` needs `n ≤ 42`. ac_sincos_lut.h:662-680 -/
def lutIndex (n : ℕ) (p : ℤ) : ℤ :=
  let i1 := index1 n p
  if 4 ≤ n ∧ n ≤ 12 then wrap 9 false (i1 * 2 ^ (12 - n))
  else if 12 < n then
    let i := wrap 9 false (i1 / 2 ^ (n - 12))
    let i := if i1 % 2 ^ (n - 12) > 2 ^ (n - 13) then wrap 9 false (i + 1) else i
    let i := if (i1 : ℚ) / 2 ^ (n - 12) > 511 + 1 / 2 then 511 else i
    if i1 ≤ 2 ^ (n - 13) ∧ i1 ≠ 0 then 1 else i
  else 0

/-- `0.7071067811865475244008`, a double. ac_sincos_lut.h:701-706 -/
def half : ℚ := dbl 7071067811865475244008

/-- `ac_sincos_lut`. ac_sincos_lut.h:114-735; the warning is left out. For at most two fraction bits the cases are
exhaustive and the uninitialized `outputtemp` is not read. -/
def sincos (f t : Fmt) (x : ℚ) : Option (ℚ × ℚ) := do
  let n := (f.W - f.I).toNat
  let p := f.raw x % 2 ^ n
  if 3 ≤ n then
    let octant := p / 2 ^ (n - 3)
    let i := if octant % 2 = 1 then wrap 9 false (512 - lutIndex n p) else lutIndex n p
    let e ← entry t i.toNat
    let s := if octant = 0 ∨ octant = 3 then t.cvt e.2 else if octant = 2 ∨ octant = 1 then t.cvt e.1
      else if octant = 7 ∨ octant = 4 then t.cvt (-e.2) else t.cvt (-e.1)
    let c := if octant = 6 ∨ octant = 1 then t.cvt e.2 else if octant = 3 ∨ octant = 4 then t.cvt (-e.1)
      else if octant = 2 ∨ octant = 5 then t.cvt (-e.2) else t.cvt e.1
    let pos : ℚ := p / 2 ^ n
    some (if pos = 1 / 8 ∨ pos = 7 / 8 then t.cvt half else if pos = 3 / 8 ∨ pos = 5 / 8 then t.cvt (-half) else c,
      if pos = 1 / 8 ∨ pos = 3 / 8 then t.cvt half else if pos = 5 / 8 ∨ pos = 7 / 8 then t.cvt (-half) else s)
  else
    let pos : ℚ := p / 2 ^ n
    some (if pos = 0 then t.cvt (1 : ℚ) else if pos = 1 / 4 then t.cvt (0 : ℚ) else if pos = 1 / 2 then t.cvt (-1 : ℚ)
        else t.cvt (0 : ℚ),
      if pos = 0 then t.cvt (0 : ℚ) else if pos = 1 / 4 then t.cvt (1 : ℚ) else if pos = 1 / 2 then t.cvt (0 : ℚ)
        else t.cvt (-1 : ℚ))

end Model.Sincos
