import Verif.Ac.Types

/-! # Model of include/ac_math/ac_shift.h

Arguments are the raw integer `X` of the input, the shift count `n` and the formats.  Every function returns the
raw integer of the result (the argument `sr` / `sl` is always written). -/

namespace Model.Shift
open Ac

/-- Arithmetic shift right by `n`, to the left when `n` is negative (`>>` on ac_fixed before the result is cut to its
width). -/
def shr (A n : ℤ) : ℤ := if 0 ≤ n then A / 2 ^ n.toNat else A * 2 ^ (-n).toNat

/-- `t2[i] = b` on a W-bit word. -/
def setBit (W : ℕ) (S : Bool) (r : ℤ) (i : ℕ) (b : Bool) : ℤ :=
  wrap W S (r - r / 2 ^ i % 2 * 2 ^ i + (if b then 2 ^ i else 0))

/-- The bit pattern of an XW-bit word. -/
def pattern (XW : ℕ) (X : ℤ) : ℕ := (X % 2 ^ XW).toNat

/-- `m1 = ~0; m1 >>= n` (TW-bit unsigned word; negative n shifts left), then
`mask = ~(ac_fixed<XW,XI>) m1`, the cast dropping `d` fractional bits. ac_shift.h:156-158 and repeated in every
overload. -/
def mask (XW TW d : ℕ) (n : ℤ) : ℕ :=
  let m1 := (wrap TW false (shr (2 ^ TW - 1) n)).toNat
  2 ^ XW - 1 - m1 / 2 ^ d % 2 ^ XW

/-- `!!(x & mask)`. -/
def anyAnd (XW : ℕ) (X : ℤ) (m : ℕ) : Bool := pattern XW X &&& m != 0

/-- `!!(~x & mask)`. -/
def anyNotAnd (XW : ℕ) (X : ℤ) (m : ℕ) : Bool := (2 ^ XW - 1 - pattern XW X) &&& m != 0

/-- `R_BIT`, ac_shift.h:141 (unsigned) and :222 (signed). -/
def rBit (S : Bool) (q : QMode) : ℕ :=
  if S then (if q = .TRN then 0 else 1) else (if q = .TRN ∨ q = .TRN_ZERO then 0 else 1)

/-- `R_HALF`, ac_shift.h:142 (unsigned) and :223 (signed). -/
def rHalf (S : Bool) (q : QMode) : ℕ :=
  if S then (if rBit S q = 0 ∨ q = .RND then 0 else 1)
  else (if rBit S q = 0 ∨ q = .RND ∨ q = .RND_INF then 0 else 1)

/-- `S_OVER`, ac_shift.h:180 (unsigned) and :261 (signed). -/
def sOver (S : Bool) (o : OMode) : ℕ :=
  if S then (if o = .WRAP then 1 else 2) else (if o = .WRAP then 0 else 1)

/-- Integer and fractional bits of the intermediate type: `TI`, `TF`. -/
structure TFmt where
  TI : ℤ
  TF : ℤ

/-- `TW = TI + TF`. -/
def TFmt.TW (T : TFmt) : ℕ := (T.TI + T.TF).toNat

/-- ac_shift_right with unsigned count: `TI = XI` (ac_shift.h:143-146, :224-227). -/
def tRight (fx fo : Fmt) : TFmt := ⟨fx.I, max fx.F (fo.F + rBit fo.S fo.Q)⟩

/-- ac_shift_left with unsigned count: `TF = XW-XI` (ac_shift.h:305-307, :383-385). -/
def tLeft (fx fo : Fmt) : TFmt := ⟨max fx.I fo.I, fx.F⟩

/-- Signed count (ac_shift.h:181-183, :262-264, :342-344, :421-423). -/
def tBoth (fx fo : Fmt) : TFmt := ⟨max fx.I fo.I, max fx.F (fo.F + rBit fo.S fo.Q)⟩

/-- Alignment of the input with the intermediate type, `TF - XF`. -/
def TFmt.d (T : TFmt) (fx : Fmt) : ℕ := (T.TF - fx.F).toNat

/-- `t = ((ac_fixed<TW,TI,S>) x) >> n`. -/
def tRaw (T : TFmt) (fx : Fmt) (X n : ℤ) : ℤ := wrap T.TW fx.S (shr (X * 2 ^ T.d fx) n)

/-- The assignment `sr = t2`, `t2` having `F` fractional bits. -/
def out (fo : Fmt) (F : ℤ) (t2 : ℤ) : ℚ := fo.cvt ((t2 : ℚ) * 2 ^ (-F))

/-- `ac_shift_right(ac_fixed<..,false> x, unsigned n, ..)`, ac_shift.h:137-163. -/
def rightUU (fx fo : Fmt) (X : ℤ) (n : ℕ) : ℚ :=
  let T := tRight fx fo
  let H := rHalf false fo.Q
  let t := tRaw T fx X n
  let t2 := t * 2 ^ H
  let t2 := if H ≠ 0 then setBit (T.TW + H) false t2 0 (anyAnd fx.W X (mask fx.W T.TW (T.d fx) (-n))) else t2
  out fo (T.TF + H) t2

/-- `ac_shift_right(ac_fixed<..,true> x, unsigned n, ..)`, ac_shift.h:218-243. -/
def rightSU (fx fo : Fmt) (X : ℤ) (n : ℕ) : ℚ :=
  let T := tRight fx fo
  let H := rHalf true fo.Q
  let t := tRaw T fx X n
  let t2 := t * 2 ^ H
  let t2 := if H ≠ 0 then setBit (T.TW + H) true t2 0 (anyAnd fx.W X (mask fx.W T.TW (T.d fx) (-n))) else t2
  out fo (T.TF + H) t2

/-- `ac_shift_right(ac_fixed<..,false> x, int n, ..)`, ac_shift.h:174-207. -/
def rightUS (fx fo : Fmt) (X n : ℤ) : ℚ :=
  let T := tBoth fx fo
  let H := rHalf false fo.Q
  let V := sOver false fo.O
  let t := tRaw T fx X n
  let t2 := t * 2 ^ H
  let W2 := T.TW + H + V
  let t2 :=
    if H ≠ 0 ∨ V ≠ 0 then
      let m := mask fx.W T.TW (T.d fx) (-n)
      if 0 ≤ n then
        if H ≠ 0 then setBit W2 false t2 0 (anyAnd fx.W X m) else t2
      else
        if V ≠ 0 then setBit W2 false t2 (W2 - 1) (anyAnd fx.W X m) else t2
    else t2
  out fo (T.TF + H) t2

/-- The two overflow bits of the signed versions:
`t2[top] = x[XW-1]; if (S_OVER==2 && !!mask) t2[top-1] = !!(x&mask) && !(!!(~x&mask) && x[XW-1])`. -/
def setOver (XW W2 V : ℕ) (X : ℤ) (m : ℕ) (t2 : ℤ) : ℤ :=
  let sx : Bool := X < 0
  let t2 := setBit W2 true t2 (W2 - 1) sx
  if V = 2 ∧ m ≠ 0 then setBit W2 true t2 (W2 - 2) (anyAnd XW X m && !(anyNotAnd XW X m && sx)) else t2

/-- `ac_shift_right(ac_fixed<..,true> x, int n, ..)`, ac_shift.h:255-289. -/
def rightSS (fx fo : Fmt) (X n : ℤ) : ℚ :=
  let T := tBoth fx fo
  let H := rHalf true fo.Q
  let V := sOver true fo.O
  let t := tRaw T fx X n
  let t2 := t * 2 ^ H
  let W2 := T.TW + H + V
  let t2 :=
    if H ≠ 0 ∨ V = 2 then
      let m := mask fx.W T.TW (T.d fx) (-n)
      if 0 ≤ n then
        if H ≠ 0 then setBit W2 true t2 0 (anyAnd fx.W X m) else t2
      else setOver fx.W W2 V X m t2
    else t2
  out fo (T.TF + H) t2

/-- `ac_shift_left(ac_fixed<..,false> x, unsigned n, ..)`, ac_shift.h:299-323. -/
def leftUU (fx fo : Fmt) (X : ℤ) (n : ℕ) : ℚ :=
  let T := tLeft fx fo
  let V := sOver false fo.O
  let t := tRaw T fx X (-n)
  let t2 := if V ≠ 0 then setBit (T.TW + V) false t (T.TW + V - 1) (anyAnd fx.W X (mask fx.W T.TW (T.d fx) n)) else t
  out fo T.TF t2

/-- `ac_shift_left(ac_fixed<..,true> x, unsigned n, ..)`, ac_shift.h:377-402. -/
def leftSU (fx fo : Fmt) (X : ℤ) (n : ℕ) : ℚ :=
  let T := tLeft fx fo
  let V := sOver true fo.O
  let t := tRaw T fx X (-n)
  let t2 := if V = 2 then setOver fx.W (T.TW + V) V X (mask fx.W T.TW (T.d fx) n) t else t
  out fo T.TF t2

/-- `ac_shift_left(ac_fixed<..,false> x, int n, ..)`, ac_shift.h:335-365. -/
def leftUS (fx fo : Fmt) (X n : ℤ) : ℚ :=
  let T := tBoth fx fo
  let H := rHalf false fo.Q
  let V := sOver false fo.O
  let t := tRaw T fx X (-n)
  let t2 := t * 2 ^ H
  let W2 := T.TW + H + V
  let t2 :=
    if H ≠ 0 ∨ V ≠ 0 then
      let m := mask fx.W T.TW (T.d fx) n
      if n < 0 then
        if H ≠ 0 then setBit W2 false t2 0 (anyAnd fx.W X m) else t2
      else
        if V ≠ 0 then setBit W2 false t2 (W2 - 1) (anyAnd fx.W X m) else t2
    else t2
  out fo (T.TF + H) t2

/-- `ac_shift_left(ac_fixed<..,true> x, int n, ..)`, ac_shift.h:414-448. -/
def leftSS (fx fo : Fmt) (X n : ℤ) : ℚ :=
  let T := tBoth fx fo
  let H := rHalf true fo.Q
  let V := sOver true fo.O
  let t := tRaw T fx X (-n)
  let t2 := t * 2 ^ H
  let W2 := T.TW + H + V
  let t2 :=
    if H ≠ 0 ∨ V = 2 then
      let m := mask fx.W T.TW (T.d fx) n
      if n < 0 then
        if H ≠ 0 then setBit W2 true t2 0 (anyAnd fx.W X m) else t2
      else setOver fx.W W2 V X m t2
    else t2
  out fo (T.TF + H) t2

end Model.Shift
