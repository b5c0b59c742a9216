import Verif.Ac.Types

/-! # Model of include/ac_math/ac_div.h, integer versions -/

namespace Model.Div
open Ac

/-- Registers of the division loop: the dividend being shifted out, the partial remainder and the quotient. -/
structure St where
  N : ℤ
  R : ℤ
  Q : ℤ
  deriving Repr, DecidableEq

/-- One iteration of the non-restoring loop.  ac_div.h:169-175 (integers) and ac_div.h:341-347 (fixed point).
`N` is `ac_int<NW,false>`, `R` is `ac_int<DW+1,true>`, `Q` is `ac_int<QW,false>`.  `<<` keeps the type of its
left operand, so it wraps.  Or-ing a bit into a word whose bit 0 is 0 is written as `+`. -/
def step (NW DW QW : ℕ) (D : ℤ) (s : St) : St :=
  let negD := wrap (DW + 1) true (-D)
  let msb := (s.N / 2 ^ (NW - 1)) % 2
  let R := wrap (DW + 1) true
    ((wrap (DW + 1) true (2 * s.R) + msb) + (if s.R < 0 then wrap (DW + 1) true D else negD))
  let Q := wrap QW false (wrap QW false (2 * s.Q) + (if R ≥ 0 then 1 else 0))
  { N := wrap NW false (2 * s.N), R := R, Q := Q }

/-- `for (int i=0; i < n; i++)`. ac_div.h:169 -/
def loop (NW DW QW : ℕ) (D : ℤ) : ℕ → St → St
  | 0, s => s
  | n + 1, s => loop NW DW QW D n (step NW DW QW D s)

/-- Outputs of ac_div: the two reference parameters and the returned flag. -/
structure Out where
  quotient : ℤ
  remainder : ℤ
  flag : Bool
  deriving Repr, DecidableEq

/-- `ac_div` for unsigned `ac_int`, four-argument version. ac_div.h:151-186.
`noSat` is whether the macro AC_DIV_DISABLE_SATURATION_IF_INPUT_IS_ZERO is defined.  The optional
ASSERT_ON_INVALID_INPUT stop is not modelled (it is off by default). -/
def divU (noSat : Bool) (NW DW QW RW : ℕ) (dividend divisor : ℤ) : Out :=
  let s := loop NW DW QW divisor NW { N := dividend, R := 0, Q := 0 }
  let R := if s.R < 0 then wrap (DW + 1) true (s.R + divisor) else s.R
  let Q := if !noSat ∧ divisor = 0 then maxRaw QW false else s.Q
  { quotient := wrap QW false Q, remainder := wrap RW false R, flag := R ≠ 0 }

/-- `ac_div` for unsigned `ac_int`, three-argument version: quotient and flag. ac_div.h:188-209 -/
def divU3 (noSat : Bool) (NW DW QW : ℕ) (dividend divisor : ℤ) : ℤ × Bool :=
  let o := divU noSat NW DW QW DW dividend divisor
  (o.quotient, o.remainder ≠ 0)

/-- `ac_div` for signed `ac_int`, four-argument version. ac_div.h:221-266 -/
def divS (noSat : Bool) (NW DW QW RW : ℕ) (dividend divisor : ℤ) : Out :=
  let uN := if dividend < 0 then wrap NW false (-dividend) else wrap NW false dividend
  let uD := if divisor < 0 then wrap DW false (-divisor) else wrap DW false divisor
  let u := divU noSat NW DW QW DW uN uD
  let q0 := if (dividend < 0) = (divisor < 0) then wrap QW true u.quotient else wrap QW true (-u.quotient)
  let q1 := if !noSat ∧ divisor = 0 then
      (if dividend < 0 then minRaw QW true else maxRaw QW true) else q0
  let rem := wrap RW true
    (if dividend < 0 then wrap DW true (-u.remainder) else wrap DW true u.remainder)
  { quotient := wrap QW true q1, remainder := rem, flag := rem ≠ 0 }

/-- `ac_div` for signed `ac_int`, three-argument version. ac_div.h:268-289 -/
def divS3 (noSat : Bool) (NW DW QW : ℕ) (dividend divisor : ℤ) : ℤ × Bool :=
  let o := divS noSat NW DW QW DW dividend divisor
  (o.quotient, o.remainder ≠ 0)

end Model.Div
