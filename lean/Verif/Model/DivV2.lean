import Verif.Ac.Types

/-! # Model of include/ac_math/ac_div_v2.h -/

namespace Model.DivV2
open Ac

/-- Registers of the restoring loop: `temp_numer`, `quot`, `rem`. ac_div_v2.h:129-131 -/
structure St where
  temp : ℤ
  quot : ℤ
  rem : ℤ
  deriving Repr, DecidableEq

/-- One iteration. ac_div_v2.h:143-147.  `nw` is `int_nw = NW+PW`, `qw` is `int_qw = nw-DW`.
`(temp_numer<<1) & (const_mask>>(DW+1))` keeps the low `nw+1-(DW+1)` bits: written as `%`. -/
def step (nw qw DW : ℕ) (divisor : ℤ) (s : St) : St :=
  let sh := wrap (nw + 1) false (2 * s.temp)
  let rem := wrap (DW + 1) true (wrap (nw + 1) true (sh / 2 ^ qw) - wrap (nw + 1) true divisor)
  let quot := wrap qw false (wrap qw false (2 * s.quot) + (if rem < 0 then 0 else 1))
  let temp := if rem < 0 then sh
    else wrap (nw + 1) false (wrap (nw + 1) false (wrap (nw + 1) false rem * 2 ^ qw) + sh % 2 ^ (nw + 1 - (DW + 1)))
  { temp, quot, rem }

/-- `for (cnt=0; cnt<int_qw; cnt++)`. ac_div_v2.h:143.  The counter type `ac_int<int_qw,false>` holds the value
`int_qw`, so the loop terminates after `int_qw` iterations. -/
def loop (nw qw DW : ℕ) (divisor : ℤ) : ℕ → St → St
  | 0, s => s
  | n + 1, s => loop nw qw DW divisor n (step nw qw DW divisor s)

/-- Unsigned `ac_div_v2`. ac_div_v2.h:116-150.  `none` is a failed AC_ASSERT (136-137).
The result is the pair (quotient, remainder). -/
def divV2U (NW DW QW RW PW : ℕ) (dividend divisor : ℤ) : Option (ℤ × ℤ) :=
  let nw := NW + PW
  let qw := nw - DW
  if divisor = 0 ∨ divisor < 2 ^ (DW - PW) then none
  else
    let s := loop nw qw DW divisor qw { temp := wrap (nw + 1) false dividend, quot := 0, rem := 0 }
    let r := if s.rem > 0 then wrap (nw + 1) false s.rem else wrap (nw + 1) false (s.temp / 2 ^ qw)
    some (wrap QW false s.quot, wrap RW false r)

/-- Signed `ac_div_v2`. ac_div_v2.h:220-246 -/
def divV2S (NW DW QW RW PW : ℕ) (dividend divisor : ℤ) : Option (ℤ × ℤ) :=
  if divisor = 0 then none
  else
    let uN := if dividend < 0 then wrap NW false (-dividend) else wrap NW false dividend
    let uD := if divisor < 0 then wrap DW false (-divisor) else wrap DW false divisor
    match divV2U NW DW QW RW PW uN uD with
    | none => none
    | some (uQ, uR) =>
      let q := if (dividend < 0) = (divisor < 0) then wrap QW true uQ else wrap QW true (-uQ)
      let rem := wrap RW true (if dividend < 0 then wrap DW true (-uR) else wrap DW true uR)
      some (q, rem)

end Model.DivV2
