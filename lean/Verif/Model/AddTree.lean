import Verif.Ac.Loop
import Verif.Model.Shift

/-! # Model of include/ac_float_add_tree.h

An `ac_float<WE,IE,EE>` is its raw signed mantissa (`WE` bits) and its exponent (`EE` bits).  All mantissas inside the
trees have `WE-IE+AccExtraLSBs` fractional bits, so they are modelled by their raw integers.  `X` is `AccExtraLSBs`
if that is non-negative; the definitions ending in `Cut` are for a negative one, with `Y = -AccExtraLSBs`.  Exponent
differences are computed in `int` in the code; they are exact here, which is right for exponents of at most 31 bits. -/

namespace Model.AddTree
open Ac

/-- A mantissa (raw integer) and an exponent. -/
structure Flt where
  m : ℤ
  e : ℤ
  deriving DecidableEq, Repr

/-- `zero_handle_exp`. ac_float_add_tree.h:100-115.  The low `EE-1` bits are masked, then the top bit is written. -/
def zeroHandleExp (zh : Bool) (EE : ℕ) (e m : ℤ) : ℤ :=
  if zh then
    let lo := if m = 0 then 0 else e % 2 ^ (EE - 1)
    wrap EE true (lo + if m = 0 ∨ e < 0 then 2 ^ (EE - 1) else 0)
  else e

/-- `sum2`. ac_float_add_tree.h:136-164.  `WR` is the width of the result mantissa. -/
def sum2 (WR : ℕ) (a b : Flt) : Flt :=
  let dif := a.e - b.e
  let lt := decide (dif < 0)
  let z1 := decide (a.m = 0)
  let z2 := decide (b.m = 0)
  let dif := if z1 || z2 then 0 else if lt then -dif else dif
  let rs := if lt then wrap WR true a.m else wrap WR true b.m
  let ns := if lt then wrap WR true b.m else wrap WR true a.m
  let rs := rs / 2 ^ dif.toNat
  { m := wrap WR true (ns + rs), e := if !z2 && (z1 || lt) then b.e else a.e }

/-- `add_r<1>::sum`: the mantissa with `X` more fractional bits. ac_float_add_tree.h:199-211 -/
def leaf (WE X : ℕ) (x : Flt) : Flt := { m := wrap (WE + X) true (x.m * 2 ^ X), e := x.e }

/-- `add_r<N>::sum`. ac_float_add_tree.h:166-197.  The accumulator of a subtree with `N` leaves has
`WE + X + log2_ceil<N>` bits.  `fuel` bounds the template recursion; `fuel = N` suffices. -/
def addAux (WE X : ℕ) : ℕ → ℕ → (ℕ → Flt) → Flt
  | 0, _, x => leaf WE X (x 0)
  | fuel + 1, N, x =>
    if N ≤ 1 then leaf WE X (x 0)
    else sum2 (WE + log2Ceil N + X) (addAux WE X fuel (N / 2) x)
      (addAux WE X fuel (N - N / 2) fun k => x (k + N / 2))

/-- `add_tree` before the output conversion: mantissa and exponent of the sum.
ac_float_add_tree.h:213-225, 258-272, 331-344 -/
def addTree (WE X N : ℕ) (x : ℕ → Flt) : Flt := addAux WE X N N x

/-- `max_r<N>::max`. ac_float_add_tree.h:496-512 -/
def maxAux : ℕ → ℕ → (ℕ → ℤ) → ℤ
  | 0, _, x => x 0
  | fuel + 1, N, x =>
    if N ≤ 1 then x 0
    else
      let l := maxAux fuel (N / 2) x
      let h := maxAux fuel (N - N / 2) fun k => x (k + N / 2)
      if h > l then h else l

/-- `y_exp` of `exp_equalizer`. ac_float_add_tree.h:526-533 -/
def commonExp (zh : Bool) (EE N : ℕ) (x : ℕ → Flt) : ℤ :=
  maxAux N N fun k => zeroHandleExp zh EE (x k).e (x k).m

/-- `y_mant[k]` of `exp_equalizer`. ac_float_add_tree.h:535-541.  `exp_dif` is `ac_int<EE,false>`. -/
def aligned (EE WE X : ℕ) (E : ℤ) (x : Flt) : ℤ :=
  wrap (WE + X) true (x.m * 2 ^ X) / 2 ^ (wrap EE false (E - x.e)).toNat

/-- `block_add_tree_core`. ac_float_add_tree.h:544-580 -/
def blockCore (zh : Bool) (EE WE X N : ℕ) (x : ℕ → Flt) : Flt :=
  let E := commonExp zh EE N x
  { m := forUp (fun k acc => wrap (WE + log2Ceil N + X) true (acc + aligned EE WE X E (x k))) N 0, e := E }

/-- The type of the sum: `ac_fixed<WE+Growth+AccExtraLSBs, IE+Growth, true>`. -/
def accFmt (WE X N : ℕ) (IE : ℤ) : Fmt := ⟨WE + log2Ceil N + X, IE + log2Ceil N, true, .TRN, .WRAP⟩

/-- `acc_fxpt_conv`: the output conversion to ac_fixed. ac_float_add_tree.h:117-134.  With `use_ac_sl` the shift is
`ac_shift_left` into a signed type (one bit wider when the output is unsigned), otherwise the mantissa is shifted in
`to_ac_fixed_t`, the ac_fixed type that holds every value of `ac_float<W,I,E>`. -/
def conv (useSl : Bool) (fm fo : Fmt) (E : ℕ) (r : Flt) : ℚ :=
  if useSl then
    let ft : Fmt := ⟨fo.W + (if fo.S then 0 else 1), fo.I + (if fo.S then 0 else 1), true, fo.Q, fo.O⟩
    fo.cvt (Model.Shift.leftSS fm ft r.m r.e)
  else
    let ft : Fmt := ⟨fm.W + (2 ^ E - 1), fm.I + (2 ^ (E - 1) - 1), true, .TRN, .WRAP⟩
    fo.cvt (ft.shl (ft.cvt (fm.val r.m)) r.e)

/-- `add_tree` with an ac_fixed output. ac_float_add_tree.h:251-272 -/
def addTreeFixed (useSl : Bool) (EE WE X N : ℕ) (IE : ℤ) (fo : Fmt) (x : ℕ → Flt) : ℚ :=
  conv useSl (accFmt WE X N IE) fo EE (addTree WE X N x)

/-- `block_add_tree` with an ac_fixed output. ac_float_add_tree.h:641-664 -/
def blockFixed (useSl zh : Bool) (EE WE X N : ℕ) (IE : ℤ) (fo : Fmt) (x : ℕ → Flt) : ℚ :=
  conv useSl (accFmt WE X N IE) fo EE (blockCore zh EE WE X N x)

/-- `add_r<1>::sum` with `Y` fewer fractional bits: the assignment drops them. ac_float_add_tree.h:199-211 -/
def leafCut (WE Y : ℕ) (x : Flt) : Flt := { m := wrap (WE - Y) true (x.m / 2 ^ Y), e := x.e }

/-- `add_r<N>::sum` with `Y` fewer fractional bits. ac_float_add_tree.h:166-197 -/
def addAuxCut (WE Y : ℕ) : ℕ → ℕ → (ℕ → Flt) → Flt
  | 0, _, x => leafCut WE Y (x 0)
  | fuel + 1, N, x =>
    if N ≤ 1 then leafCut WE Y (x 0)
    else sum2 (WE + log2Ceil N - Y) (addAuxCut WE Y fuel (N / 2) x)
      (addAuxCut WE Y fuel (N - N / 2) fun k => x (k + N / 2))

/-- `add_tree` with `Y` fewer fractional bits. ac_float_add_tree.h:213-225, 258-272, 331-344 -/
def addTreeCut (WE Y N : ℕ) (x : ℕ → Flt) : Flt := addAuxCut WE Y N N x

/-- `y_mant[k]` with `Y` fewer fractional bits. ac_float_add_tree.h:535-541 -/
def alignedCut (EE WE Y : ℕ) (E : ℤ) (x : Flt) : ℤ :=
  wrap (WE - Y) true (x.m / 2 ^ Y) / 2 ^ (wrap EE false (E - x.e)).toNat

/-- `block_add_tree_core` with `Y` fewer fractional bits. ac_float_add_tree.h:544-580 -/
def blockCoreCut (zh : Bool) (EE WE Y N : ℕ) (x : ℕ → Flt) : Flt :=
  let E := commonExp zh EE N x
  { m := forUp (fun k acc => wrap (WE + log2Ceil N - Y) true (acc + alignedCut EE WE Y E (x k))) N 0, e := E }

/-- The outputs of `add_tree` and `block_add_tree` of type ac_float for a sum `r` with `X` extra bits (of either sign).  The
constructor from mantissa and exponent belongs to ac_types and is the parameter `d`.  It gets both arguments and not just the
value: without normalisation (`norm = false`) the bits it keeps depend on the mantissa's leading zeros.
ac_float_add_tree.h:343, 744 -/
def floatOut (d : ℚ → ℤ → ℚ) (WE : ℕ) (IE X : ℤ) (r : Flt) : ℚ := d ((r.m : ℚ) * 2 ^ (IE - WE - X)) r.e

end Model.AddTree
