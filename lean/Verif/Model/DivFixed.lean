import Verif.Model.Div
import Verif.Model.Shift

/-! # Model of include/ac_math/ac_div.h, fixed-point versions

Inputs are given by their raw words `N`, `D` in the formats `fn`, `fd`; the quotient is a value of format `fq`. -/

namespace Model.DivFixed
open Ac Model.Div

/-- `RBIT` of the unsigned version. ac_div.h:315 -/
def rbitU (q : QMode) : ℕ := if q = .TRN ∨ q = .TRN_ZERO then 0 else 1

/-- `QF = (QW-QI) + RBIT`. ac_div.h:316 -/
def QF (fq : Fmt) : ℤ := fq.F + rbitU fq.Q

/-- `ZI = NI+(DW-DI)`. ac_div.h:317 -/
def ZI (fn fd : Fmt) : ℤ := fn.I + fd.F

/-- The compile-time test `ZI-1 < -QF`. ac_div.h:322 -/
def early (fn fd fq : Fmt) : Prop := ZI fn fd - 1 < -QF fq

instance (fn fd fq : Fmt) : Decidable (early fn fd fq) := by unfold early; infer_instance

/-- `ZF = AC_MAX(QF, -ZI+1)`. ac_div.h:328 -/
def ZF (fn fd fq : Fmt) : ℤ := max (QF fq) (-ZI fn fd + 1)

/-- `ZW = ZI + ZF` (positive). ac_div.h:329 -/
def ZW (fn fd fq : Fmt) : ℕ := (ZI fn fd + ZF fn fd fq).toNat

/-- An integer-valued conversion `ac_shift_left(x, W-I, y)` into `ac_fixed<W,W,false>` followed by `slc<W>(0)`.
ac_div.h:331-336 -/
def toWord (f : Fmt) (X : ℤ) : ℤ :=
  let g : Fmt := ⟨f.W, f.W, false, .TRN, .WRAP⟩
  g.raw (Model.Shift.leftUS { f with S := false } g X f.F)

/-- `ac_div` for unsigned `ac_fixed`; returns the value of `quotient` after the call (`old` is its value before) and
the returned flag. ac_div.h:297-369.  `noSat` is the macro AC_DIV_DISABLE_SATURATION_IF_INPUT_IS_ZERO. -/
def divU (noSat : Bool) (fn fd fq : Fmt) (N D : ℤ) (old : ℚ) : ℚ × Bool :=
  if early fn fd fq then
    -- only the local quotient_temp is written
    (old, N ≠ 0)
  else
    let ZW := ZW fn fd fq
    let s := loop fn.W fd.W ZW (toWord fd D) ZW { N := toWord fn N, R := 0, Q := 0 }
    let R := if s.R < 0 then wrap (fd.W + 1) true (s.R + toWord fd D) else s.R
    let rem : Bool := R ≠ 0 ∨ s.N / 2 ^ ZW ≠ 0
    let Qfx := s.Q * 2
    let Qfx := if fq.Q ∈ [QMode.RND_ZERO, .RND_MIN_INF, .RND_CONV, .RND_CONV_ODD] then
        Model.Shift.setBit (ZW + 1) false Qfx 0 rem else Qfx
    let t := Model.Shift.rightUS ⟨ZW + 1, ZW, false, .TRN, .WRAP⟩ fq Qfx (fn.F - fd.F + (ZW - fn.W))
    let t := if !noSat ∧ D = 0 then fq.maxVal else t
    (t, rem || (rbitU fq.Q ≠ 0 ∧ s.Q % 2 = 1))

/-- `ZI` of the signed version. ac_div.h:397 -/
def sZI (fn fd fq : Fmt) : ℤ := if fq.O = .WRAP then fq.I else fn.I + fd.F

/-- `ZW` of the signed version. ac_div.h:398 -/
def sZW (fn fd fq : Fmt) : ℤ := sZI fn fd fq + fq.F

/-- Magnitude `uN`, `uD`: `ac_fixed<W,I,false>` from `-N` or `N`. ac_div.h:403-406 -/
def mag (f : Fmt) (X : ℤ) : ℤ := if X < 0 then wrap f.W false (-X) else wrap f.W false X

/-- The rounding modes of the first branch. ac_div.h:410-411 -/
def symm (q : QMode) : Bool := q ∈ [QMode.RND_ZERO, .RND_INF, .RND_CONV, .RND_CONV_ODD, .TRN_ZERO]

/-- `RBIT` of the second branch. ac_div.h:422 -/
def rbitS (q : QMode) : ℕ := if q = .TRN then 0 else 1

/-- Type of `uQ`. ac_div.h:412 (first branch) and 423 (second branch) -/
def uqFmt (fn fd fq : Fmt) : Fmt :=
  if symm fq.Q then ⟨(sZW fn fd fq).toNat, sZI fn fd fq, false, fq.Q, .WRAP⟩
  else ⟨(sZW fn fd fq).toNat + rbitS fq.Q, sZI fn fd fq, false, .TRN, .WRAP⟩

/-- Type of `Q`. ac_div.h:413 (first branch) and 424 (second branch) -/
def sqFmt (fn fd fq : Fmt) : Fmt :=
  if symm fq.Q then ⟨(sZW fn fd fq).toNat + 1, sZI fn fd fq + 1, true, fq.Q, .WRAP⟩
  else ⟨(sZW fn fd fq).toNat + rbitS fq.Q + 2, sZI fn fd fq + 1, true, .TRN, .WRAP⟩

/-- `ac_div` for signed `ac_fixed`. ac_div.h:381-455. `junk` is the content of the uninitialized local `uQ`. -/
def divS (noSat : Bool) (fn fd fq : Fmt) (N D : ℤ) (junk : ℚ) : ℚ × Bool :=
  let u := uqFmt fn fd fq
  let fu (f : Fmt) : Fmt := ⟨f.W, f.I, false, .TRN, .WRAP⟩
  let r := divU noSat (fu fn) (fu fd) u (mag fn N) (mag fd D) junk
  let uQ := r.1
  let hasRem := r.2
  let q := sqFmt fn fd fq
  let res : ℚ × Bool :=
    if symm fq.Q then
      let Q := if (N < 0) = (D < 0) then q.cvt uQ else q.cvt (-uQ)
      (fq.cvt Q, hasRem)
    else
      let Q :=
        if (N < 0) = (D < 0) then
          let Q := q.cvt uQ
          if fq.Q = .RND_MIN_INF then q.val (Model.Shift.setBit q.W true (q.raw Q) 0 hasRem) else Q
        else
          let lsb := u.val (if hasRem ∧ fq.Q ≠ .RND_MIN_INF then 1 else 0)
          q.cvt (-(uQ + lsb))
      (fq.cvt Q, hasRem || (rbitS fq.Q ≠ 0 ∧ u.raw uQ % 2 = 1))
  if !noSat ∧ D = 0 then (if N < 0 then fq.minVal else fq.maxVal, res.2) else res

end Model.DivFixed
