import Verif.Model.Hcordic
import Verif.Model.Float

/-! # Models of the ac_float functions of include/ac_math/ac_hcordic.h

Conventions as in `Model.Float`: the input is `m * 2^e`, `t` and `o` are the parameters of the types of input and output, and `d`
is the conversion of an exact value to the output type.  `tf` is `some TF_` if `OR_TF` is set, and `tq` is `TQ`.  The static
assertions, at most 44 fraction bits in each temporary and at least one in those of the exponentials, are not part of the functions,
nor are the assertions on negative input, which need ASSERT_ON_INVALID_INPUT. -/

namespace Model.FloatHcordic
open Ac Model.Float Model.Normalize
open Model.Hcordic (fbits normed logRr exp2Rr Scale)

/-- The type of `x_mant`. ac_hcordic.h:689, 2150 -/
def mantU (t : FFmt) : Fmt := ⟨t.W - 1, t.I - 1, false, .TRN, .WRAP⟩

/-- `zc_f_bits`, `TF`. ac_hcordic.h:706, 1416, 2181 -/
def tbits (tf : Option ℕ) (o : FFmt) : ℕ := fbits tf (o.W - o.I).toNat

/-- The largest magnitude of the exponent of the normalized input. ac_hcordic.h:710, 2167 -/
def expMax (t : FFmt) : ℕ := (max (t.I - 1) (t.W - t.I - 1) + 2 ^ (t.E - 1)).toNat

/-- `ac_log_cordic` for ac_float. ac_hcordic.h:674-745, 873-882 -/
def log (tf : Option ℕ) (tq : QMode) (t o : FFmt) (d : Dst) (m : ℚ) (e : ℤ) : Option ℚ := do
  let ne := normed tf tq (mantU t) ((mantU t).cvt m)
  let zf := tbits tf o
  let ofw := nbits (expMax t)
  let zc ← logRr .one ⟨fbits tf (mantU t).W, 0, false, tq, .WRAP⟩ ⟨zf + 1, 1, true, .TRN, .WRAP⟩ ne.1
  let fo : Fmt := ⟨zf + 1 + ofw + 1, ofw + 1, true, .TRN, .WRAP⟩
  let offset := fo.cvt (fo.cvt (Hcordic.ln2 (zf + 1)) * (e + ne.2 : ℤ))
  some (d.cvt (offset + zc))

/-- `ac_log2_cordic` for ac_float. ac_hcordic.h:674-745, 803-812 -/
def log2 (tf : Option ℕ) (tq : QMode) (t o : FFmt) (d : Dst) (m : ℚ) (e : ℤ) : Option ℚ := do
  let ne := normed tf tq (mantU t) ((mantU t).cvt m)
  let zf := tbits tf o
  let ofw := nbits (expMax t)
  let zc ← logRr .ln2 ⟨fbits tf (mantU t).W, 0, false, tq, .WRAP⟩ ⟨zf + 2, 2, true, .TRN, .WRAP⟩ ne.1
  let offset := (⟨ofw + 1, ofw + 1, true, .TRN, .WRAP⟩ : Fmt).cvt ((e + ne.2 : ℤ) : ℚ)
  some (d.cvt (offset + zc))

/-- `TI`. ac_hcordic.h:1413-1414, 2178-2179 -/
def argI (o : FFmt) : ℕ := nbits (2 ^ (o.E - 1) + max (o.I - 1) (o.W - o.I)).toNat + 1

/-- The type of `input_to_exp2_fxpt`. ac_hcordic.h:1426, 2191 -/
def argFmt (tf : Option ℕ) (tq : QMode) (o : FFmt) : Fmt := ⟨tbits tf o + argI o, argI o, true, tq, .SAT⟩

/-- What the exponentials and the power do with `input_to_exp2_fxpt`: the low `TF` bits go through the reduced exponential, the
integer part is the exponent of the result. ac_hcordic.h:1440-1448, 2199-2205 -/
def expEnd (tf : Option ℕ) (tq : QMode) (o : FFmt) (d : Dst) (v : ℚ) : Option ℚ := do
  let T := tbits tf o
  let frac := (⟨T, 0, false, .TRN, .WRAP⟩ : Fmt).val ((argFmt tf tq o).raw v % 2 ^ T)
  let y ← exp2Rr ⟨T, 0, false, .TRN, .WRAP⟩ ⟨T + 1, 1, false, tq, .WRAP⟩ frac
  some (d.cvt (y * 2 ^ wrap (argI o) true ⌊v⌋))

/-- `ac_exp2_cordic` for ac_float. ac_hcordic.h:1405-1460, 1597-1606 -/
def exp2 (tf : Option ℕ) (tq : QMode) (t o : FFmt) (d : Dst) (m : ℚ) (e : ℤ) : Option ℚ :=
  expEnd tf tq o d (Shift.leftSS t.mant (argFmt tf tq o) (t.mant.raw m) e)

/-- `ac_exp_cordic` for ac_float: the mantissa is multiplied by the stored `1 / log 2` with `TF` fraction bits.
ac_hcordic.h:1405-1460, 1522-1531 -/
def exp (tf : Option ℕ) (tq : QMode) (t o : FFmt) (d : Dst) (m : ℚ) (e : ℤ) : Option ℚ :=
  let T := tbits tf o
  let k := (⟨T + 1, 1, false, .TRN, .WRAP⟩ : Fmt).cvt (Hcordic.invLn2 (T + 1))
  let fp : Fmt := ⟨t.W + (T + 1), t.I + 1, true, .TRN, .WRAP⟩
  expEnd tf tq o d (Shift.leftSS fp (argFmt tf tq o) (fp.raw (m * k)) e)

/-- `log2_a_I`. ac_hcordic.h:2167 -/
def logI (t : FFmt) : ℕ := nbits (expMax t + 1) + 1

/-- `ac_pow_cordic` for ac_float: `m * 2^e` to the power `n * 2^f`; `s` are the parameters of the type of the exponent.  The
constant results 1 and 0 are assigned to the output.  ac_hcordic.h:2136-2222 -/
def pow (tf : Option ℕ) (tq : QMode) (t s o : FFmt) (d : Dst) (m : ℚ) (e : ℤ) (n : ℚ) (f : ℤ) : Option ℚ := do
  let ne := normed tf tq (mantU t) ((mantU t).cvt m)
  let zf := fbits tf o.W
  let I := logI t
  let lg ← logRr .ln2 ⟨fbits tf (mantU t).W, 0, false, tq, .WRAP⟩ ⟨zf + 2, 2, true, .TRN, .WRAP⟩ ne.1
  let offset := (⟨I, I, true, .TRN, .WRAP⟩ : Fmt).cvt ((e + ne.2 : ℤ) : ℚ)
  let l := (⟨I + zf, I, true, .TRN, .WRAP⟩ : Fmt).cvt (lg + offset)
  let fp : Fmt := ⟨s.W + (I + zf), s.I + I, true, .TRN, .WRAP⟩
  let z ← expEnd tf tq o d (Shift.leftSS fp (argFmt tf tq o) (fp.raw (n * l)) f)
  some (if m * 2 ^ e = 1 then d.cvt 1 else if m = 0 then (if n = 0 then d.cvt 1 else d.cvt 0) else z)

end Model.FloatHcordic
