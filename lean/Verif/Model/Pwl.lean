import Verif.Ac.Arith
import Verif.Model.Shift

/-! # Shared parts of the piecewise linear models, and the models of ac_sigmoid_pwl.h and ac_tanh_pwl.h

Every PWL function evaluates `m_lut[index]*x_in_sc_frac + c_lut[index]`.  A table is the list of its raw integers; all
tables of these two files have 10 fraction bits, so that the constant .1513671875 is 155/1024.  An index outside the
table is `none`. -/

namespace Model.Pwl
open Ac

/-- `x` with `n` fraction bits, given its raw integer. -/
def fx (n : ℕ) (r : ℤ) : ℚ := r / 2 ^ n

/-- Table read: `none` when the index is outside the table. -/
def rd (t : List ℤ) (i : ℕ) : Option ℤ := t[i]?

/-- Unsigned type of the same width. -/
def uns (f : Fmt) : Fmt := ⟨f.W, f.I, false, .TRN, .WRAP⟩

/-- `input_pwl`: the magnitude of the input, and whether the input is negative.
ac_sigmoid_pwl.h:156-168, ac_tanh_pwl.h:154-166 -/
def magnitude (f : Fmt) (x : ℚ) : ℚ := (uns f).cvt (if f.S ∧ x < 0 then -x else x)

/-- Bits `[0, n)` of the raw word of `x` read as a fraction (`set_slc(0, x.slc<n>(0))` into `ac_fixed<n,0,false>`). -/
def fracBits (f : Fmt) (n : ℕ) (x : ℚ) : ℚ := (⟨n, 0, false, .TRN, .WRAP⟩ : Fmt).val (f.raw x % 2 ^ n)

/-- `to_int()` assigned to `ac_int<n,false>`. -/
def index (n : ℕ) (x : ℚ) : ℕ := (wrap n false ⌊x⌋).toNat

/-- `m_lut` of ac_sigmoid_pwl.h:142, times 2^10. -/
def sigM : List ℤ := [155, 130, 92, 58, 34, 19, 10, 6]
/-- `c_lut` of ac_sigmoid_pwl.h:143, times 2^10. -/
def sigC : List ℤ := [513, 668, 798, 890, 948, 982, 1001, 1012]

/-- Type of `x_in_sc`. ac_sigmoid_pwl.h:175 -/
def sigScFmt : Fmt := ⟨14, 4, false, .TRN, .WRAP⟩

/-- `x_in_sc`. ac_sigmoid_pwl.h:151, 175.  The cast binds to `input_pwl`, before the multiplication. -/
def sigSc (u : ℚ) : ℚ := sigScFmt.cvt (sigScFmt.cvt u * (819 / 512))

/-- `ac_sigmoid_pwl`, ac_fixed: the value of `output_pwl` that is assigned to the output.
ac_sigmoid_pwl.h:119-197 -/
def sigmoidPwl (q : QMode) (f : Fmt) (x : ℚ) : Option ℚ := do
  let u := magnitude f x
  let s := sigSc u
  let i := index 3 s
  let m ← rd sigM i
  let c ← rd sigC i
  let o : Fmt := ⟨20, 0, false, q, .WRAP⟩
  let y := o.cvt (fx 10 m * fracBits sigScFmt 10 s + fx 10 c)
  let y := if 5 ≤ u then o.maxVal else y
  some (if f.S ∧ x < 0 then o.cvt (1 - y) else y)

/-- `ac_sigmoid_pwl` with its output conversion. -/
def sigmoid (q : QMode) (f out : Fmt) (x : ℚ) : Option ℚ := (sigmoidPwl q f x).map out.cvt

/-- `m_lut` of ac_tanh_pwl.h:145, times 2^10. -/
def tanhM : List ℤ := [251, 224, 177, 129, 88, 57, 37, 23, 14, 9, 5, 3]
/-- `c_lut` of ac_tanh_pwl.h:146, times 2^10. -/
def tanhC : List ℤ := [1, 252, 476, 653, 783, 871, 928, 965, 988, 1002, 1011, 1016]

/-- Type of `x_in_sc`. ac_tanh_pwl.h:172 -/
def tanhScFmt : Fmt := ⟨14, 4, false, .TRN, .WRAP⟩

/-- `x_in_sc`. ac_tanh_pwl.h:172-173: `ac_shift_left` by 2 with an unsigned operand and an int count. -/
def tanhSc (f : Fmt) (u : ℚ) : ℚ := Shift.leftUS (uns f) tanhScFmt ((uns f).raw u) 2

/-- `ac_tanh_pwl`, ac_fixed: the value of `output_pwl` that is assigned to the output. ac_tanh_pwl.h:120-195.
`oob` is what a read at an index outside the 12-entry tables yields: `fun _ => none` for the undefined behaviour of
C++, arbitrary values for a circuit that returns some bits. -/
def tanhPwl (oob : ℕ → Option (ℤ × ℤ)) (q : QMode) (f : Fmt) (x : ℚ) : Option ℚ := do
  let u := magnitude f x
  let s := tanhSc f u
  let i := index 4 s
  let mc ← if i < 12 then (do let m ← rd tanhM i; let c ← rd tanhC i; pure (m, c)) else oob i
  let o : Fmt := ⟨21, 1, true, q, .WRAP⟩
  let y := o.cvt (fx 10 mc.1 * fracBits tanhScFmt 10 s + fx 10 mc.2)
  let y := if 3 ≤ u then o.maxVal else y
  some (if f.S ∧ x < 0 then o.cvt (-y) else y)

/-- `ac_tanh_pwl` with its output conversion. -/
def tanh (oob : ℕ → Option (ℤ × ℤ)) (q : QMode) (f out : Fmt) (x : ℚ) : Option ℚ := (tanhPwl oob q f x).map out.cvt

end Model.Pwl
