import Verif.Model.PwlFixed

/-! # Model of the ac_fixed function of ac_tan_pwl.h

Input and output are unsigned.  Conventions as in `Model.PwlFixed`. -/

namespace Model.Tan
open Ac Model.Pwl Model.PwlFixed

/-- `m_lut` of ac_tan_pwl.h:162, times 2^10. -/
def tanM : List ℤ := [101, 102, 107, 113, 123, 136, 156, 183]
/-- `c_lut` of ac_tan_pwl.h:163, times 2^10. -/
def tanC : List ℤ := [0, 101, 203, 311, 424, 547, 683, 839]

/-- `n_f_b_int`. ac_tan_pwl.h:178 -/
def fbInt (f : Fmt) : ℤ := min 19 (f.W - f.I) + (if 0 ≤ f.I then 1 else 0)

/-- `W_int`. A type of no or a negative width does not compile; the theorems ask for `1 ≤ widthInt f`.
ac_tan_pwl.h:179-180 -/
def widthInt (f : Fmt) : ℤ := min f.I 1 + fbInt f

/-- The type of `input_int`, with `e` more bits: it has the modes of the input. ac_tan_pwl.h:181, :188 -/
def tInt (e : ℕ) (f : Fmt) : Fmt := ⟨(widthInt f).toNat + e, min f.I 1, false, f.Q, f.O⟩

/-- `input_exceeds_pi_by_4`, with the test that guards its uses. ac_tan_pwl.h:182-188 -/
def exceeds (f : Fmt) (x : ℚ) : Prop := 0 ≤ f.I ∧ 804 / 1024 ≤ x

instance (f : Fmt) (x : ℚ) : Decidable (exceeds f x) := by unfold exceeds; infer_instance

/-- `input_int`: the right shift drops the lowest bit of the word. ac_tan_pwl.h:187-189 -/
def inputInt (f : Fmt) (x : ℚ) : ℚ :=
  if exceeds f x then (tInt 0 f).cvt ((tInt 1 f).val ((tInt 1 f).raw ((tInt 1 f).cvt x) / 2)) else (tInt 0 f).cvt x

/-- `ac_tan_pwl`; the scaling constant is 10.1884765625, `sat_limit` is 1.556640625. ac_tan_pwl.h:132-225 -/
def tan (q : QMode) (f out : Fmt) (x : ℚ) : Option ℚ := do
  let y ← segVal tanM tanC 10 3 10 (inputInt f x * (10433 / 1024))
  let y := (⟨20, 0, false, q, .WRAP⟩ : Fmt).cvt y
  let t ← if exceeds f x then do
      let d := (⟨16, 0, false, q, .WRAP⟩ : Fmt).cvt (1 - y * y)
      let r ← reciprocal q ⟨16, 0, false, q, .WRAP⟩ ⟨16, 6, false, q, .WRAP⟩ d
      some (out.cvt (2 * y * r))
    else some (out.cvt y)
  some (if 1594 / 1024 ≤ x then out.maxVal else t)

end Model.Tan
