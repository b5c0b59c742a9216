import Verif.Model.StdFloat
import Verif.Spec.StdFloat
import Mathlib.Data.Real.Basic
import Mathlib.Data.Rat.Cast.Order

/-! # What is assumed of the conversions between ac_std_float and ac_float -/

namespace Spec.StdFloat

/-- A bit pattern that stands for a number: the exponent field is not all ones. -/
def Finite (M E d : ℕ) : Prop := d < 2 ^ (M + E + 1) ∧ expField M E d < 2 ^ E - 1

/-- The conversion to ac_float keeps the value of a number and normalises as far as the exponent allows.  The one from ac_float keeps
the numbers of the format, and changes numbers smaller than the normal ones by no more than the smallest normal one (it may round
them, or flush them to zero).  `nan()` is a NaN without the
sign bit. -/
structure Ok (c : Model.StdFloat.Conv) : Prop where
  toF : ∀ M E d, Finite M E d → c.toF M E d = Model.CholFloat.rep (Model.StdFloat.fl .TRN M E) (value false M E d)
  keeps : ∀ M E d, Finite M E d →
    Finite M E (c.ofF M E (value false M E d)) ∧ value false M E (c.ofF M E (value false M E d)) = value false M E d
  small : ∀ M E x, 2 ≤ E → |x| ≤ smallest E →
    Finite M E (c.ofF M E x) ∧ |value false M E (c.ofF M E x) - x| ≤ smallest E
  nan : ∀ M E, 1 ≤ M → c.nan M E < 2 ^ (M + E + 1) ∧ Model.StdAddTree.nan M E (c.nan M E) = true ∧
    Model.StdAddTree.sgn M E (c.nan M E) = false

/-- The result `p` is a number within `b` of `r`; `none` would be a table read out of bounds. -/
def Near (M E : ℕ) (p : Option ℕ) (r b : ℝ) : Prop := ∃ d, p = some d ∧ Finite M E d ∧ |((value false M E d : ℚ) : ℝ) - r| ≤ b

/-- `r` is in the range of the normal numbers, with a margin `ε`. -/
def InRange (M E : ℕ) (ε r : ℝ) : Prop := ((smallest E : ℚ) : ℝ) ≤ (1 - ε) * |r| ∧ (1 + ε) * |r| ≤ ((largest M E : ℚ) : ℝ)

/-- A relative error `ε` and a unit in the last place. -/
noncomputable def relErr (M : ℕ) (ε : ℝ) : ℝ := ε + (1 + ε) / 2 ^ M

/-- An error `δ`, a unit in the last place, and twice the smallest normal number. -/
noncomputable def absErr (M E : ℕ) (δ r : ℝ) : ℝ := δ + (|r| + δ) / 2 ^ M + 2 * ((smallest E : ℚ) : ℝ)

end Spec.StdFloat
