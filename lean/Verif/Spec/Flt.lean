import Mathlib.Algebra.Order.Field.Rat
import Mathlib.Data.Rat.Cast.Order

/-! # Binary floating point numbers: specification -/

namespace Spec.Flt

/-- `v` is a value of a float with a signed `W`-bit mantissa having `I` integer bits and a signed `E`-bit exponent. -/
def Rep (W : ℕ) (I : ℤ) (E : ℕ) (v : ℚ) : Prop :=
  ∃ m e : ℤ, -2 ^ (W - 1) ≤ m ∧ m < 2 ^ (W - 1) ∧ -2 ^ (E - 1) ≤ e ∧ e < 2 ^ (E - 1) ∧
    v = m * 2 ^ (I - W) * 2 ^ e

/-- `v` is the largest representable number not above `x`; if no representable number is that low, `v` is the
smallest representable number. -/
def IsFloor (W : ℕ) (I : ℤ) (E : ℕ) (x v : ℚ) : Prop :=
  Rep W I E v ∧ ((v ≤ x ∧ ∀ w, Rep W I E w → w ≤ x → w ≤ v) ∨ (x < v ∧ ∀ w, Rep W I E w → v ≤ w))

end Spec.Flt
