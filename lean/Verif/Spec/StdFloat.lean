import Mathlib.Data.Nat.Bitwise
import Mathlib.Data.Rat.Defs
import Mathlib.Algebra.Order.Field.Rat
import Mathlib.Algebra.Field.Rat
import Mathlib.Algebra.Field.Defs

/-! # Values of IEEE-754 bit patterns

A number is its bit pattern `d`: `M` mantissa bits, `E` exponent bits, one sign bit. -/

namespace Spec.StdFloat

/-- The bias of the exponent field. -/
def bias (E : ℕ) : ℤ := 2 ^ (E - 1) - 1

/-- The exponent field. -/
def expField (M E d : ℕ) : ℕ := d / 2 ^ M % 2 ^ E

/-- The value of a finite number.  With `nosub` subnormal numbers count as zero. -/
def value (nosub : Bool) (M E d : ℕ) : ℚ :=
  (if d.testBit (M + E) then -1 else 1) *
    (if expField M E d = 0 then (if nosub then 0 else ((d % 2 ^ M : ℕ) : ℚ) * 2 ^ (1 - bias E - M))
     else ((2 ^ M + d % 2 ^ M : ℕ) : ℚ) * 2 ^ ((expField M E d : ℤ) - bias E - M))

/-- The largest finite number. -/
def largest (M E : ℕ) : ℚ := (2 ^ (M + 1) - 1) * 2 ^ (bias E - M)

/-- The smallest positive normal number. -/
def smallest (E : ℕ) : ℚ := 2 ^ (1 - bias E)

/-- The bit pattern of the largest finite number with a sign. -/
def largestBits (M E : ℕ) (negative : Bool) : ℕ := 2 ^ M - 1 + (2 ^ E - 2) * 2 ^ M + if negative then 2 ^ (M + E) else 0

end Spec.StdFloat
