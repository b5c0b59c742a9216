import Mathlib.Data.Nat.Bitwise

/-! # Bit-level specifications -/

namespace Spec

/-- `y` is the N-bit word `x` rotated right by `s` positions. -/
def RotR (N x s y : ℕ) : Prop := y < 2 ^ N ∧ ∀ j < N, y.testBit j = x.testBit ((j + s) % N)

/-- `r` is the highest position below `W` where `x` has the bit value `b`. -/
def Highest (b : Bool) (W x r : ℕ) : Prop := r < W ∧ x.testBit r = b ∧ ∀ j, r < j → j < W → x.testBit j ≠ b

/-- `r` is the lowest position below `W` where `x` has the bit value `b`. -/
def Lowest (b : Bool) (W x r : ℕ) : Prop := r < W ∧ x.testBit r = b ∧ ∀ j < r, x.testBit j ≠ b

end Spec
