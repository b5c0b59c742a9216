import Mathlib.Analysis.SpecialFunctions.Log.Basic
import Mathlib.Analysis.SpecialFunctions.Trigonometric.DerivHyp

/-! Activation functions of the machine learning literature, on the reals. -/

namespace Spec.Activations

/-- Exponential linear unit. -/
noncomputable def elu (α x : ℝ) : ℝ := if 0 ≤ x then x else α * (Real.exp x - 1)

/-- Scaled exponential linear unit, with the constants of its authors to 15 places. -/
noncomputable def selu (x : ℝ) : ℝ := 1.050700987355480 * elu 1.673263242354377 x

/-- Smooth rectifier. -/
noncomputable def softplus (x : ℝ) : ℝ := Real.log (1 + Real.exp x)

/-- `x / (1 + |x|)`. -/
noncomputable def softsign (x : ℝ) : ℝ := x / (1 + |x|)

/-- Gaussian error linear unit, in the customary approximation by the hyperbolic tangent. -/
noncomputable def gelu (x : ℝ) : ℝ := x / 2 * (1 + Real.tanh (Real.sqrt (2 / Real.pi) * (x + 0.044715 * x ^ 3)))

end Spec.Activations
