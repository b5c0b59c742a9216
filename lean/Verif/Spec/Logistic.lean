import Mathlib.Analysis.SpecialFunctions.Exp

namespace Spec

/-- The logistic function, the exact value that `ac_sigmoid_pwl` approximates. -/
noncomputable def logistic (x : ℝ) : ℝ := 1 / (1 + Real.exp (-x))

end Spec
