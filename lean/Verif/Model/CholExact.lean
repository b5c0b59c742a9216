import Verif.Model.Chol
import Mathlib.Analysis.RCLike.Basic

/-! # ac_chol_d with exact arithmetic

The loops of the code, with the arithmetic on elements replaced by exact real or complex arithmetic: what the code does
when no rounding or overflow happens. -/

namespace Model.Chol
open scoped ComplexConjugate

/-- Exact arithmetic on real (`𝕜 = ℝ`) or complex (`𝕜 = ℂ`) numbers.  Simplification: rounding and overflow of the
intermediate types are dropped, square root and reciprocal are exact. ac_chol_d.h:204-261, 757-833 -/
noncomputable def exactOps (𝕜 : Type) [RCLike 𝕜] : Ops 𝕜 𝕜 ℝ 𝕜 ℝ where
  dInit a := RCLike.re a
  dStep s x := s - RCLike.normSq x
  nonPos s := decide (s ≤ 0)
  diag s := ((Real.sqrt s : ℝ) : 𝕜)
  recip s := 1 / Real.sqrt s
  oInit a := a
  oStep s x y := s - x * conj y
  off r s := (r : 𝕜) * s
  zero := 0

end Model.Chol
