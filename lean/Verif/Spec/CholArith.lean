import Verif.Model.Chol
import Mathlib.Analysis.Complex.Basic

/-! # What it means for the arithmetic of a Cholesky decomposition to be accurate

The maps `va`, `vt`, `vd` and `vs` give the numbers that the elements of the input, the elements of the output, the sums
for the diagonal and the other sums stand for. -/

namespace Spec.CholArith
open Model.Chol

variable {α τ σd σ ρ : Type}

/-- Each step of a sum, from a magnitude up to `X + u` to one up to `X`, is within `u` of the exact one.  A diagonal element
computed from a sum between `lo` and `hi` is real, between `κ` and `B`, and its square is within `ed` of the sum.  An element below it,
computed from a sum of magnitude up to `s`, gives that sum within `eo` when it is multiplied with the diagonal element.
`ok` is what is known of every sum for the diagonal. -/
structure Accurate (o : Ops α τ σd σ ρ) (va : α → ℂ) (vt : τ → ℂ) (vd : σd → ℝ) (vs : σ → ℂ) (ok : σd → Prop)
    (X u lo hi s κ B ed eo : ℝ) : Prop where
  okInit : ∀ a, ok (o.dInit a)
  okStep : ∀ p x, ok (o.dStep p x)
  dInit : ∀ a, ‖va a‖ ≤ X → |vd (o.dInit a) - (va a).re| ≤ u
  dStep : ∀ p x, |vd p| ≤ X + u → |vd p - ‖vt x‖ ^ 2| ≤ X → |vd (o.dStep p x) - (vd p - ‖vt x‖ ^ 2)| ≤ u
  pos : ∀ p, o.nonPos p = false ↔ 0 < vd p
  diag : ∀ p, ok p → lo ≤ vd p → vd p ≤ hi → ∃ d : ℝ, vt (o.diag p) = d ∧ κ ≤ d ∧ d ≤ B ∧ |d ^ 2 - vd p| ≤ ed
  oInit : ∀ a, ‖va a‖ ≤ X → ‖vs (o.oInit a) - va a‖ ≤ u
  oStep : ∀ q x y, ‖vs q‖ ≤ X + u → ‖vs q - vt x * star (vt y)‖ ≤ X → ‖vs (o.oStep q x y) - (vs q - vt x * star (vt y))‖ ≤ u
  off : ∀ p q, ok p → lo ≤ vd p → vd p ≤ hi → ‖vs q‖ ≤ s → ‖vt (o.off (o.recip p) q) * vt (o.diag p) - vs q‖ ≤ eo
  zero : vt o.zero = 0

/-- The number an ac_complex stands for: its real and its imaginary part. -/
noncomputable def cv (z : ℚ × ℚ) : ℂ := ⟨z.1, z.2⟩

end Spec.CholArith
