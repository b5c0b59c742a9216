import Verif.Model.CholInv
import Mathlib.Analysis.Complex.Basic

/-! # What it means for the arithmetic of the inversion of a triangular matrix to be accurate -/

namespace Spec.CholInvArith
open Model.CholInv

variable {τ ω : Type}

/-- `vt` and `vo` give the numbers that the elements of the intermediate type and of the output type stand for.  Each
step of a sum of magnitude up to `X`, and each product up to `X`, is within `u` of the exact one.  The reciprocal of an
element that stands for a real number from `κ` to `B` gives one within `θ` when it is multiplied with that number; `ok` is
what is known of such an element.  Results up to `Xo` are stored within `uo`. -/
structure Accurate (o : Ops τ ω) (vt : τ → ℂ) (vo : ω → ℂ) (ok : τ → Prop) (X Xo u uo κ B θ : ℝ) : Prop where
  zero : vt o.zero = 0
  acc0 : ∀ s, ‖vt s‖ ≤ X → ‖vt (o.acc0 s) - vt s‖ ≤ u
  acc : ∀ s x y, ‖vt s + vt x * vt y‖ ≤ X → ‖vt (o.acc s x y) - (vt s + vt x * vt y)‖ ≤ u
  accC : ∀ s x y, ‖vt s + star (vt x) * vt y‖ ≤ X → ‖vt (o.accC s x y) - (vt s + star (vt x) * vt y)‖ ≤ u
  negMul : ∀ s r, ‖vt s * vt r‖ ≤ X → ‖vt (o.negMul s r) + vt s * vt r‖ ≤ u
  recip : ∀ x (d : ℝ), ok x → vt x = d → κ ≤ d → d ≤ B → ‖vt (o.recip x) * d - 1‖ ≤ θ
  out : ∀ s, ‖vt s‖ ≤ Xo → ‖vo (o.out s) - vt s‖ ≤ uo

end Spec.CholInvArith
