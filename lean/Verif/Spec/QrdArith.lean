import Verif.Model.QrdFixed
import Mathlib.Analysis.Complex.Basic

/-! # What the operations of a QR decomposition have to deliver -/

namespace Spec.QrdArith
open Model.QrdFixed

/-- `z` is within `e` of the nonnegative real numbers, in each part. -/
def Posi (e : ℝ) (z : ℂ) : Prop := |z.im| ≤ e ∧ -e ≤ z.re

/-- Error bounds of the operations of `ac_qrd`; `vb`, `v`, `w` and `vo` are the numbers that the objects of the four types
stand for, `ok` holds of the coefficients `diagonal_PE` returns.  Inputs are up to `D`; `X` bounds the magnitude of two
elements of a column; `ρ` is the least magnitude of a pair of pivots.  `u`, `uL` and `uS` bound the errors of the three
assignments, `ε` the deviation of a rotation from a unitary one, `ζ` what it leaves of the element it annihilates and what it keeps the other
one from being real and nonnegative. -/
structure Accurate {β α κ ω : Type} (o : Ops β α κ ω) (vb : β → ℂ) (v : α → ℂ) (w : κ → ℂ) (vo : ω → ℂ) (ok : κ → Prop)
    (D X ρ u uL uS ε ζ : ℝ) : Prop where
  load : ∀ b, ‖vb b‖ ≤ D → ‖v (o.load b) - vb b‖ ≤ uL
  one : v o.one = 1
  zero : v o.zero = 0
  okc : ∀ b a, ρ ^ 2 ≤ ‖v b‖ ^ 2 + ‖v a‖ ^ 2 → ‖v b‖ ^ 2 + ‖v a‖ ^ 2 ≤ X ^ 2 → ok (o.pe b a).1 ∧ ok (o.pe b a).2
  unit : ∀ b a, ρ ^ 2 ≤ ‖v b‖ ^ 2 + ‖v a‖ ^ 2 → ‖v b‖ ^ 2 + ‖v a‖ ^ 2 ≤ X ^ 2 →
    |‖w (o.pe b a).1‖ ^ 2 + ‖w (o.pe b a).2‖ ^ 2 - 1| ≤ ε
  annih : ∀ b a, ρ ^ 2 ≤ ‖v b‖ ^ 2 + ‖v a‖ ^ 2 → ‖v b‖ ^ 2 + ‖v a‖ ^ 2 ≤ X ^ 2 →
    ‖w (o.pe b a).1 * v b + w (o.pe b a).2 * v a‖ ≤ ζ
  upper : ∀ b a, ρ ^ 2 ≤ ‖v b‖ ^ 2 + ‖v a‖ ^ 2 → ‖v b‖ ^ 2 + ‖v a‖ ^ 2 ≤ X ^ 2 →
    Posi ζ (star (w (o.pe b a).1) * v a - star (w (o.pe b a).2) * v b)
  rotR : ∀ x y c s, ok c → ok s → ‖w c‖ ^ 2 + ‖w s‖ ^ 2 ≤ 1 + ε → ‖v x‖ ^ 2 + ‖v y‖ ^ 2 ≤ X ^ 2 →
    ‖v (o.rotR x y c s).1 - (star (w c) * v x - star (w s) * v y)‖ ≤ u ∧
    ‖v (o.rotR x y c s).2 - (w c * v y + w s * v x)‖ ≤ u
  rotQ : ∀ x y c s, ok c → ok s → ‖w c‖ ^ 2 + ‖w s‖ ^ 2 ≤ 1 + ε → ‖v x‖ ^ 2 + ‖v y‖ ^ 2 ≤ X ^ 2 →
    ‖v (o.rotQ x y c s).1 - (w c * v x - w s * v y)‖ ≤ u ∧
    ‖v (o.rotQ x y c s).2 - (star (w c) * v y + star (w s) * v x)‖ ≤ u
  store : ∀ x, ‖v x‖ ≤ X → ‖vo (o.store x) - v x‖ ≤ uS

/-- The same for the stage for `real_diag`; `w` is the number the coefficient stands for, and `P` holds of the
elements of A1.  `ρ` is the least magnitude of the
bottom right element, `δ` bounds the deviation of the coefficient from magnitude 1 and `η` the error of its product with the new
element; the latter is stored as a nonnegative real number. -/
structure DiagAccurate {β α κ κ' ω : Type} (o : Ops β α κ ω) (d : DiagOps α κ' ω) (v : α → ℂ) (w : κ' → ℂ) (vo : ω → ℂ)
    (P : α → Prop) (X ρ Y uS δ η : ℝ) : Prop where
  load : ∀ b, P (o.load b)
  one : P o.one
  zero : P o.zero
  rotR : ∀ x y c s, P (o.rotR x y c s).1 ∧ P (o.rotR x y c s).2
  rotQ : ∀ x y c s, P (o.rotQ x y c s).1 ∧ P (o.rotQ x y c s).2
  unit : ∀ b, P b → ρ ≤ ‖v b‖ → ‖v b‖ ≤ X → |‖w (d.diag b).2‖ ^ 2 - 1| ≤ δ
  polar : ∀ b, P b → ρ ≤ ‖v b‖ → ‖v b‖ ≤ X → ‖v b - w (d.diag b).2 * v (d.diag b).1‖ ≤ η
  size : ∀ b, P b → ρ ≤ ‖v b‖ → ‖v b‖ ≤ X → ‖v (d.diag b).1‖ ≤ Y
  store : ∀ b, P b → ρ ≤ ‖v b‖ → ‖v b‖ ≤ X → ‖vo (o.store (d.diag b).1) - v (d.diag b).1‖ ≤ uS
  real : ∀ b, P b → ρ ≤ ‖v b‖ → ‖v b‖ ≤ X → (vo (o.store (d.diag b).1)).im = 0 ∧ 0 ≤ (vo (o.store (d.diag b).1)).re
  storeMul : ∀ x c, ‖v x‖ ≤ X → |‖w c‖ ^ 2 - 1| ≤ δ → ‖vo (d.storeMul x c) - v x * w c‖ ≤ uS

end Spec.QrdArith
