import Verif.Model.CholFloat

/-! # Error bounds for ac_chol_d with ac_float elements

`out` is the output type, `imd` the intermediate type `T_imd`; `pwl` is `use_pwl`. -/

namespace Spec.CholFloat
open Ac Model.Float

/-- `x` is a number of the type `t`. -/
def IsNum (t : FFmt) (x : ℚ) : Prop :=
  ∃ (m : ℚ) (e : ℤ), t.mant.Rep m ∧ -2 ^ (t.E - 1) ≤ e ∧ e < 2 ^ (t.E - 1) ∧ x = m * 2 ^ e

/-- The subtraction gives numbers of the type, and differences up to `X` within `u`. -/
def SubOk (imd : FFmt) (sub : ℚ → ℚ → ℚ) (X u : ℚ) : Prop :=
  ∀ s y, IsNum imd (sub s y) ∧ (|s| ≤ X + u → |s - y| ≤ X → |sub s y - (s - y)| ≤ u)

/-- The relative error of the square root before its conversion. -/
def preRoot (pwl : Bool) (out imd : FFmt) : ℚ := if pwl then 1 / 850 else 2 ^ (1 - (out.W - out.I) - imd.I / 2)

/-- The relative error of a diagonal element. -/
def rootErr (pwl : Bool) (out imd : FFmt) : ℚ := preRoot pwl out imd + (1 + preRoot pwl out imd) * 2 ^ (2 - (out.W : ℤ))

/-- The relative error of the reciprocal or inverse square root before its conversion. -/
def preRec (pwl : Bool) (out imd : FFmt) : ℚ := if pwl then 1 / 1100 else 2 ^ (out.I + imd.I - 1 - imd.W)

/-- The error of the reciprocal times the diagonal element. -/
def recErr (pwl : Bool) (out imd : FFmt) : ℚ :=
  let η := preRec pwl out imd + (1 + preRec pwl out imd) * 2 ^ (2 - (imd.W : ℤ))
  if pwl then η * (1 + rootErr pwl out imd) + rootErr pwl out imd else η

/-- What is asked of the types and of the range from `κ` to `B` of the square roots. -/
structure Range (pwl : Bool) (out imd : FFmt) (κ B : ℚ) : Prop where
  outW : 3 ≤ out.W
  imdW : 3 ≤ imd.W
  outE : 1 ≤ out.E
  imdE : 1 ≤ imd.E
  rootBits : pwl = false → 1 ≤ (out.W - out.I) + (imd.I + 1) / 2
  recBits : pwl = false → 1 ≤ 2 + (out.W - out.I) + (imd.W - imd.I)
  pos : 0 < κ
  sumLow : 2 ^ (imd.I - 2 - 2 ^ (imd.E - 1)) ≤ κ ^ 2
  outLow : 2 ^ (out.I - 2 - 2 ^ (out.E - 1)) ≤ (1 - rootErr pwl out imd) * κ
  outHigh : (1 + rootErr pwl out imd) * B ≤ out.maxVal
  recLow : 2 ^ (imd.I - 2 - 2 ^ (imd.E - 1)) * ((1 + rootErr pwl out imd) * B) ≤ 1 - recErr pwl out imd
  recHigh : 1 + recErr pwl out imd ≤ imd.maxVal * ((1 - rootErr pwl out imd) * κ)

end Spec.CholFloat
