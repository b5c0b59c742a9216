import Verif.Model.StdFloat

/-! # ac_chol_d for ac_std_float and ac_ieee_float (ac_chol_d.h:506-551, 612-662, 1091-1105, 1166-1178)

The conversions of ac_types are the parameter of `Model.StdFloat`. -/

namespace Model.StdChol
open Ac Model.Float Model.StdFloat

/-- The version for arrays: the elements are converted to ac_float, given by their values, and the output is converted back.  `L` is the
output array before the call; `junk` also stands for the uninitialised array `L_ac_fl`. ac_chol_d.h:506-551, 612-662 -/
def cholArray (c : Conv) (usePwl : Bool) (dw : ℕ) (di : ℤ) (de : ℕ) (q : QMode) (sub : FFmt → ℚ → ℚ → ℚ) (junk : ℚ)
    (Mi Ei Mo Eo M : ℕ) (A L : Mem ℕ) : Option (Mem ℕ) :=
  let a : Mem ℚ := fun i j => (c.toF Mi Ei (A i j)).1 * 2 ^ (c.toF Mi Ei (A i j)).2
  (CholFloat.floatArray usePwl (fl .TRN Mo Eo) dw di de q sub junk M a fun _ _ => junk).map fun R i j =>
    if i < M ∧ j < M then c.ofF Mo Eo (R i j) else L i j

/-- The version for ac_matrix objects; the helper function passes 0 for `delta_e`. ac_chol_d.h:877-889, 1091-1105, 1166-1178 -/
def cholMatrix (c : Conv) (usePwl : Bool) (dw : ℕ) (di : ℤ) (_de : ℕ) (q : QMode) (sub : FFmt → ℚ → ℚ → ℚ) (junk : ℚ)
    (Mi Ei Mo Eo M : ℕ) (A L : Mem ℕ) : Option (Mem ℕ) :=
  cholArray c usePwl dw di 0 q sub junk Mi Ei Mo Eo M A L

end Model.StdChol
