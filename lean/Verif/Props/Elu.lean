import Verif.Proof.Elu

/-! # C45: ELU and SELU

`elu f out α x` is the output of `ac_elu_pwl` for the input `x` of type `f`, an output of type `out` and the parameter `α`,
`selu f out x` that of `ac_selu_pwl`; `none` for a table read out of bounds. `out.cvt r` is the assignment of the exact
number `r` to the output. -/

namespace Props.Elu
open Ac Model.Activations

/-- **C45**, table safety: no input makes the functions read outside their tables. -/
theorem C45_in_table (f out : Fmt) (α x : ℚ) : (elu f out α x).isSome ∧ (selu f out x).isSome := by
  have h : ∀ a, (elu f out a x).isSome := by
    intro a
    obtain ⟨y, hy⟩ := Proof.Elu.exp_some f (outPow f) x
    unfold elu
    simp only [hy, Option.bind_eq_bind, Option.bind_some]
    rfl
  refine ⟨h α, ?_⟩
  obtain ⟨e, he⟩ := Option.isSome_iff_exists.1 (h alpha)
  unfold selu
  split_ifs
  · rfl
  · simp only [he, Option.bind_eq_bind, Option.bind_some]
    rfl

example : elu ⟨16, 5, true, .TRN, .WRAP⟩ ⟨16, 2, true, .TRN, .WRAP⟩ 1 (-1) = some (-10351 / 16384) ∧
    selu ⟨16, 5, true, .TRN, .WRAP⟩ ⟨16, 2, true, .TRN, .WRAP⟩ (-8) = some (-7199 / 4096) := by decide +kernel

/-- **C45**, ELU: the output is the conversion of a number `r` that is the input itself if this is not negative, and within
`|α| (e ^ x / 256 + 2 ^ -20)` of the real function otherwise. -/
theorem C45_elu {f : Fmt} (out : Fmt) (α : ℚ) (hW : 1 ≤ f.W) {x : ℚ} (hx : f.Rep x) :
    ∃ r : ℚ, elu f out α x = some (out.cvt r) ∧ (0 ≤ x → r = x) ∧
    |(r : ℝ) - Spec.Activations.elu α x| ≤ |(α : ℝ)| * (Real.exp x / 256 + 1 / 2 ^ 20) :=
  ⟨_, Proof.Elu.elu_eq out α hW hx, fun h => by unfold Proof.Elu.er; rw [if_pos h], Proof.Elu.er_err α hW hx⟩

example : (⟨16, 5, true, .TRN, .WRAP⟩ : Fmt).Rep (-1) := ⟨-2048, by decide, by decide, by decide +kernel⟩

/-- **C45**, ELU, order and range for a parameter that is not negative: the converted number is not smaller for a larger
input, across zero too, and lies between `-α` and 0 for negative inputs. -/
theorem C45_elu_order {f : Fmt} (out : Fmt) {α : ℚ} (hα : 0 ≤ α) (hW : 1 ≤ f.W) {x x' : ℚ} (hx : f.Rep x) (hx' : f.Rep x')
    (h : x ≤ x') :
    ∃ r r' : ℚ, elu f out α x = some (out.cvt r) ∧ elu f out α x' = some (out.cvt r') ∧ r ≤ r' ∧
    (x < 0 → -α ≤ r ∧ r ≤ 0) :=
  ⟨_, _, Proof.Elu.elu_eq out α hW hx, Proof.Elu.elu_eq out α hW hx', Proof.Elu.er_mono hα h, fun h => Proof.Elu.er_range hα h⟩

/-- **C45**, ELU, order of the outputs: a saturating output type keeps the order of the inputs. -/
theorem C45_elu_output_mono {f out : Fmt} {α : ℚ} (hα : 0 ≤ α) (hW : 1 ≤ f.W) (hO : out.O = .SAT ∨ out.O = .SAT_SYM) {x x' : ℚ}
    (hx : f.Rep x) (hx' : f.Rep x') (h : x ≤ x') :
    ∃ y y' : ℚ, elu f out α x = some y ∧ elu f out α x' = some y' ∧ y ≤ y' := by
  obtain ⟨r, r', h1, h2, h3, -⟩ := C45_elu_order out hα hW hx hx' h
  exact ⟨_, _, h1, h2, Fmt.cvt_mono hO h3⟩

example : elu ⟨16, 5, true, .TRN, .WRAP⟩ ⟨16, 1, true, .TRN, .SAT⟩ 2 (-3) = some (-1) := by decide +kernel

/-- **C45**, SELU of inputs that are not negative: the conversion of a number within `x / 10 ^ 6` of the real function. -/
theorem C45_selu_pos (f out : Fmt) {x : ℚ} (h : 0 ≤ x) :
    ∃ r : ℚ, selu f out x = some (out.cvt r) ∧ |(r : ℝ) - Spec.Activations.selu x| ≤ x / 10 ^ 6 := by
  refine ⟨lambda * x, by unfold selu; rw [if_pos h], ?_⟩
  have h' : (0 : ℝ) ≤ x := by exact_mod_cast h
  unfold Spec.Activations.selu Spec.Activations.elu
  rw [if_pos h', Proof.Elu.lambda_val]
  push_cast
  rw [abs_le]
  constructor <;> norm_num <;> linarith

example : selu ⟨16, 5, true, .TRN, .WRAP⟩ ⟨16, 5, true, .TRN, .WRAP⟩ 2 = some (4303 / 2048) := by decide +kernel

/-- **C45**, SELU of negative inputs: the error of the output, for signed outputs with at least 2 integer and 4 fraction
bits. Missing: coarser outputs, where it is false, see `C45_selu_wrong`. -/
theorem C45_selu_neg_partial {f out : Fmt} (hW : 1 ≤ f.W) (ho : 1 ≤ out.W) (hS : out.S = true) (hI : 2 ≤ out.I) (hF : 4 ≤ out.F)
    {x : ℚ} (hx : f.Rep x) (h : x < 0) :
    ∃ y : ℚ, selu f out x = some y ∧
    |(y : ℝ) - Spec.Activations.selu x| ≤ Real.exp x / 140 + 1 / 100000 + 21 / 10 * 2 ^ (-out.F) :=
  Proof.Elu.selu_neg hW ho hS hI hF hx h

example : (⟨16, 5, true, .TRN, .WRAP⟩ : Fmt).Rep (-8) ∧ 4 ≤ (⟨16, 2, true, .TRN, .WRAP⟩ : Fmt).F :=
  ⟨⟨-16384, by decide, by decide, by decide +kernel⟩, by decide⟩

/-- With an output of 2 integer bits and 1 fraction bit SELU of -8 is 3/2: the intermediate value is rounded to -2 in the
type of the output, and its product by the scale no longer fits, although the real value -1.757 is in the range. -/
theorem C45_selu_wrong : selu ⟨16, 5, true, .TRN, .WRAP⟩ ⟨3, 2, true, .TRN, .WRAP⟩ (-8) = some (3 / 2) ∧
    (⟨16, 5, true, .TRN, .WRAP⟩ : Fmt).Rep (-8) :=
  ⟨by decide +kernel, ⟨-16384, by decide, by decide, by decide +kernel⟩⟩

end Props.Elu
