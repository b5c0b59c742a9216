import Verif.Proof.Softplus

/-! # C46: softplus

`softplus q f out x` is the output of `ac_softplus_pwl<q>` for the input `x` of type `f` and an unsigned output of type
`out`; `none` for a table read out of bounds. `out.cvt r` is the assignment of the exact number `r` to the output. -/

namespace Props.Softplus
open Ac Model.Activations

/-- **C46**, table safety: no input makes the function read outside its tables. -/
theorem C46_in_table (q : QMode) (f out : Fmt) (x : ℚ) : (softplus q f out x).isSome := Proof.Softplus.softplus_some q f out x

example : softplus .TRN ⟨16, 4, true, .TRN, .WRAP⟩ ⟨16, 4, false, .TRN, .WRAP⟩ 1 = some (5381 / 4096) := by decide +kernel

/-- **C46**, error and order, for input types with at most 6 integer bits (4 if unsigned): the output is the conversion of a
positive number within 1/190 plus 1/20000 of the value of the real function, not smaller for a larger input. Missing: wider
input types, where it is false, see `C46_wrong`. -/
theorem C46_softplus_partial (q : QMode) {f : Fmt} (out : Fmt) (hW : 1 ≤ f.W) (hI : if f.S then f.I ≤ 6 else f.I ≤ 4) {x x' : ℚ}
    (hx : f.Rep x) (hx' : f.Rep x') (h : x ≤ x') :
    ∃ r r' : ℚ, softplus q f out x = some (out.cvt r) ∧ softplus q f out x' = some (out.cvt r') ∧ 0 < r ∧ r ≤ r' ∧
    |(r : ℝ) - Spec.Activations.softplus x| ≤ 1 / 190 + Spec.Activations.softplus x / 20000 :=
  ⟨_, _, Proof.Softplus.softplus_eq q out hW hI hx, Proof.Softplus.softplus_eq q out hW hI hx',
    by have := Proof.Softplus.sr_pos hW hI hx; linarith, Proof.Softplus.sr_mono hW hI hx hx' h, Proof.Softplus.sr_err hW hI hx⟩

example : (⟨16, 6, true, .TRN, .WRAP⟩ : Fmt).Rep (-31) ∧ (⟨16, 6, true, .TRN, .WRAP⟩ : Fmt).Rep (63 / 2) :=
  ⟨⟨-31744, by decide, by decide, by decide +kernel⟩, ⟨32256, by decide, by decide, by decide +kernel⟩⟩

/-- **C46**, order of the outputs: a saturating output type keeps the order of the inputs. -/
theorem C46_output_mono_partial (q : QMode) {f out : Fmt} (hW : 1 ≤ f.W) (hI : if f.S then f.I ≤ 6 else f.I ≤ 4)
    (hO : out.O = .SAT ∨ out.O = .SAT_SYM) {x x' : ℚ} (hx : f.Rep x) (hx' : f.Rep x') (h : x ≤ x') :
    ∃ y y' : ℚ, softplus q f out x = some y ∧ softplus q f out x' = some y' ∧ y ≤ y' := by
  obtain ⟨r, r', h1, h2, -, h3, -⟩ := C46_softplus_partial q out hW hI hx hx' h
  exact ⟨_, _, h1, h2, Fmt.cvt_mono hO h3⟩

/-- With 8 integer bits the exponential of a large input wraps in the type declared for it: softplus of 100 is below 1/900
(the real value is 100). With 7 bits, softplus of 63 is below softplus of 51, and with 5 unsigned bits softplus of 31 is
below softplus of 29. -/
theorem C46_wrong :
    (∃ y, softplus .TRN ⟨16, 8, true, .TRN, .WRAP⟩ ⟨32, 8, false, .TRN, .WRAP⟩ 100 = some y ∧ y < 1 / 900) ∧
    (∃ y y', softplus .TRN ⟨16, 7, true, .TRN, .WRAP⟩ ⟨32, 8, false, .TRN, .WRAP⟩ 51 = some y ∧
      softplus .TRN ⟨16, 7, true, .TRN, .WRAP⟩ ⟨32, 8, false, .TRN, .WRAP⟩ 63 = some y' ∧ y' < y) ∧
    (∃ y y', softplus .TRN ⟨16, 5, false, .TRN, .WRAP⟩ ⟨32, 8, false, .TRN, .WRAP⟩ 29 = some y ∧
      softplus .TRN ⟨16, 5, false, .TRN, .WRAP⟩ ⟨32, 8, false, .TRN, .WRAP⟩ 31 = some y' ∧ y' < y) :=
  ⟨⟨8517 / 8388608, by decide +kernel, by norm_num⟩, ⟨837056443 / 16777216, 412821829 / 8388608, by decide +kernel, by decide +kernel, by norm_num⟩,
    ⟨60816875 / 2097152, 479827297 / 16777216, by decide +kernel, by decide +kernel, by norm_num⟩⟩

end Props.Softplus
