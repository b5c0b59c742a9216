import Verif.Proof.IsqrtPwl
import Mathlib.Data.Real.Sqrt

/-! # C31: PWL inverse square root

`inverseSqrt q cn f out x` is the output of `ac_inverse_sqrt_pwl<q>` for the unsigned input `x` of type `f` and an output of
type `out`, `none` for a table read out of bounds; `cn` is the argument `call_normalize`. `out.cvt r` is the assignment of
the exact number `r` to the output. Without normalization the caller promises a leading one in the top bit:
`2 ^ (f.I - 1) ≤ x`. -/

namespace Props.IsqrtPwl
open Ac Model.PwlFixed

/-- **C31**, table safety: no input, normalized or not, makes the function read outside its tables. -/
theorem C31_in_table (q : QMode) (cn : Bool) (f out : Fmt) (x : ℚ) : (inverseSqrt q cn f out x).isSome := by
  obtain ⟨y, hy, -⟩ := Proof.IsqrtPwl.inverseSqrt_some q cn f out x
  rw [hy]; rfl

example : inverseSqrt .TRN true ⟨8, 4, false, .TRN, .WRAP⟩ ⟨12, 2, false, .TRN, .WRAP⟩ 2 = some (723 / 1024) := by
  decide +kernel

/-- **C31**, zero: the largest output. -/
theorem C31_zero (q : QMode) (cn : Bool) (f out : Fmt) : inverseSqrt q cn f out 0 = some out.maxVal := by
  obtain ⟨y, hy, h0⟩ := Proof.IsqrtPwl.inverseSqrt_some q cn f out 0
  rw [hy, h0 rfl]

example : (⟨12, 2, false, .TRN, .WRAP⟩ : Fmt).maxVal = 4095 / 1024 := by decide +kernel

/-- **C31**, error and order: for positive inputs the output is the conversion of a positive number `r` whose square is
within 3/2000 of the reciprocal of the input and which is not larger for a larger input. -/
theorem C31_inverse_sqrt (q : QMode) (cn : Bool) {f out : Fmt} (hW : 1 ≤ f.W) (hS : f.S = false) (ho : 1 ≤ out.W)
    (hSo : out.S = false) {x x' : ℚ} (hx : f.Rep x) (hx' : f.Rep x') (h : 0 < x) (hxx : x ≤ x')
    (hc : cn = true ∨ 2 ^ (f.I - 1) ≤ x) :
    ∃ r r' : ℚ, inverseSqrt q cn f out x = some (out.cvt r) ∧ inverseSqrt q cn f out x' = some (out.cvt r') ∧
    0 < r ∧ |r ^ 2 * x - 1| ≤ 3 / 2000 ∧ |r' ^ 2 * x' - 1| ≤ 3 / 2000 ∧ r' ≤ r := by
  have hc' : cn = true ∨ 2 ^ (f.I - 1) ≤ x' := hc.imp_right (fun h => le_trans h hxx)
  have h' : 0 < x' := by linarith
  exact ⟨_, _, Proof.IsqrtPwl.inverseSqrt_eq q cn hW hS ho hSo hx h hc,
    Proof.IsqrtPwl.inverseSqrt_eq q cn hW hS ho hSo hx' h' hc',
    (Proof.IsqrtPwl.core_err hW hS hx h hc).2, (Proof.IsqrtPwl.core_err hW hS hx h hc).1,
    (Proof.IsqrtPwl.core_err hW hS hx' h' hc').1, Proof.IsqrtPwl.core_anti hW hS hx hx' h hc hxx⟩

example : (⟨8, 4, false, .TRN, .WRAP⟩ : Fmt).Rep (5 / 16) ∧ (⟨8, 4, false, .TRN, .WRAP⟩ : Fmt).Rep (8 + 1 / 16) :=
  ⟨⟨5, by decide, by decide, by decide +kernel⟩, ⟨129, by decide, by decide, by decide +kernel⟩⟩

/-- **C31**, error against the real inverse square root: relative error at most 1/1300. -/
theorem C31_error (q : QMode) (cn : Bool) {f out : Fmt} (hW : 1 ≤ f.W) (hS : f.S = false) (ho : 1 ≤ out.W) (hSo : out.S = false)
    {x : ℚ} (hx : f.Rep x) (h : 0 < x) (hc : cn = true ∨ 2 ^ (f.I - 1) ≤ x) :
    ∃ r : ℚ, inverseSqrt q cn f out x = some (out.cvt r) ∧ |(r : ℝ) - 1 / Real.sqrt x| ≤ 1 / Real.sqrt x / 1300 := by
  obtain ⟨r, -, h1, -, hr, he, -, -⟩ := C31_inverse_sqrt q cn hW hS ho hSo hx hx h le_rfl hc
  refine ⟨r, h1, ?_⟩
  have hx : (0 : ℝ) < x := by exact_mod_cast h
  have hr' : (0 : ℝ) < r := by exact_mod_cast hr
  obtain ⟨e1, e2⟩ := abs_le.1 he
  have e1' : ((-(3 / 2000) : ℚ) : ℝ) ≤ ((r ^ 2 * x - 1 : ℚ) : ℝ) := Rat.cast_le.2 e1
  have e2' : ((r ^ 2 * x - 1 : ℚ) : ℝ) ≤ ((3 / 2000 : ℚ) : ℝ) := Rat.cast_le.2 e2
  push_cast at e1' e2'
  set s := Real.sqrt x with hs
  have hss : s ^ 2 = x := Real.sq_sqrt hx.le
  have hs0 : 0 < s := Real.sqrt_pos.2 hx
  rw [← hss, ← mul_pow] at e1' e2'
  have ht : 0 < (r : ℝ) * s := mul_pos hr' hs0
  have e3 : (r : ℝ) - 1 / s = (r * s - 1) / s := by field_simp
  rw [e3, abs_div, abs_of_pos hs0, div_right_comm]
  refine div_le_div_of_nonneg_right ?_ hs0.le
  generalize (r : ℝ) * s = t at *
  rw [abs_le]
  constructor <;> nlinarith

/-- **C31**, order of the outputs: a saturating output type keeps the order of all inputs, zero included. -/
theorem C31_output_mono (q : QMode) {f out : Fmt} (hW : 1 ≤ f.W) (hS : f.S = false) (ho : 1 ≤ out.W) (hSo : out.S = false)
    (hO : out.O = .SAT ∨ out.O = .SAT_SYM) {x x' : ℚ} (hx : f.Rep x) (hx' : f.Rep x') (hxx : x ≤ x') :
    ∃ y y', inverseSqrt q true f out x = some y ∧ inverseSqrt q true f out x' = some y' ∧ y' ≤ y := by
  have h0 : 0 ≤ x := by
    obtain ⟨r, r0, -, rfl⟩ := hx
    simp only [minRaw, hS] at r0
    unfold Fmt.val
    exact mul_nonneg (by exact_mod_cast r0) (Fmt.z_pos _).le
  rcases eq_or_lt_of_le h0 with h | h
  · subst h
    rcases eq_or_lt_of_le hxx with h' | h'
    · subst h'; exact ⟨_, _, C31_zero q true f out, C31_zero q true f out, le_rfl⟩
    · obtain ⟨r, -, h1, -, h2, -⟩ := C31_inverse_sqrt q true hW hS ho hSo hx' hx' h' le_rfl (Or.inl rfl)
      refine ⟨_, _, C31_zero q true f out, h1, ?_⟩
      unfold Fmt.maxVal Fmt.cvt
      rw [Fmt.val_le]
      exact (ovf_range ho _ _).2
  · obtain ⟨r, r', h1, h2, -, -, -, h3⟩ := C31_inverse_sqrt q true hW hS ho hSo hx hx' h hxx (Or.inl rfl)
    exact ⟨_, _, h1, h2, Fmt.cvt_mono hO h3⟩

example : inverseSqrt .TRN true ⟨8, 4, false, .TRN, .WRAP⟩ ⟨6, 1, false, .TRN, .SAT⟩ (1 / 16) = some (63 / 32) := by
  decide +kernel

end Props.IsqrtPwl
