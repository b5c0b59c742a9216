import Verif.Proof.SqrtPwl
import Mathlib.Data.Real.Sqrt

/-! # C30: PWL square root

`sqrt q cn f out x` is the output of `ac_sqrt_pwl<q>` for the unsigned input `x` of type `f` and an output of type `out`,
`none` for a table read out of bounds; `cn` is the argument `call_normalize`. `out.cvt r` is the assignment of the exact
number `r` to the output. Without normalization the caller promises a leading one in the top bit: `2 ^ (f.I - 1) ≤ x`. -/

namespace Props.SqrtPwl
open Ac Model.PwlFixed

/-- **C30**, table safety: no input, normalized or not, makes the function read outside its tables. -/
theorem C30_in_table (q : QMode) (cn : Bool) (f out : Fmt) (x : ℚ) : (sqrt q cn f out x).isSome := by
  obtain ⟨y, hy, -⟩ := Proof.SqrtPwl.sqrt_some q cn f out x
  rw [hy]; rfl

example : sqrt .TRN true ⟨8, 4, false, .TRN, .WRAP⟩ ⟨12, 2, false, .TRN, .WRAP⟩ 2 = some (1449 / 1024) := by
  decide +kernel

/-- **C30**, zero: the square root of zero is zero. -/
theorem C30_zero (q : QMode) (cn : Bool) (f : Fmt) {out : Fmt} (ho : 1 ≤ out.W) : sqrt q cn f out 0 = some 0 := by
  obtain ⟨y, hy, h0⟩ := Proof.SqrtPwl.sqrt_some q cn f out 0
  rw [hy, h0 rfl, Fmt.cvt_zero' ho]

/-- **C30**, error and order: for positive inputs the output is the conversion of a positive number `r` whose square is
within 1/440 of the input and which is not smaller for a larger input. -/
theorem C30_sqrt (q : QMode) (cn : Bool) {f out : Fmt} (hW : 1 ≤ f.W) (hS : f.S = false) (ho : 1 ≤ out.W) (hSo : out.S = false)
    {x x' : ℚ} (hx : f.Rep x) (hx' : f.Rep x') (h : 0 < x) (hxx : x ≤ x') (hc : cn = true ∨ 2 ^ (f.I - 1) ≤ x) :
    ∃ r r' : ℚ, sqrt q cn f out x = some (out.cvt r) ∧ sqrt q cn f out x' = some (out.cvt r') ∧
    0 < r ∧ |r ^ 2 - x| ≤ x / 440 ∧ |r' ^ 2 - x'| ≤ x' / 440 ∧ r ≤ r' := by
  have hc' : cn = true ∨ 2 ^ (f.I - 1) ≤ x' := hc.imp_right (fun h => le_trans h hxx)
  have h' : 0 < x' := by linarith
  exact ⟨_, _, Proof.SqrtPwl.sqrt_eq q cn hW hS ho hSo hx h hc, Proof.SqrtPwl.sqrt_eq q cn hW hS ho hSo hx' h' hc',
    (Proof.SqrtPwl.core_err hW hS hx h hc).2, (Proof.SqrtPwl.core_err hW hS hx h hc).1,
    (Proof.SqrtPwl.core_err hW hS hx' h' hc').1, Proof.SqrtPwl.core_mono hW hS hx hx' h hc hxx⟩

example : (⟨8, 4, false, .TRN, .WRAP⟩ : Fmt).Rep (5 / 16) ∧ (⟨8, 4, false, .TRN, .WRAP⟩ : Fmt).Rep (8 + 1 / 16) :=
  ⟨⟨5, by decide, by decide, by decide +kernel⟩, ⟨129, by decide, by decide, by decide +kernel⟩⟩

/-- A number whose square is close to `x` is close to the real square root. -/
theorem near_sqrt {x r : ℚ} (h : 0 < x) (hr : 0 < r) (he : |r ^ 2 - x| ≤ x / 440) :
    |(r : ℝ) - Real.sqrt x| ≤ Real.sqrt x / 800 := by
  have hx : (0 : ℝ) < x := by exact_mod_cast h
  have hr' : (0 : ℝ) < r := by exact_mod_cast hr
  obtain ⟨e1, e2⟩ := abs_le.1 he
  have e1' : ((-(x / 440) : ℚ) : ℝ) ≤ ((r ^ 2 - x : ℚ) : ℝ) := Rat.cast_le.2 e1
  have e2' : ((r ^ 2 - x : ℚ) : ℝ) ≤ ((x / 440 : ℚ) : ℝ) := Rat.cast_le.2 e2
  push_cast at e1' e2'
  set s := Real.sqrt x with hs
  have hss : s ^ 2 = x := Real.sq_sqrt hx.le
  have hs0 : 0 < s := Real.sqrt_pos.2 hx
  rw [← hss] at e1' e2'
  rw [abs_le]
  constructor
  · by_contra hc
    have hlt : (r : ℝ) < s * (799 / 800) := by linarith
    have := mul_self_lt_mul_self hr'.le hlt
    have hs2 : 0 < s ^ 2 := by positivity
    nlinarith
  · by_contra hc
    have hlt : s * (801 / 800) < (r : ℝ) := by linarith
    have := mul_self_lt_mul_self (by positivity) hlt
    have hs2 : 0 < s ^ 2 := by positivity
    nlinarith

/-- **C30**, error against the real square root: the number converted to the output is within 1/800 of it. -/
theorem C30_error (q : QMode) (cn : Bool) {f out : Fmt} (hW : 1 ≤ f.W) (hS : f.S = false) (ho : 1 ≤ out.W) (hSo : out.S = false)
    {x : ℚ} (hx : f.Rep x) (h : 0 < x) (hc : cn = true ∨ 2 ^ (f.I - 1) ≤ x) :
    ∃ r : ℚ, sqrt q cn f out x = some (out.cvt r) ∧ |(r : ℝ) - Real.sqrt x| ≤ Real.sqrt x / 800 := by
  obtain ⟨r, -, h1, -, h2, h3, -, -⟩ := C30_sqrt q cn hW hS ho hSo hx hx h le_rfl hc
  exact ⟨r, h1, near_sqrt h h2 h3⟩

/-- **C30**, order of the outputs: a saturating output type keeps the order of all inputs, zero included. -/
theorem C30_output_mono (q : QMode) {f out : Fmt} (hW : 1 ≤ f.W) (hS : f.S = false) (ho : 1 ≤ out.W) (hSo : out.S = false)
    (hO : out.O = .SAT ∨ out.O = .SAT_SYM) {x x' : ℚ} (hx : f.Rep x) (hx' : f.Rep x') (hxx : x ≤ x') :
    ∃ y y', sqrt q true f out x = some y ∧ sqrt q true f out x' = some y' ∧ y ≤ y' := by
  have h0 : 0 ≤ x := by
    obtain ⟨r, r0, -, rfl⟩ := hx
    simp only [minRaw, hS] at r0
    unfold Fmt.val
    exact mul_nonneg (by exact_mod_cast r0) (Fmt.z_pos _).le
  rcases eq_or_lt_of_le h0 with h | h
  · subst h
    obtain ⟨y, hy, -⟩ := Proof.SqrtPwl.sqrt_some q true f out x'
    rcases eq_or_lt_of_le hxx with h' | h'
    · subst h'; exact ⟨_, _, C30_zero q true f ho, C30_zero q true f ho, le_rfl⟩
    · obtain ⟨r, -, h1, -, h2, -⟩ := C30_sqrt q true hW hS ho hSo hx' hx' h' le_rfl (Or.inl rfl)
      refine ⟨_, _, C30_zero q true f ho, h1, ?_⟩
      rw [← Fmt.cvt_zero' ho]; exact Fmt.cvt_mono hO h2.le
  · obtain ⟨r, r', h1, h2, -, -, -, h3⟩ := C30_sqrt q true hW hS ho hSo hx hx' h hxx (Or.inl rfl)
    exact ⟨_, _, h1, h2, Fmt.cvt_mono hO h3⟩

example : sqrt .TRN true ⟨8, 4, false, .TRN, .WRAP⟩ ⟨6, 1, false, .TRN, .SAT⟩ 9 = some (63 / 32) := by
  decide +kernel

end Props.SqrtPwl
