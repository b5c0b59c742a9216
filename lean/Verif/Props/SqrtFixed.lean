import Verif.Proof.SqrtFixed

/-! # C07: fixed-point square root is correctly rounded

`fx.val X` is the value of the input word `X`; `fo.cvt v` is the assignment of the exact (here real) number `v` to a
variable of format `fo`. -/

namespace Props.SqrtFixed
open Ac

/-- **C07.** For every input and output format (also those with negative or oversized integer parts), every rounding
and overflow mode, and every input word, the output is the real square root converted once. -/
theorem C07_correctly_rounded {fx fo : Fmt} (hW : 1 ≤ fx.W) (hWo : 1 ≤ fo.W) (hS : fx.S = false) (hSo : fo.S = false)
    {X : ℤ} (h0 : 0 ≤ X) (h1 : X < 2 ^ fx.W) :
    Model.SqrtFixed.sqrtFixed fx fo X = fo.cvt (Real.sqrt (fx.val X : ℝ)) :=
  Proof.SqrtFixed.sqrtFixed_eq hW hWo hS hSo h0 h1

example : Model.SqrtFixed.sqrtFixed ⟨8, 3, false, .TRN, .WRAP⟩ ⟨6, 2, false, .RND_CONV, .SAT⟩ 201 =
    (⟨6, 2, false, .RND_CONV, .SAT⟩ : Fmt).cvt (Real.sqrt ((⟨8, 3, false, .TRN, .WRAP⟩ : Fmt).val 201 : ℝ)) :=
  C07_correctly_rounded (by decide) (by decide) rfl rfl (by decide) (by decide)

/-- Consequence: with a saturating output a larger input never gives a smaller root. -/
theorem C07_monotone {fx fo : Fmt} (hW : 1 ≤ fx.W) (hWo : 1 ≤ fo.W) (hS : fx.S = false) (hSo : fo.S = false)
    (hO : fo.O ≠ .WRAP) (hO' : fo.O ≠ .SAT_ZERO) {X Y : ℤ} (h0 : 0 ≤ X) (hXY : X ≤ Y) (h1 : Y < 2 ^ fx.W) :
    Model.SqrtFixed.sqrtFixed fx fo X ≤ Model.SqrtFixed.sqrtFixed fx fo Y := by
  rw [C07_correctly_rounded hW hWo hS hSo h0 (by omega), C07_correctly_rounded hW hWo hS hSo (by omega) h1]
  apply Fmt.cvt_mono (by revert hO hO'; cases fo.O <;> simp)
  apply Real.sqrt_le_sqrt
  have : fx.val X ≤ fx.val Y := by
    unfold Fmt.val
    exact mul_le_mul_of_nonneg_right (by exact_mod_cast hXY) (Proof.Shift.zpow_pos' _).le
  exact_mod_cast this

example : Model.SqrtFixed.sqrtFixed ⟨8, 3, false, .TRN, .WRAP⟩ ⟨6, 1, false, .RND, .SAT⟩ 201 ≤
    Model.SqrtFixed.sqrtFixed ⟨8, 3, false, .TRN, .WRAP⟩ ⟨6, 1, false, .RND, .SAT⟩ 255 :=
  C07_monotone (by decide) (by decide) rfl rfl (by decide) (by decide) (by decide) (by decide) (by decide)

/-- Consequence: the root of a number whose square root fits the output is exact. -/
theorem C07_exact {fx fo : Fmt} (hW : 1 ≤ fx.W) (hWo : 1 ≤ fo.W) (hS : fx.S = false) (hSo : fo.S = false)
    {X : ℤ} (h0 : 0 ≤ X) (h1 : X < 2 ^ fx.W) {r : ℤ} (hr0 : 0 ≤ r) (hr1 : r < 2 ^ fo.W)
    (hr : fo.val r * fo.val r = fx.val X) : Model.SqrtFixed.sqrtFixed fx fo X = fo.val r := by
  rw [C07_correctly_rounded hW hWo hS hSo h0 h1, ← hr]
  have hnn : 0 ≤ fo.val r := by
    unfold Fmt.val; exact mul_nonneg (by exact_mod_cast hr0) (Proof.Shift.zpow_pos' _).le
  have : Real.sqrt (((fo.val r * fo.val r : ℚ)) : ℝ) = ((fo.val r : ℚ) : ℝ) := by
    push_cast; exact Real.sqrt_mul_self (by exact_mod_cast hnn)
  rw [this, Fmt.cvt_ratCast]
  apply Fmt.cvt_val hWo
  · rw [hSo]; cases fo.O <;> simp [loRaw, minRaw] <;> omega
  · rw [hSo]; simp [maxRaw]; omega

example : Model.SqrtFixed.sqrtFixed ⟨8, 4, false, .TRN, .WRAP⟩ ⟨6, 4, false, .TRN, .SAT⟩ 36 = 3 / 2 := by
  rw [C07_exact (r := 6) (by decide) (by decide) rfl rfl (by decide) (by decide) (by decide) (by decide)
    (by norm_num [Fmt.val, Fmt.F])]
  norm_num [Fmt.val, Fmt.F]

end Props.SqrtFixed
