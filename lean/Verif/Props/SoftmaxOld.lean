import Verif.Proof.SoftmaxOld

/-! # C40: the first softmax function

`softmax q f out K x` is the output array of `ac_softmax_pwl<q>` for the `K` inputs `x 0 ... x (K-1)` of type `f`, with the default
types of its internal variables; `none` is a table read out of bounds. `out.cvt r` is the assignment of the exact number `r` to an
element of the output array. The shift by `I - S` in the header needs `hI`. -/

namespace Props.SoftmaxOld
open Ac Model.Softmax

/-- **C40**, what holds for every vector: the outputs are the conversions of numbers that are not negative and are in the order of
the inputs. Missing: that they add up to 1, which `C40_total_wrong` refutes. -/
theorem C40_order_partial (q : QMode) {f : Fmt} (hW : 1 ≤ f.W) (hI : 0 ≤ f.I - (if f.S then 1 else 0 : ℤ)) (out : Fmt) {K : ℕ}
    {x : ℕ → ℚ} (hx : ∀ i < K, f.Rep (x i)) :
    ∃ r : ℕ → ℚ, softmax q f out K x = some ((List.range K).map fun i => out.cvt (r i)) ∧
      (∀ i < K, 0 ≤ r i) ∧ ∀ i < K, ∀ j < K, x i ≤ x j → r i ≤ r j := by
  obtain ⟨R, heq, hR, -⟩ := Proof.SoftmaxOld.softmax_eq q hW hI out hx
  refine ⟨_, heq, fun i _ => mul_nonneg hR (Proof.Pwl.trunc_nonneg _ (Proof.SoftmaxOld.E_pos _ _).le), fun i _ j _ h => ?_⟩
  exact mul_le_mul_of_nonneg_left (Proof.Pwl.trunc_mono _ (Proof.SoftmaxOld.E_mono h)) hR

example : softmax .TRN ⟨8, 5, true, .TRN, .WRAP⟩ ⟨16, 1, false, .TRN, .WRAP⟩ 3 (fun i => (i : ℚ) - 1 / 2) =
    some [737 / 8192, 8011 / 32768, 10909 / 16384] := by decide +kernel

/-- **C40**, total: if one of the inputs is at least -7, the numbers that are converted to the outputs add up to 1 within 1/500.
Missing: vectors whose inputs are all below -7. -/
theorem C40_total_partial (q : QMode) {f : Fmt} (hW : 1 ≤ f.W) (hI : 0 ≤ f.I - (if f.S then 1 else 0 : ℤ)) (out : Fmt) {K : ℕ}
    {x : ℕ → ℚ} (hx : ∀ i < K, f.Rep (x i)) (h7 : ∃ i < K, -7 ≤ x i) :
    ∃ r : ℕ → ℚ, softmax q f out K x = some ((List.range K).map fun i => out.cvt (r i)) ∧
      |∑ i ∈ Finset.range K, r i - 1| ≤ 1 / 500 ∧ ∀ i < K, ∀ j < K, x i ≤ x j → r i ≤ r j := by
  obtain ⟨R, heq, hR, hs⟩ := Proof.SoftmaxOld.softmax_eq q hW hI out hx
  refine ⟨_, heq, ?_, fun i _ j _ h => mul_le_mul_of_nonneg_left (Proof.Pwl.trunc_mono _ (Proof.SoftmaxOld.E_mono h)) hR⟩
  rw [← Finset.mul_sum, mul_comm]
  exact (hs (Proof.SoftmaxOld.sum_ne_zero hW hI hx h7)).2

/-- **C40**, accuracy: if one of the inputs is not negative and the type of the exponentials has at least `400 * K` steps to 1,
every output is the conversion of a number within 1/75 of the softmax. `hIu` is what the static assertion on the width asks for. -/
theorem C40_error_partial (q : QMode) {f : Fmt} (hW : 1 ≤ f.W) (hI : 0 ≤ f.I - (if f.S then 1 else 0 : ℤ))
    (hIu : f.I - (if f.S then 1 else 0 : ℤ) ≤ 5) (out : Fmt) {K : ℕ} (hKe : 400 * K ≤ 2 ^ defaultE f)
    {x : ℕ → ℚ} (hx : ∀ i < K, f.Rep (x i)) (h0 : ∃ i < K, 0 ≤ x i) :
    ∃ r : ℕ → ℚ, softmax q f out K x = some ((List.range K).map fun i => out.cvt (r i)) ∧
      ∀ i < K, |(r i : ℝ) - Real.exp (x i) / ∑ j ∈ Finset.range K, Real.exp (x j)| ≤ 1 / 75 := by
  obtain ⟨R, heq, hR, hs⟩ := Proof.SoftmaxOld.softmax_eq q hW hI out hx
  obtain ⟨h1, h2⟩ := hs (Proof.SoftmaxOld.sum_ne_zero hW hI hx (by obtain ⟨i, hi, h⟩ := h0; exact ⟨i, hi, by linarith⟩))
  exact ⟨_, heq, fun i hi => Proof.SoftmaxOld.softmax_err hW hI (by omega) hKe hx h0 h1 h2 hi⟩

example : (0 : ℤ) ≤ 5 - (if true then 1 else 0 : ℤ) ∧ 400 * 3 ≤ 2 ^ defaultE ⟨8, 5, true, .TRN, .WRAP⟩ := by decide

/-- **C40** is false of the code: the exponentials are not scaled by the greatest one. For the inputs -8 and -9 all of them are
truncated to 0, and so are the outputs; for -7 and -8 the outputs are 0.9985 and 0 (the softmax is 0.73 and 0.27). -/
theorem C40_total_wrong :
    softmax .TRN ⟨8, 5, true, .TRN, .WRAP⟩ ⟨16, 1, false, .TRN, .WRAP⟩ 2 (fun i => -(i : ℚ) - 8) = some [0, 0] ∧
    softmax .TRN ⟨8, 5, true, .TRN, .WRAP⟩ ⟨16, 1, false, .TRN, .WRAP⟩ 2 (fun i => -(i : ℚ) - 7) = some [2045 / 2048, 0] := by
  decide +kernel

end Props.SoftmaxOld
