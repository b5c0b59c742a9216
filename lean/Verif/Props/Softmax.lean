import Verif.Proof.SoftmaxErr

/-! # C36: softmax

`softmaxNew e l q f out K x junk` is the output array of `ac_softmax_pwl_new` for the `K` inputs `x 0 ... x (K-1)` of type `f`,
`none` for a table read out of bounds. `e` and `l` are the fraction bits of the exponentials and of the constant
log2(e), chosen by the caller or by default (`defaultE f` and 16); `junk` is what an uninitialized variable holds.
`out.cvt r` is the assignment of the exact number `r` to an element of the output array. The type of the integer parts needs
`0 ≤ f.I` to compile. -/

namespace Props.Softmax
open Ac Model.Softmax

/-- **C36**: for every number of classes and every vector of inputs the outputs are the conversions of numbers that are not
negative, add up to 1 within 1/500, and are in the order of the inputs. What the uninitialized variable holds does not
matter. -/
theorem C36_order_total {e : ℕ} (he : 1 ≤ e) (l : ℕ) (q : QMode) {f : Fmt} (hW : 1 ≤ f.W) (hI : 0 ≤ f.I) (out : Fmt) {K : ℕ}
    (hK : 1 ≤ K) {x : ℕ → ℚ} (hx : ∀ i < K, f.Rep (x i)) :
    ∃ r : ℕ → ℚ, (∀ junk, softmaxNew e l q f out K x junk = some ((List.range K).map fun i => out.cvt (r i))) ∧
      (∀ i < K, 0 ≤ r i) ∧ |∑ i ∈ Finset.range K, r i - 1| ≤ 1 / 500 ∧
      ∀ i < K, ∀ j < K, x i ≤ x j → r i ≤ r j := by
  obtain ⟨m, hm, R, hle, heq, hR, hs⟩ := Proof.Softmax.softmax_eq e he l q hW hI out hK hx 0
  refine ⟨fun i => Proof.Pwl.trunc e (Proof.Softmax.H l f (x i) * 2 ^ (-⌊Proof.Softmax.T l (x m)⌋)) * R, ?_, ?_, ?_, ?_⟩
  · intro junk
    rw [← heq]
    have hj : maxInt l f K x junk = maxInt l f K x 0 := by
      obtain ⟨a, i, hi, b⟩ := Proof.Softmax.maxInt_eq (l := l) hW hI hx hK junk
      obtain ⟨a', i', hi', b'⟩ := Proof.Softmax.maxInt_eq (l := l) hW hI hx hK 0
      have := a i' hi'
      have := a' i hi
      omega
    unfold softmaxNew
    rw [hj]
  · exact fun i _ => mul_nonneg (Proof.Pwl.trunc_nonneg _ (mul_nonneg (Proof.Softmax.H_pos _ _ _).le (Fmt.z_pos _).le)) hR.le
  · rw [← Finset.sum_mul]; exact hs
  · intro i _ j _ h
    exact mul_le_mul_of_nonneg_right (Proof.Pwl.trunc_mono _ (mul_le_mul_of_nonneg_right (Proof.Softmax.H_mono h)
      (Fmt.z_pos _).le)) hR.le

example : softmaxNew (defaultE ⟨8, 4, true, .TRN, .WRAP⟩) 16 .TRN ⟨8, 4, true, .TRN, .WRAP⟩ ⟨16, 1, false, .TRN, .WRAP⟩ 3
    (fun i => (i : ℚ) - 1 / 2) 7 = some [737 / 8192, 8009 / 32768, 5455 / 8192] ∧
    ∀ i : ℕ, i < 3 → (⟨8, 4, true, .TRN, .WRAP⟩ : Fmt).Rep ((i : ℚ) - 1 / 2) := by
  refine ⟨by decide +kernel, fun i hi => ⟨16 * i - 8, ?_, ?_, ?_⟩⟩
  · simp [minRaw]; omega
  · simp [maxRaw]; omega
  · simp [Fmt.val, Fmt.F]; ring

/-- **C36**, accuracy: with at least `400 * K` steps to 1 in the type of the exponentials, every output is the conversion of a
number within 1/100 of the softmax of the inputs scaled by `κ`. `κ` is 1 up to the precision of the constant log2(e). -/
theorem C36_error (l : ℕ) : ∃ κ : ℝ, |κ - 1| ≤ 1 / 2 ^ l + 1 / 10 ^ 9 ∧
    ∀ {e : ℕ} (_ : 1 ≤ e) (q : QMode) {f : Fmt} (_ : 1 ≤ f.W) (_ : 0 ≤ f.I) (out : Fmt) {K : ℕ} (_ : 1 ≤ K)
    (_ : 400 * K ≤ 2 ^ e) {x : ℕ → ℚ} (_ : ∀ i < K, f.Rep (x i)) (junk : ℤ),
    ∃ r : ℕ → ℚ, softmaxNew e l q f out K x junk = some ((List.range K).map fun i => out.cvt (r i)) ∧
      ∀ i < K, |(r i : ℝ) - Real.exp (κ * x i) / ∑ j ∈ Finset.range K, Real.exp (κ * x j)| ≤ 1 / 100 := by
  refine ⟨Proof.Softmax.scale l, Proof.Softmax.scale_err l, ?_⟩
  intro e he q f hW hI out K hK hKe x hx junk
  obtain ⟨m, hm, R, hle, heq, hR, hs⟩ := Proof.Softmax.softmax_eq e he l q hW hI out hK hx junk
  exact ⟨_, heq, fun i hi => Proof.Softmax.softmax_err hW hKe hx hm hR hs hi⟩

example : 400 * 5 ≤ 2 ^ defaultE ⟨8, 8, true, .TRN, .WRAP⟩ ∧ 400 * 300 ≤ 2 ^ defaultE ⟨16, 4, true, .TRN, .WRAP⟩ := by decide

end Props.Softmax
