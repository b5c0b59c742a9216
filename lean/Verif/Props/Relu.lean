import Verif.Model.Relu

/-! # C14: relu, leaky relu and prelu

`f.Rep x` says that `x` is a value of format `f`; `fo.cvt v` is the assignment of the exact number `v` to a variable of
format `fo`. -/

namespace Props.Relu
open Ac

theorem cvt_zero (f : Fmt) (hW : 1 ≤ f.W) : f.cvt (0 : ℚ) = 0 := by
  have h := Fmt.cvt_val (f := f) hW (r := 0) (by
    have := minRaw_nonpos f.W f.S
    cases f.O <;> simp only [loRaw] <;> (try split_ifs) <;> (try exact this) <;> (try linarith [maxRaw_nonneg f.W f.S]))
    (maxRaw_nonneg _ _)
  have e : f.val 0 = 0 := by unfold Fmt.val; simp
  rwa [e] at h

/-- **C14**, relu: every format, mode and input. -/
theorem C14_relu {fx fo : Fmt} (hx : 1 ≤ fx.W) (x : ℚ) : Model.Relu.relu fx fo x = fo.cvt (max x 0) := by
  unfold Model.Relu.relu
  split_ifs with h
  · rw [max_eq_left h.le]
  · rw [max_eq_right (not_lt.mp h), cvt_zero fx hx]

example : Model.Relu.relu ⟨8, 4, true, .TRN, .WRAP⟩ ⟨4, 2, false, .RND, .SAT⟩ (-5 / 4) = 0 := by
  rw [C14_relu (by decide)]; decide +kernel

/-- Relu into a saturating output is nonnegative. -/
theorem C14_relu_nonneg {fx fo : Fmt} (hx : 1 ≤ fx.W) (ho : 1 ≤ fo.W) (hO : fo.O = .SAT ∨ fo.O = .SAT_SYM) (x : ℚ) :
    0 ≤ Model.Relu.relu fx fo x := by
  rw [C14_relu hx]
  have := Fmt.cvt_mono hO (le_max_right x 0)
  rwa [cvt_zero fo ho] at this

/-- Without saturation it need not be: relu(4.0) into `ac_fixed<3,3,true>` is -4. -/
theorem C14_relu_wrap_negative : Model.Relu.relu ⟨8, 4, true, .TRN, .WRAP⟩ ⟨3, 3, true, .TRN, .WRAP⟩ 4 = -4 := by
  decide +kernel

/-- Relu into a saturating output is monotone. -/
theorem C14_relu_mono {fx fo : Fmt} (hx : 1 ≤ fx.W) (hO : fo.O = .SAT ∨ fo.O = .SAT_SYM) {x y : ℚ} (h : x ≤ y) :
    Model.Relu.relu fx fo x ≤ Model.Relu.relu fx fo y := by
  rw [C14_relu hx, C14_relu hx]
  exact Fmt.cvt_mono hO (max_le_max_right 0 h)

/-- Relu is idempotent: applied to its own output, in the output type, it changes nothing. -/
theorem C14_relu_idem {fx fo : Fmt} (hx : 1 ≤ fx.W) (ho : 1 ≤ fo.W) (hO : fo.O = .SAT ∨ fo.O = .SAT_SYM) (x : ℚ) :
    Model.Relu.relu fo fo (Model.Relu.relu fx fo x) = Model.Relu.relu fx fo x := by
  have hnn := C14_relu_nonneg hx ho hO x
  rw [C14_relu ho, max_eq_left hnn]
  rw [C14_relu hx]
  rw [C14_relu hx] at hnn
  obtain ⟨r, h0, h1, hr⟩ := Fmt.rep_cvt ho (max x 0)
  rw [hr]
  rw [hr] at hnn
  have hr0 : 0 ≤ r := by
    have e : fo.val 0 = 0 := by unfold Fmt.val; simp
    rw [← e, Fmt.val_le] at hnn; exact hnn
  apply Fmt.cvt_val ho _ h1
  have := minRaw_nonpos fo.W fo.S
  have := maxRaw_nonneg fo.W fo.S
  rcases hO with h | h <;> rw [h] <;> simp only [loRaw] <;> (try split_ifs) <;> linarith

example : Model.Relu.relu ⟨4, 2, true, .RND, .SAT⟩ ⟨4, 2, true, .RND, .SAT⟩
    (Model.Relu.relu ⟨8, 4, true, .TRN, .WRAP⟩ ⟨4, 2, true, .RND, .SAT⟩ (19 / 8)) = 7 / 4 := by
  rw [C14_relu_idem (by decide) (by decide) (Or.inl rfl)]; decide +kernel

/-- Relu keeps a nonnegative value that the output type can hold. -/
theorem C14_relu_id {fx fo : Fmt} (hx : 1 ≤ fx.W) (ho : 1 ≤ fo.W) (hO : fo.O ≠ .SAT_SYM) {x : ℚ} (h0 : 0 ≤ x)
    (hr : fo.Rep x) : Model.Relu.relu fx fo x = x := by
  rw [C14_relu hx, max_eq_left h0, Fmt.cvt_rep ho hO hr]

/-- **C14**, leaky relu: every format and mode; the product is not rounded before the assignment. -/
theorem C14_leakyrelu {fx fa fo : Fmt} (hx : 1 ≤ fx.W) (ha : 1 ≤ fa.W) {x alpha : ℚ} (hrx : fx.Rep x)
    (hra : fa.Rep alpha) :
    Model.Relu.leakyrelu fx fa fo x alpha = fo.cvt (if x > 0 then x else alpha * x) := by
  unfold Model.Relu.leakyrelu
  rw [Fmt.cvt_rep (by unfold Fmt.mult; simp only; omega) (by simp [Fmt.mult]) (Fmt.rep_mult ha hx hra hrx)]
  split_ifs <;> rfl

/-- **C14**, prelu. -/
theorem C14_prelu {fx fa fo : Fmt} (hx : 1 ≤ fx.W) (ha : 1 ≤ fa.W) {x alpha : ℚ} (hrx : fx.Rep x)
    (hra : fa.Rep alpha) :
    Model.Relu.prelu fx fa fo x alpha = fo.cvt (if x > 0 then x else alpha * x) := by
  unfold Model.Relu.prelu
  rw [Fmt.cvt_rep (by unfold Fmt.mult; simp only; omega) (by simp [Fmt.mult]) (Fmt.rep_mult ha hx hra hrx)]
  split_ifs <;> rfl

example : Model.Relu.leakyrelu ⟨8, 4, true, .TRN, .WRAP⟩ ⟨4, 0, false, .TRN, .WRAP⟩ ⟨9, 4, true, .RND, .SAT⟩
    (-5 / 4) (3 / 16) = -7 / 32 := by
  rw [C14_leakyrelu (by decide) (by decide)
    ⟨-20, by decide, by decide, by norm_num [Fmt.val, Fmt.F]⟩ ⟨3, by decide, by decide, by norm_num [Fmt.val, Fmt.F]⟩]
  decide +kernel

/-- For slopes of at most 1 leaky relu is the larger of the input and the scaled input. -/
theorem C14_leakyrelu_max {fx fa fo : Fmt} (hx : 1 ≤ fx.W) (ha : 1 ≤ fa.W) {x alpha : ℚ} (hrx : fx.Rep x)
    (hra : fa.Rep alpha) (h1 : alpha ≤ 1) :
    Model.Relu.leakyrelu fx fa fo x alpha = fo.cvt (max x (alpha * x)) := by
  rw [C14_leakyrelu hx ha hrx hra]
  split_ifs with h
  · rw [max_eq_left]
    have := mul_le_mul_of_nonneg_right h1 (le_of_lt h); linarith
  · rw [max_eq_right]
    have := mul_le_mul_of_nonpos_right h1 (not_lt.mp h); linarith

/-- For nonnegative slopes and saturating outputs leaky relu is monotone. -/
theorem C14_leakyrelu_mono {fx fa fo : Fmt} (hx : 1 ≤ fx.W) (ha : 1 ≤ fa.W) (hO : fo.O = .SAT ∨ fo.O = .SAT_SYM)
    {x y alpha : ℚ} (hrx : fx.Rep x) (hry : fx.Rep y) (hra : fa.Rep alpha) (h0 : 0 ≤ alpha) (h : x ≤ y) :
    Model.Relu.leakyrelu fx fa fo x alpha ≤ Model.Relu.leakyrelu fx fa fo y alpha := by
  rw [C14_leakyrelu hx ha hrx hra, C14_leakyrelu hx ha hry hra]
  apply Fmt.cvt_mono hO
  have hm := mul_le_mul_of_nonneg_left h h0
  split_ifs with c1 c2 c2
  · exact h
  · linarith
  · have := mul_nonpos_of_nonneg_of_nonpos h0 (not_lt.mp c1); linarith
  · exact hm

example : Model.Relu.leakyrelu ⟨8, 4, true, .TRN, .WRAP⟩ ⟨4, 0, false, .TRN, .WRAP⟩ ⟨9, 4, true, .RND, .SAT⟩
    (-5 / 4) (3 / 16) ≤
    Model.Relu.leakyrelu ⟨8, 4, true, .TRN, .WRAP⟩ ⟨4, 0, false, .TRN, .WRAP⟩ ⟨9, 4, true, .RND, .SAT⟩ 1 (3 / 16) :=
  C14_leakyrelu_mono (by decide) (by decide) (Or.inl rfl)
    ⟨-20, by decide, by decide, by norm_num [Fmt.val, Fmt.F]⟩ ⟨16, by decide, by decide, by norm_num [Fmt.val, Fmt.F]⟩
    ⟨3, by decide, by decide, by norm_num [Fmt.val, Fmt.F]⟩ (by norm_num) (by norm_num)

end Props.Relu
