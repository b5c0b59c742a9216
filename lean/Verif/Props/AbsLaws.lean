import Verif.Props.IntAlgos
import Verif.Props.Relu

/-! # C96: laws of the absolute value and of the rectifiers -/

namespace Props.AbsLaws
open Ac Model.Bits Model.Relu

/-- A word of `ac_int<W,true>`, or of `ac_fixed<W,I,true>` in units of its last place. -/
def Word (W : ℕ) (x : ℤ) : Prop := 1 ≤ W ∧ -2 ^ (W - 1) ≤ x ∧ x < 2 ^ (W - 1)

/-- The number a word of `ac_fixed<W,I,true>` stands for. -/
def num (W : ℕ) (I : ℤ) (x : ℤ) : ℚ := (Fmt.mk W I true .TRN .WRAP).val x

/-! ## Absolute value -/

/-- **C96**, the absolute value depends only on the magnitude of the number: not on its sign, and not on the width or the
binary point of its type. -/
theorem C96_abs_opposite {W W' : ℕ} {I I' : ℤ} (fY : Fmt) {x y : ℤ} (hx : Word W x) (hy : Word W' y)
    (h : num W I x = num W' I' y ∨ num W I x = -num W' I' y) : absFixed W I fY x = absFixed W' I' fY y := by
  rw [IntAlgos.C08_abs_fixed fY hx.1 hx.2.1 hx.2.2, IntAlgos.C08_abs_fixed fY hy.1 hy.2.1 hy.2.2]
  congr 1
  exact abs_eq_abs.2 h

example : Word 8 (-40) ∧ Word 10 160 ∧ num 8 4 (-40) = -num 10 4 160 ∧
    absFixed 8 4 ⟨6, 3, false, .TRN, .WRAP⟩ (-40) = 5 / 2 ∧ absFixed 10 4 ⟨6, 3, false, .TRN, .WRAP⟩ 160 = 5 / 2 :=
  ⟨⟨by decide, by decide⟩, ⟨by decide, by decide⟩, by decide +kernel, by decide +kernel, by decide +kernel⟩

/-- **C96**, the absolute value of the absolute value: the result, stored in a signed type, is its own absolute value. -/
theorem C96_abs_again {W W' : ℕ} {I I' : ℤ} (fY : Fmt) {x y : ℤ} (hx : Word W x) (hy : Word W' y) (h : num W' I' y = |num W I x|) :
    absFixed W' I' fY y = absFixed W I fY x :=
  C96_abs_opposite fY hy hx (by rw [h]; exact abs_choice _)

/-- **C96**, order: a number of larger magnitude has no smaller absolute value in a saturating output, whatever the types
of the two numbers. -/
theorem C96_abs_order {W W' : ℕ} {I I' : ℤ} {fY : Fmt} (hO : fY.O = .SAT ∨ fY.O = .SAT_SYM) {x y : ℤ} (hx : Word W x)
    (hy : Word W' y) (h : |num W I x| ≤ |num W' I' y|) : absFixed W I fY x ≤ absFixed W' I' fY y := by
  rw [IntAlgos.C08_abs_fixed fY hx.1 hx.2.1 hx.2.2, IntAlgos.C08_abs_fixed fY hy.1 hy.2.1 hy.2.2]
  exact Fmt.cvt_mono hO h

/-- A number and its absolute value in another type, and a number of larger magnitude. -/
example : Word 8 (-40) ∧ Word 10 160 ∧ num 10 4 160 = |num 8 4 (-40)| ∧ Word 6 (-30) ∧ |num 8 4 (-40)| ≤ |num 6 6 (-30)| ∧
    absFixed 8 4 ⟨6, 3, false, .TRN, .SAT⟩ (-40) = 5 / 2 ∧ absFixed 6 6 ⟨6, 3, false, .TRN, .SAT⟩ (-30) = 63 / 8 :=
  ⟨⟨by decide, by decide⟩, ⟨by decide, by decide⟩, by decide +kernel, ⟨by decide, by decide⟩, by decide +kernel,
   by decide +kernel, by decide +kernel⟩

/-- In an output that wraps the order is lost: 8 becomes 0 in three integer bits. -/
theorem C96_abs_order_wrong : absFixed 5 5 ⟨3, 3, false, .TRN, .WRAP⟩ (-8) = 0 ∧
    absFixed 5 5 ⟨3, 3, false, .TRN, .WRAP⟩ 7 = 7 := by decide +kernel

/-- **C96**, products and sums of integers: the absolute value of the full product is the product of the absolute values,
and that of the full sum at most their sum. -/
theorem C96_abs_int {W V : ℕ} {x y : ℤ} (hx : Word W x) (hy : Word V y) :
    absInt (W + V) (W + V) false (x * y) = absInt W W false x * absInt V V false y ∧
    absInt (max W V + 1) (max W V + 1) false (x + y) ≤ absInt W W false x + absInt V V false y := by
  obtain ⟨hW, a0, a1⟩ := hx
  obtain ⟨hV, b0, b1⟩ := hy
  have pW := two_pow_pos' (W - 1)
  have pV := two_pow_pos' (V - 1)
  rw [IntAlgos.C08_abs_unsigned hW le_rfl a0 a1, IntAlgos.C08_abs_unsigned hV le_rfl b0 b1]
  constructor
  · have ax : |x| ≤ 2 ^ (W - 1) := abs_le.2 ⟨a0, a1.le⟩
    have ay : |y| ≤ 2 ^ (V - 1) := abs_le.2 ⟨b0, b1.le⟩
    have hm : |x * y| ≤ 2 ^ (W - 1) * 2 ^ (V - 1) := by
      rw [abs_mul]; exact mul_le_mul ax ay (abs_nonneg _) pW.le
    have e : (2 : ℤ) ^ (W + V - 1) = 2 * (2 ^ (W - 1) * 2 ^ (V - 1)) := by
      rw [← pow_add, ← pow_succ']; congr 1; omega
    have hp := mul_pos pW pV
    obtain ⟨m0, m1⟩ := abs_le.1 hm
    rw [IntAlgos.C08_abs_unsigned (by omega) le_rfl (by rw [e]; linarith) (by rw [e]; linarith), abs_mul]
  · have e1 : (2 : ℤ) ^ (W - 1) ≤ 2 ^ (max W V - 1) := pow_le_pow_right₀ (by norm_num) (by omega)
    have e2 : (2 : ℤ) ^ (V - 1) ≤ 2 ^ (max W V - 1) := pow_le_pow_right₀ (by norm_num) (by omega)
    have e : (2 : ℤ) ^ (max W V + 1 - 1) = 2 * 2 ^ (max W V - 1) := by rw [← pow_succ']; congr 1; omega
    rw [IntAlgos.C08_abs_unsigned (by omega) le_rfl (by rw [e]; linarith) (by rw [e]; linarith)]
    exact abs_add_le x y

example : Word 4 (-8) ∧ Word 3 3 ∧ absInt 7 7 false (-8 * 3) = 24 ∧ absInt 4 4 false (-8) = 8 ∧ absInt 3 3 false 3 = 3 ∧
    absInt 5 5 false (-8 + 3) = 5 :=
  ⟨⟨by decide, by decide⟩, ⟨by decide, by decide⟩, by decide, by decide, by decide, by decide⟩

/-! ## Rectifiers -/

/-- An output type that holds the number exactly. -/
def Holds (f : Fmt) (v : ℚ) : Prop := f.cvt v = v

/-- **C96**, the rectifier and the absolute value: the rectified number and the rectified opposite add up to the absolute
value and differ by the number, for outputs that hold them. -/
theorem C96_relu_abs {fx fx' fo : Fmt} (hx : 1 ≤ fx.W) (hx' : 1 ≤ fx'.W) (ho : 1 ≤ fo.W) {x : ℚ} (h : Holds fo |x|) :
    relu fx fo x + relu fx' fo (-x) = |x| ∧ relu fx fo x - relu fx' fo (-x) = x := by
  rw [Relu.C14_relu hx, Relu.C14_relu hx']
  have h0 : fo.cvt (0 : ℚ) = 0 := Relu.cvt_zero fo ho
  unfold Holds at h
  rcases le_total 0 x with hp | hn
  · rw [abs_of_nonneg hp] at h ⊢
    rw [max_eq_left hp, max_eq_right (by linarith), h, h0]
    constructor <;> ring
  · rw [abs_of_nonpos hn] at h ⊢
    rw [max_eq_right hn, max_eq_left (by linarith), h, h0]
    constructor <;> ring

example : Holds ⟨8, 4, false, .TRN, .WRAP⟩ |(-5 / 2 : ℚ)| ∧
    relu ⟨8, 4, true, .TRN, .WRAP⟩ ⟨8, 4, false, .TRN, .WRAP⟩ (-(-5 / 2)) = 5 / 2 :=
  ⟨by unfold Holds; decide +kernel, by decide +kernel⟩

/-- **C96**, ac_prelu and ac_leakyrelu are the same function. -/
theorem C96_prelu_leakyrelu (fx fa fo : Fmt) (x a : ℚ) : prelu fx fa fo x a = leakyrelu fx fa fo x a := rfl

/-- **C96**, the slopes 0 and 1: the leaky rectifier is the rectifier, or the conversion to the output type. -/
theorem C96_slopes {fx fa fo : Fmt} (hx : 1 ≤ fx.W) (ha : 1 ≤ fa.W) {x : ℚ} (hrx : fx.Rep x) :
    (fa.Rep 0 → leakyrelu fx fa fo x 0 = relu fx fo x) ∧ (fa.Rep 1 → leakyrelu fx fa fo x 1 = fo.cvt x) := by
  constructor
  · intro hr
    rw [Relu.C14_leakyrelu hx ha hrx hr, Relu.C14_relu hx]
    congr 1
    split_ifs with h
    · rw [max_eq_left h.le]
    · rw [max_eq_right (not_lt.1 h), zero_mul]
  · intro hr
    rw [Relu.C14_leakyrelu hx ha hrx hr]
    congr 1
    split_ifs <;> ring

/-- A negative number with the slopes 0 and 1 of the type `ac_fixed<8,2,false>`. -/
example : let fx : Fmt := ⟨8, 4, true, .TRN, .WRAP⟩
    let fa : Fmt := ⟨8, 2, false, .TRN, .WRAP⟩
    fx.Rep (-5 / 2) ∧ fa.Rep 0 ∧ fa.Rep 1 ∧ leakyrelu fx fa fx (-5 / 2) 0 = 0 ∧ leakyrelu fx fa fx (-5 / 2) 1 = -5 / 2 :=
  ⟨⟨-40, by decide, by decide, by decide +kernel⟩, ⟨0, by decide, by decide, by decide +kernel⟩,
   ⟨64, by decide, by decide, by decide +kernel⟩, by decide +kernel, by decide +kernel⟩

/-- **C96**, reciprocal slopes undo each other: the leaky rectifier with a positive slope, followed by the one with the
reciprocal slope, gives the number back, if the types hold the results. -/
theorem C96_inverse {fx fa fm fb fo : Fmt} (hx : 1 ≤ fx.W) (ha : 1 ≤ fa.W) (hm : 1 ≤ fm.W) (hb : 1 ≤ fb.W) {x a : ℚ}
    (hrx : fx.Rep x) (hra : fa.Rep a) (hrb : fb.Rep a⁻¹) (h0 : 0 < a) (hh : Holds fm (if x > 0 then x else a * x))
    (ho : Holds fo x) : leakyrelu fm fb fo (leakyrelu fx fa fm x a) a⁻¹ = x := by
  have h1 := Relu.C14_leakyrelu (fo := fm) hx ha hrx hra
  have hr : fm.Rep (leakyrelu fx fa fm x a) := by rw [h1]; exact Fmt.rep_cvt hm _
  have h1' : leakyrelu fx fa fm x a = if x > 0 then x else a * x := h1.trans hh
  rw [Relu.C14_leakyrelu hm hb hr hrb, h1']
  unfold Holds at ho
  by_cases h : x > 0
  · rw [if_pos h, if_pos h]; exact ho
  · rw [if_neg h, if_neg (not_lt.2 (mul_nonpos_of_nonneg_of_nonpos h0.le (not_lt.1 h))), ← mul_assoc,
      inv_mul_cancel₀ (ne_of_gt h0), one_mul]
    exact ho

example : let fx : Fmt := ⟨8, 4, true, .TRN, .WRAP⟩
    let fm : Fmt := ⟨12, 4, true, .TRN, .WRAP⟩
    let fb : Fmt := ⟨8, 5, false, .TRN, .WRAP⟩
    Holds fm (if (-5 / 2 : ℚ) > 0 then -5 / 2 else 1 / 4 * (-5 / 2)) ∧ Holds fx (-5 / 2) ∧
    leakyrelu fm fb fx (leakyrelu fx ⟨8, 1, false, .TRN, .WRAP⟩ fm (-5 / 2) (1 / 4)) 4 = -5 / 2 :=
  ⟨by unfold Holds; decide +kernel, by unfold Holds; decide +kernel, by decide +kernel⟩

/-- **C96**, slopes of equal sign and composition: two leaky rectifiers in sequence are the one with the product of the
slopes, if the intermediate type holds the first result and the slopes are not negative. -/
theorem C96_compose {fx fa fm fb fo fc : Fmt} (hx : 1 ≤ fx.W) (ha : 1 ≤ fa.W) (hm : 1 ≤ fm.W) (hb : 1 ≤ fb.W)
    (hc : 1 ≤ fc.W) {x a b : ℚ} (hrx : fx.Rep x) (hra : fa.Rep a) (hrb : fb.Rep b) (hrc : fc.Rep (b * a)) (h0 : 0 ≤ a)
    (hh : Holds fm (if x > 0 then x else a * x)) :
    leakyrelu fm fb fo (leakyrelu fx fa fm x a) b = leakyrelu fx fc fo x (b * a) := by
  have h1 := Relu.C14_leakyrelu (fo := fm) hx ha hrx hra
  have hr : fm.Rep (leakyrelu fx fa fm x a) := by rw [h1]; exact Fmt.rep_cvt hm _
  have h1' : leakyrelu fx fa fm x a = if x > 0 then x else a * x := h1.trans hh
  rw [Relu.C14_leakyrelu hm hb hr hrb, h1', Relu.C14_leakyrelu hx hc hrx hrc]
  congr 1
  by_cases h : x > 0
  · simp only [if_pos h]
  · rw [if_neg h, if_neg (not_lt.2 (mul_nonpos_of_nonneg_of_nonpos h0 (not_lt.1 h))), if_neg h, mul_assoc]

/-- Slopes 1/4 and 1/2 meet the hypotheses. -/
example : let f : Fmt := ⟨12, 4, true, .TRN, .WRAP⟩
    f.Rep (-5 / 2) ∧ f.Rep (1 / 4) ∧ f.Rep (1 / 2) ∧ f.Rep (1 / 2 * (1 / 4)) ∧
    Holds f (if (-5 / 2 : ℚ) > 0 then -5 / 2 else 1 / 4 * (-5 / 2)) ∧ leakyrelu f f f (-5 / 2) (1 / 2 * (1 / 4)) = -5 / 16 :=
  ⟨⟨-640, by decide, by decide, by decide +kernel⟩, ⟨64, by decide, by decide, by decide +kernel⟩,
   ⟨128, by decide, by decide, by decide +kernel⟩, ⟨32, by decide, by decide, by decide +kernel⟩,
   by unfold Holds; decide +kernel, by decide +kernel⟩

/-- A negative slope changes the sign of negative numbers, and the composition is another function: -2 with the slopes -1
and 1/2 becomes 2, with the slope -1/2 it becomes 1. -/
theorem C96_compose_wrong : let f : Fmt := ⟨8, 4, true, .TRN, .WRAP⟩
    leakyrelu f f f (leakyrelu f f f (-2) (-1)) (1 / 2) = 2 ∧ leakyrelu f f f (-2) (1 / 2 * -1) = 1 := by decide +kernel

end Props.AbsLaws
