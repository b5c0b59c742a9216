import Verif.Proof.Tan
import Mathlib.Analysis.Real.Pi.Bounds

/-! # C44: PWL tangent

`tan q f out x` is the output of `ac_tan_pwl<q>` for the input `x` of type `f` and an output of type `out`, `none` for a table
read out of bounds.  `out.cvt r` is the assignment of the exact number `r` to the output; `Real.tan` and `Real.arctan` are
Mathlib's. -/

namespace Props.Tan
open Ac Model.Tan

/-- Input types for which the function compiles: its intermediate input type has at least one bit. -/
def Compiles (f : Fmt) : Prop := 1 ≤ min f.I 1 + (min 19 (f.W - f.I) + (if 0 ≤ f.I then 1 else 0))

/-- Input types of which the intermediate type, with the same rounding and overflow modes and at most 20 fraction bits, does
not wrap: the type truncates, saturates, has an integer bit, or has at most 19 fraction bits. -/
def Fits (f : Fmt) : Prop :=
  f.Q = .TRN ∨ f.Q = .TRN_ZERO ∨ f.O = .SAT ∨ f.O = .SAT_SYM ∨ 1 ≤ f.I ∨ f.W - f.I ≤ 19

/-- **C44**, table safety: no input, in no format, makes the function read outside its tables. -/
theorem C44_in_table (q : QMode) (f out : Fmt) (x : ℚ) : (tan q f out x).isSome := Proof.Tan.tan_isSome q f out x

example : tan .TRN ⟨16, 2, false, .TRN, .WRAP⟩ ⟨20, 8, false, .TRN, .WRAP⟩ (3 / 2) = some (7477 / 512) ∧
    tan .TRN ⟨16, 0, false, .TRN, .WRAP⟩ ⟨20, 8, false, .TRN, .WRAP⟩ (3 / 4) = some (239 / 256) := by
  decide +kernel

/-- **C44**, error and order. Up to 1.556640625 the output is the conversion of a nonnegative number `r` (`r'`) that is the
tangent of an angle within 1/668 of the input below 804/1024 and within 1/210 above, and is not smaller for a larger input,
also across 804/1024. Missing: input types that do not fit, for which `C44_wrap_wrong` shows that the statement is false. -/
theorem C44_tan_partial (q : QMode) {f : Fmt} (out : Fmt) (hS : f.S = false) (hw : Compiles f) (hf : Fits f) {x x' : ℚ}
    (hx : f.Rep x) (hx' : f.Rep x') (hs : x < 1.556640625) (hs' : x' < 1.556640625) :
    ∃ r r' : ℚ, tan q f out x = some (out.cvt r) ∧ tan q f out x' = some (out.cvt r') ∧ 0 ≤ r ∧
    (x < 804 / 1024 → |Real.arctan r - x| ≤ 1 / 668) ∧ (804 / 1024 ≤ x → |Real.arctan r - x| ≤ 1 / 210) ∧
    (x ≤ x' → r ≤ r') := by
  obtain ⟨r, r', a, b, c, d, -, e⟩ := Proof.Tan.spec q out hS hw hf hx hx' (by norm_num at hs ⊢; exact hs)
    (by norm_num at hs' ⊢; exact hs')
  refine ⟨r, r', a, b, c, fun h => ?_, fun h => ?_, e⟩
  · rwa [if_neg (fun c => absurd c.2 (by linarith))] at d
  · refine le_trans d ?_
    split_ifs <;> norm_num

example : Compiles ⟨32, 0, false, .RND, .SAT⟩ ∧ Fits ⟨32, 0, false, .RND, .SAT⟩ ∧ Compiles ⟨16, 2, false, .RND, .WRAP⟩ ∧
    Fits ⟨16, 2, false, .RND, .WRAP⟩ ∧ (⟨16, 2, false, .RND, .WRAP⟩ : Fmt).Rep (3 / 2) := by
  refine ⟨by unfold Compiles; decide, by unfold Fits; decide, by unfold Compiles; decide, by unfold Fits; decide,
    ⟨24576, by decide, by decide, by decide +kernel⟩⟩

/-- **C44**, the error of the value itself, below an eighth of a turn: at most 1/334, plus one unit of the output when the
output type can hold 1. -/
theorem C44_small_partial (q : QMode) {f out : Fmt} (hS : f.S = false) (hw : Compiles f) (hf : Fits f) (ho : 1 ≤ out.W)
    (hm : 1 ≤ out.maxVal) {x : ℚ} (hx : f.Rep x) (hs : x < 804 / 1024) :
    ∃ y : ℚ, tan q f out x = some y ∧ |(y : ℝ) - Real.tan x| < 1 / 334 + 2 ^ (-out.F) := by
  have hne : ¬ exceeds f x := fun c => absurd c.2 (by linarith)
  obtain ⟨r, -, a, -, c, d, g, -⟩ := Proof.Tan.spec q out hS hw hf hx hx (by linarith) (by linarith)
  rw [if_neg hne] at d
  have g := g hne
  have x0 : (0 : ℝ) ≤ x := by exact_mod_cast (Proof.Tan.rep_lt hS hx).1
  have x1 : (x : ℝ) < Real.pi / 4 := by
    have h1 : (x : ℝ) < ((804 / 1024 : ℚ) : ℝ) := Rat.cast_lt.2 hs
    have h2 := Real.pi_gt_d6
    push_cast at h1
    linarith
  have hpi := Real.pi_pos
  have hat : Real.arctan (Real.tan x) = x := Real.arctan_tan (by linarith) (by linarith)
  have t0 : 0 ≤ Real.tan x := Real.tan_nonneg_of_nonneg_of_le_pi_div_two x0 (by linarith)
  have t1 : Real.tan x ≤ 1 := by
    rw [← Real.tan_pi_div_four]
    exact (Real.tan_lt_tan_of_lt_of_lt_pi_div_two (by linarith) (by linarith) x1).le
  have fw := Proof.Tan.forward (r := r) (t := Real.tan x) (e := 1 / 668) (by exact_mod_cast c) (by exact_mod_cast g) t0 t1
    (by rw [hat]; exact d)
  refine ⟨_, a, ?_⟩
  have hz := Fmt.z_pos out.F
  have hmax : r * 2 ^ out.F ≤ maxRaw out.W out.S := by
    have := mul_le_mul_of_nonneg_right (le_trans g hm) hz.le
    unfold Fmt.maxVal at this
    rwa [Fmt.val_mul_pow] at this
  have hlo : ((loRaw out.W out.S out.O : ℤ) : ℚ) ≤ r * 2 ^ out.F := by
    have : ((loRaw out.W out.S out.O : ℤ) : ℚ) ≤ 0 := by exact_mod_cast loRaw_nonpos _ _ _
    have : 0 ≤ r * 2 ^ out.F := mul_nonneg c hz.le
    linarith
  have e1 := Fmt.cvt_err ho hlo hmax
  have e2 : |out.cvt r - r| < 2 ^ (-out.F) := by simpa using e1
  have e3 := Rat.cast_lt (K := ℝ) |>.2 e2
  rw [Rat.cast_abs, Rat.cast_sub] at e3
  push_cast at e3
  calc |((out.cvt r : ℚ) : ℝ) - Real.tan x| = |(((out.cvt r : ℚ) : ℝ) - r) + (r - Real.tan x)| := by ring_nf
    _ ≤ |((out.cvt r : ℚ) : ℝ) - r| + |r - Real.tan x| := abs_add_le _ _
    _ < _ := by linarith

example : Compiles ⟨16, -3, false, .RND, .WRAP⟩ ∧ Fits ⟨16, -3, false, .RND, .WRAP⟩ ∧
    (1 : ℚ) ≤ (⟨12, 1, false, .TRN, .WRAP⟩ : Fmt).maxVal := by
  refine ⟨by unfold Compiles; decide, by unfold Fits; decide, by decide +kernel⟩

/-- **C44**, saturation: from 1.556640625 on, about 89.2 degrees, the output is the largest value of its type. -/
theorem C44_saturation (q : QMode) (f out : Fmt) {x : ℚ} (hs : 1.556640625 ≤ x) : tan q f out x = some out.maxVal := by
  obtain ⟨y, hy⟩ := Option.isSome_iff_exists.1 (C44_in_table q f out x)
  rw [hy]
  unfold tan at hy
  have h : 1594 / 1024 ≤ x := by norm_num at hs ⊢; exact hs
  simp only [h, if_true, Option.bind_eq_bind] at hy
  obtain ⟨a, -, hy⟩ := Option.bind_eq_some_iff.1 hy
  split_ifs at hy
  · obtain ⟨b, -, hy⟩ := Option.bind_eq_some_iff.1 hy
    exact hy.symm
  · exact hy.symm

example : tan .TRN ⟨16, 2, false, .TRN, .WRAP⟩ ⟨20, 8, false, .TRN, .WRAP⟩ 3 = some (1048575 / 4096) := by decide +kernel

/-- **C44**, a saturating output keeps the order: a larger input never gets a smaller output. -/
theorem C44_output_mono_partial (q : QMode) {f out : Fmt} (hS : f.S = false) (hw : Compiles f) (hf : Fits f)
    (ho : 1 ≤ out.W) (hO : out.O = .SAT ∨ out.O = .SAT_SYM) {x x' : ℚ} (hx : f.Rep x) (hx' : f.Rep x') (h : x ≤ x') :
    ∃ y y', tan q f out x = some y ∧ tan q f out x' = some y' ∧ y ≤ y' := by
  rcases lt_or_ge x' 1.556640625 with h1 | h1
  · obtain ⟨r, r', a, b, -, -, -, e⟩ := C44_tan_partial q out hS hw hf hx hx' (by linarith) h1
    exact ⟨_, _, a, b, Fmt.cvt_mono hO (e h)⟩
  · rcases lt_or_ge x 1.556640625 with h2 | h2
    · obtain ⟨r, -, a, -, -, -, -, -⟩ := C44_tan_partial q out hS hw hf hx hx h2 h2
      refine ⟨_, _, a, C44_saturation q f out h1, ?_⟩
      unfold Fmt.maxVal Fmt.cvt
      rw [Fmt.val_le]
      exact (ovf_range ho _ _).2
    · exact ⟨_, _, C44_saturation q f out h2, C44_saturation q f out h1, le_rfl⟩

example : tan .TRN ⟨16, 2, false, .TRN, .WRAP⟩ ⟨10, 2, false, .TRN, .SAT⟩ (3 / 2) = some (1023 / 256) := by decide +kernel

/-- **C44**, refuted for rounding and wrapping input types without integer bits and with many fraction bits: the largest
inputs are rounded up in the intermediate type and wrap to 0, so that their tangent is 0: of 1 - 2^-32 (tangent 1.56) as
`ac_fixed<32,0,false,AC_RND,AC_WRAP>` and of 1/2 - 2^-33 (tangent 0.55) as `ac_fixed<32,-1,false,AC_RND,AC_WRAP>`. -/
theorem C44_wrap_wrong :
    tan .TRN ⟨32, 0, false, .RND, .WRAP⟩ ⟨20, 8, false, .TRN, .WRAP⟩ (1 - 1 / 2 ^ 32) = some 0 ∧
    tan .TRN ⟨32, -1, false, .RND, .WRAP⟩ ⟨20, 8, false, .TRN, .WRAP⟩ (1 / 2 - 1 / 2 ^ 33) = some 0 ∧
    (⟨32, 0, false, .RND, .WRAP⟩ : Fmt).Rep (1 - 1 / 2 ^ 32) ∧ (⟨32, -1, false, .RND, .WRAP⟩ : Fmt).Rep (1 / 2 - 1 / 2 ^ 33) ∧
    Compiles ⟨32, 0, false, .RND, .WRAP⟩ ∧ Compiles ⟨32, -1, false, .RND, .WRAP⟩ := by
  refine ⟨by decide +kernel, by decide +kernel, ⟨2 ^ 32 - 1, by decide, by decide, by decide +kernel⟩,
    ⟨2 ^ 32 - 1, by decide, by decide, by decide +kernel⟩, by unfold Compiles; decide, by unfold Compiles; decide⟩

end Props.Tan
