import Verif.Proof.HcordicPow

/-! # C52: logarithms by hyperbolic CORDIC

`log tf tq f out x` and `log2 tf tq f out x` are the outputs of `ac_log_cordic` and `ac_log2_cordic` for the argument `x` of the
unsigned type `f` and an output of type `out`; `none` would be a table read out of bounds. `tf` is `some TF_` if the template
parameter `OR_TF` overrides the widths of the temporaries with `TF_`, `tq` is the template parameter `TQ`. The number of fraction
bits of the temporaries is the one of the output, or `TF_`; the static assertions of the file limit it, and the width of the
argument, to 44. -/

namespace Props.HcordicLog
open Ac Model.Hcordic Proof.Hcordic

/-- Fraction bits of the temporaries. -/
def bits (tf : Option ℕ) (out : Fmt) : ℕ := tf.getD out.F.toNat

/-- The error of the base 2 logarithm, in units of the last place of the temporaries. -/
def ulps2 (tf : Option ℕ) : ℝ := if tf.isSome then 8 else 5

/-- The error of the natural logarithm of `x`, in units of the last place of the temporaries. -/
noncomputable def ulpsE (tf : Option ℕ) (x : ℝ) : ℝ := 6 + 51 / 100 * |Real.logb 2 x| + if tf.isSome then 2 else 0

/-- **C52**, table safety: no argument, not even zero, in no format that passes the static assertions, makes the functions read
outside their tables. -/
theorem C52_in_table (tf : Option ℕ) (tq : QMode) (f out : Fmt) (h1 : tf.getD f.W ≤ 44) (h2 : bits tf out ≤ 44) (x : ℚ) :
    (log tf tq f out x).isSome ∧ (log2 tf tq f out x).isSome :=
  ⟨log_some tf tq f out h1 h2 x, log2_some tf tq f out h1 h2 x⟩

example : log2 none .TRN ⟨16, 8, false, .TRN, .WRAP⟩ ⟨24, 8, true, .TRN, .WRAP⟩ (5 / 2) = some (43317 / 32768) := by decide +kernel

theorem down_or {tq : QMode} {tf : Option ℕ} (h : tq = .TRN ∨ tq = .TRN_ZERO ∨ tf = none) : down tq = true ∨ tf = none := by
  rcases h with h | h | h
  · left; rw [h]; rfl
  · left; rw [h]; rfl
  · exact Or.inr h

theorem ulps2_eq (tf : Option ℕ) : 5 + cutCost tf 3 = ulps2 tf := by
  unfold cutCost ulps2; split_ifs <;> norm_num

/-- **C52**, base 2, signed output: if the output type holds the logarithm, the output is within 5 units of the temporaries (8 if
their widths are overridden) and one unit of the output of it. Missing for the full claim: output types that do not hold the
logarithm, for which a saturating output type does not saturate (`C52_saturation_wrong`), and roundings up of overridden
temporaries, for which it is false (`C52_round_wrong`). -/
theorem C52_log2_partial {tf : Option ℕ} {tq : QMode} {f out : Fmt} (hW : 1 ≤ f.W) (hS : f.S = false) (ho : 1 ≤ out.W) (hSo : out.S = true)
    (h44 : max (tf.getD f.W) (bits tf out) ≤ 44) (hp1 : 1 ≤ tf.getD f.W)
    (hq : tq = .TRN ∨ tq = .TRN_ZERO ∨ tf = none) {x : ℚ} (hx : f.Rep x) (hx0 : 0 < x)
    (hr : |Real.logb 2 x| + ulps2 tf / 2 ^ bits tf out ≤ out.maxVal) :
    ∃ z : ℚ, log2 tf tq f out x = some z ∧ |(z : ℝ) - Real.logb 2 x| ≤ ulps2 tf / 2 ^ bits tf out + 2 ^ (-out.F) := by
  obtain ⟨r, r1, r2, -⟩ := log2_eq hW hS (show fbits tf out.F.toNat = bits tf out from rfl) h44 hp1 (down_or hq) hx hx0
  rw [ulps2_eq] at r2
  exact ⟨_, r1, out_signed ho hSo r2 hr⟩

/-- **C52**, base 2, unsigned output: the same, with zero in place of a negative logarithm. -/
theorem C52_log2_unsigned_partial {tf : Option ℕ} {tq : QMode} {f out : Fmt} (hW : 1 ≤ f.W) (hS : f.S = false) (ho : 1 ≤ out.W)
    (hSo : out.S = false) (h44 : max (tf.getD f.W) (bits tf out) ≤ 44) (hp1 : 1 ≤ tf.getD f.W)
    (hq : tq = .TRN ∨ tq = .TRN_ZERO ∨ tf = none) {x : ℚ} (hx : f.Rep x) (hx0 : 0 < x)
    (hr : Real.logb 2 x + ulps2 tf / 2 ^ bits tf out ≤ out.maxVal) :
    ∃ z : ℚ, log2 tf tq f out x = some z ∧ |(z : ℝ) - max 0 (Real.logb 2 x)| ≤ ulps2 tf / 2 ^ bits tf out + 2 ^ (-out.F) := by
  obtain ⟨r, r1, r2, -⟩ := log2_eq hW hS (show fbits tf out.F.toNat = bits tf out from rfl) h44 hp1 (down_or hq) hx hx0
  rw [ulps2_eq] at r2
  exact ⟨_, r1, out_unsigned ho hSo r2 hr⟩

/-- **C52**, base e, signed output: if the output type holds the logarithm, the output is within 6 units of the temporaries (8 if
their widths are overridden), half a unit for each factor of two between the argument and one, and one unit of the output of it.
Missing: as for base 2. -/
theorem C52_log_partial {tf : Option ℕ} {tq : QMode} {f out : Fmt} (hW : 1 ≤ f.W) (hS : f.S = false) (ho : 1 ≤ out.W) (hSo : out.S = true)
    (h44 : max (tf.getD f.W) (bits tf out) ≤ 44) (hp1 : 1 ≤ tf.getD f.W)
    (hq : tq = .TRN ∨ tq = .TRN_ZERO ∨ tf = none) {x : ℚ} (hx : f.Rep x) (hx0 : 0 < x)
    (hr : |Real.log x| + ulpsE tf x / 2 ^ bits tf out ≤ out.maxVal) :
    ∃ z : ℚ, log tf tq f out x = some z ∧ |(z : ℝ) - Real.log x| ≤ ulpsE tf x / 2 ^ bits tf out + 2 ^ (-out.F) := by
  obtain ⟨r, r1, r2⟩ := log_eq hW hS (show fbits tf out.F.toNat = bits tf out from rfl) h44 hp1 (down_or hq) hx hx0
  exact ⟨_, r1, out_signed ho hSo r2 hr⟩

/-- **C52**, base e, unsigned output: the same, with zero in place of a negative logarithm. -/
theorem C52_log_unsigned_partial {tf : Option ℕ} {tq : QMode} {f out : Fmt} (hW : 1 ≤ f.W) (hS : f.S = false) (ho : 1 ≤ out.W)
    (hSo : out.S = false) (h44 : max (tf.getD f.W) (bits tf out) ≤ 44) (hp1 : 1 ≤ tf.getD f.W)
    (hq : tq = .TRN ∨ tq = .TRN_ZERO ∨ tf = none) {x : ℚ} (hx : f.Rep x) (hx0 : 0 < x)
    (hr : Real.log x + ulpsE tf x / 2 ^ bits tf out ≤ out.maxVal) :
    ∃ z : ℚ, log tf tq f out x = some z ∧ |(z : ℝ) - max 0 (Real.log x)| ≤ ulpsE tf x / 2 ^ bits tf out + 2 ^ (-out.F) := by
  obtain ⟨r, r1, r2⟩ := log_eq hW hS (show fbits tf out.F.toNat = bits tf out from rfl) h44 hp1 (down_or hq) hx hx0
  exact ⟨_, r1, out_unsigned ho hSo r2 hr⟩

theorem log52 : 1 / 2 ≤ Real.log (5 / 2) ∧ Real.log (5 / 2) ≤ 3 / 2 ∧ 0 ≤ Real.logb 2 (5 / 2) ∧ Real.logb 2 (5 / 2) ≤ 2 := by
  have h0 := Real.one_sub_inv_le_log_of_pos (show (0 : ℝ) < 5 / 2 by norm_num)
  have h1 := Real.log_le_sub_one_of_pos (show (0 : ℝ) < 5 / 2 by norm_num)
  refine ⟨by norm_num at h0 ⊢; linarith, by norm_num at h1 ⊢; linarith, Real.logb_nonneg (by norm_num) (by norm_num), ?_⟩
  rw [Real.logb_le_iff_le_rpow (by norm_num) (by norm_num)]
  norm_num

theorem rep52 : (⟨16, 8, false, .TRN, .WRAP⟩ : Fmt).Rep (5 / 2) := ⟨640, by decide, by decide, by norm_num [Fmt.val, Fmt.F]⟩

example : ∃ z : ℚ, log2 none .TRN ⟨16, 8, false, .TRN, .WRAP⟩ ⟨24, 8, true, .TRN, .WRAP⟩ (5 / 2) = some z ∧
    |(z : ℝ) - Real.logb 2 ((5 / 2 : ℚ) : ℝ)| ≤ 5 / 2 ^ 16 + 2 ^ (-(16 : ℤ)) := by
  have h := C52_log2_partial (tf := none) (tq := .TRN) (f := ⟨16, 8, false, .TRN, .WRAP⟩) (out := ⟨24, 8, true, .TRN, .WRAP⟩)
    (by norm_num) rfl (by norm_num) rfl (by norm_num [bits, Fmt.F]) (by norm_num) (Or.inl rfl) rep52 (by norm_num)
    (by
      obtain ⟨-, -, h0, h1⟩ := log52
      have e : (((5 / 2 : ℚ) : ℚ) : ℝ) = 5 / 2 := by norm_num
      rw [e, abs_of_nonneg h0]
      norm_num [bits, ulps2, Fmt.F, Fmt.maxVal, Fmt.val, maxRaw]
      rw [show Int.toNat 16 = 16 from rfl]
      linarith)
  exact h

example : ∃ z : ℚ, log2 none .TRN ⟨16, 8, false, .TRN, .WRAP⟩ ⟨24, 8, false, .TRN, .WRAP⟩ (5 / 2) = some z ∧
    |(z : ℝ) - max 0 (Real.logb 2 ((5 / 2 : ℚ) : ℝ))| ≤ 5 / 2 ^ 16 + 2 ^ (-(16 : ℤ)) := by
  have h := C52_log2_unsigned_partial (tf := none) (tq := .TRN) (f := ⟨16, 8, false, .TRN, .WRAP⟩) (out := ⟨24, 8, false, .TRN, .WRAP⟩)
    (by norm_num) rfl (by norm_num) rfl (by norm_num [bits, Fmt.F]) (by norm_num) (Or.inl rfl) rep52 (by norm_num)
    (by
      obtain ⟨-, -, h0, h1⟩ := log52
      have e : (((5 / 2 : ℚ) : ℚ) : ℝ) = 5 / 2 := by norm_num
      rw [e]
      norm_num [bits, ulps2, Fmt.F, Fmt.maxVal, Fmt.val, maxRaw]
      rw [show Int.toNat 16 = 16 from rfl]
      linarith)
  exact h

example : ∃ z : ℚ, log (some 20) .TRN ⟨16, 8, false, .TRN, .WRAP⟩ ⟨24, 8, true, .TRN, .WRAP⟩ (5 / 2) = some z ∧
    |(z : ℝ) - Real.log ((5 / 2 : ℚ) : ℝ)| ≤ ulpsE (some 20) ((5 / 2 : ℚ) : ℝ) / 2 ^ 20 + 2 ^ (-(16 : ℤ)) := by
  have h := C52_log_partial (tf := some 20) (tq := .TRN) (f := ⟨16, 8, false, .TRN, .WRAP⟩) (out := ⟨24, 8, true, .TRN, .WRAP⟩)
    (by norm_num) rfl (by norm_num) rfl (by norm_num [bits, Fmt.F]) (by norm_num) (Or.inl rfl) rep52 (by norm_num)
    (by
      obtain ⟨h2, h3, h0, h1⟩ := log52
      have e : (((5 / 2 : ℚ) : ℚ) : ℝ) = 5 / 2 := by norm_num
      rw [e, abs_of_nonneg (by linarith)]
      unfold ulpsE
      rw [abs_of_nonneg h0]
      norm_num [bits, Fmt.F, Fmt.maxVal, Fmt.val, maxRaw]
      linarith)
  exact h

example : ∃ z : ℚ, log (some 20) .TRN ⟨16, 8, false, .TRN, .WRAP⟩ ⟨24, 8, false, .TRN, .WRAP⟩ (5 / 2) = some z ∧
    |(z : ℝ) - max 0 (Real.log ((5 / 2 : ℚ) : ℝ))| ≤ ulpsE (some 20) ((5 / 2 : ℚ) : ℝ) / 2 ^ 20 + 2 ^ (-(16 : ℤ)) := by
  have h := C52_log_unsigned_partial (tf := some 20) (tq := .TRN) (f := ⟨16, 8, false, .TRN, .WRAP⟩) (out := ⟨24, 8, false, .TRN, .WRAP⟩)
    (by norm_num) rfl (by norm_num) rfl (by norm_num [bits, Fmt.F]) (by norm_num) (Or.inl rfl) rep52 (by norm_num)
    (by
      obtain ⟨h2, h3, h0, h1⟩ := log52
      have e : (((5 / 2 : ℚ) : ℚ) : ℝ) = 5 / 2 := by norm_num
      rw [e]
      unfold ulpsE
      rw [abs_of_nonneg h0]
      norm_num [bits, Fmt.F, Fmt.maxVal, Fmt.val, maxRaw]
      linarith)
  exact h

/-- A signed output with saturation wraps: the logarithm of 32 is 5, the output type ends just below 4, and the output is -3. -/
theorem C52_saturation_wrong : log2 none .TRN ⟨16, 8, false, .TRN, .WRAP⟩ ⟨10, 3, true, .TRN, .SAT⟩ 32 = some (-3) := by decide +kernel

/-- With overridden widths and rounding, a normalized argument just below one wraps to zero: the logarithm of `4 - 2^-32` comes
out as 2.77 instead of 2. -/
theorem C52_round_wrong : log2 (some 16) .RND ⟨40, 8, false, .TRN, .WRAP⟩ ⟨24, 8, true, .TRN, .WRAP⟩ (4 - 1 / 2 ^ 32) =
    some (181773 / 65536) := by decide +kernel

/-- The logarithm of zero is not marked in any way: it comes out as -0.24. -/
theorem C52_zero : log none .TRN ⟨16, 8, false, .TRN, .WRAP⟩ ⟨24, 8, true, .TRN, .WRAP⟩ 0 = some (-7745 / 32768) := by decide +kernel

end Props.HcordicLog
