import Verif.Proof.Atan

/-! # C43: PWL arctangents

`atanPwl q f out x`, `atanHa q f out x` and `atanVha q f out x` are the outputs of `ac_atan_pwl<q>`, `ac_atan_pwl_ha<q>` and
`ac_atan_pwl_vha<q>` for the input `x` of type `f` and an output of type `out`, `none` for a table read out of bounds.
`out.cvt r` is the assignment of the exact number `r` to the output, `Real.arctan` the arctangent of Mathlib. -/

namespace Props.Atan
open Ac Model.Atan

/-- **C43**, table safety: no input, in no format, makes one of the functions read outside its tables or those of the
reciprocal it uses. -/
theorem C43_in_table (q : QMode) (f out : Fmt) (x : ℚ) :
    (atanPwl q f out x).isSome ∧ (atanHa q f out x).isSome ∧ (atanVha q f out x).isSome :=
  ⟨Proof.Atan.atan_some Proof.Atan.good.lm Proof.Atan.good.lc (Proof.Atan.recip q).some q f out x,
    Proof.Atan.atan_some Proof.Atan.goodHa.lm Proof.Atan.goodHa.lc
      (Proof.Atan.recipG Proof.PwlHa.goodHa (by norm_num) q).some q f out x,
    Proof.Atan.atan_some Proof.Atan.goodVha.lm Proof.Atan.goodVha.lc
      (Proof.Atan.recipG Proof.PwlHa.goodVha (by norm_num) q).some q f out x⟩

example : atanPwl .TRN ⟨8, 4, false, .TRN, .WRAP⟩ ⟨12, 2, false, .TRN, .WRAP⟩ (7 / 4) = some (539 / 512) ∧
    atanHa .TRN ⟨8, 4, false, .TRN, .WRAP⟩ ⟨20, 2, false, .TRN, .WRAP⟩ (7 / 4) = some (275693 / 262144) ∧
    atanVha .TRN ⟨8, 4, false, .TRN, .WRAP⟩ ⟨20, 2, false, .TRN, .WRAP⟩ (3 / 4) = some (42173 / 65536) := by
  decide +kernel

/-- **C43**, `ac_atan_pwl`: error, range and order. For unsigned inputs the output is the conversion of a number `r` (`r'`) whose
error against the arctangent is at most 1/311 up to 1 and 1/177 above, which is nonnegative and below a quarter turn, and not
smaller for a larger input. -/
theorem C43_pwl (q : QMode) {f : Fmt} (out : Fmt) (hW : 1 ≤ f.W) (hS : f.S = false) {x x' : ℚ} (hx : f.Rep x)
    (hx' : f.Rep x') :
    ∃ r r' : ℚ, atanPwl q f out x = some (out.cvt r) ∧ atanPwl q f out x' = some (out.cvt r') ∧
    (x ≤ 1 → |(r : ℝ) - Real.arctan x| ≤ 1 / 311) ∧ (1 < x → |(r : ℝ) - Real.arctan x| ≤ 1 / 177) ∧
    0 ≤ r ∧ (r : ℝ) < Real.pi / 2 ∧ (x ≤ x' → r ≤ r') := by
  obtain ⟨r, r', a, b, c, d, e, g, h⟩ := Proof.Atan.spec Proof.Atan.good (Proof.Atan.recip q)
    (δ := 1 / 2060) (E1 := 1 / 311) (E2 := 1 / 177) (Proof.Atan.pi2_err (by norm_num) (by norm_num)) (by norm_num)
    (by norm_num) q out hW hS hx hx'
  refine ⟨r, r', a, b, fun i => ?_, fun i => ?_, e, ?_, h⟩
  · have := c i; push_cast at this; exact this
  · have := d i; push_cast at this; exact this
  · have g' := Rat.cast_le (K := ℝ) |>.2 g
    have := Real.pi_gt_d20
    push_cast at g'
    linarith

example : (⟨8, 4, false, .TRN, .WRAP⟩ : Fmt).Rep (7 / 4) ∧ (⟨8, 4, false, .TRN, .WRAP⟩ : Fmt).Rep (3 / 4) :=
  ⟨⟨28, by decide, by decide, by decide +kernel⟩, ⟨12, by decide, by decide, by decide +kernel⟩⟩

/-- **C43**, `ac_atan_pwl_ha`: error, range and order. For unsigned inputs the output is the conversion of a number `r` (`r'`) whose
error against the arctangent is at most 1/15000 up to 1 and 1/5000 above, which is nonnegative and below a quarter turn, and not
smaller for a larger input. -/
theorem C43_ha (q : QMode) {f : Fmt} (out : Fmt) (hW : 1 ≤ f.W) (hS : f.S = false) {x x' : ℚ} (hx : f.Rep x)
    (hx' : f.Rep x') :
    ∃ r r' : ℚ, atanHa q f out x = some (out.cvt r) ∧ atanHa q f out x' = some (out.cvt r') ∧
    (x ≤ 1 → |(r : ℝ) - Real.arctan x| ≤ 1 / 15000) ∧ (1 < x → |(r : ℝ) - Real.arctan x| ≤ 1 / 5000) ∧
    0 ≤ r ∧ (r : ℝ) < Real.pi / 2 ∧ (x ≤ x' → r ≤ r') := by
  obtain ⟨r, r', a, b, c, d, e, g, h⟩ := Proof.Atan.spec Proof.Atan.goodHa (Proof.Atan.recipG Proof.PwlHa.goodHa (by norm_num) q)
    (δ := 1 / 1000000) (E1 := 1 / 15000) (E2 := 1 / 5000) (Proof.Atan.pi2_err (by norm_num) (by norm_num)) (by norm_num)
    (by norm_num) q out hW hS hx hx'
  refine ⟨r, r', a, b, fun i => ?_, fun i => ?_, e, ?_, h⟩
  · have := c i; push_cast at this; exact this
  · have := d i; push_cast at this; exact this
  · have g' := Rat.cast_le (K := ℝ) |>.2 g
    have := Real.pi_gt_d20
    push_cast at g'
    linarith

example : (⟨8, 4, false, .TRN, .WRAP⟩ : Fmt).Rep (7 / 4) ∧ (⟨8, 4, false, .TRN, .WRAP⟩ : Fmt).Rep (3 / 4) :=
  ⟨⟨28, by decide, by decide, by decide +kernel⟩, ⟨12, by decide, by decide, by decide +kernel⟩⟩

/-- **C43**, `ac_atan_pwl_vha`: error, range and order. For unsigned inputs the output is the conversion of a number `r` (`r'`) whose
error against the arctangent is at most 1/21000 up to 1 and 1/9300 above, which is nonnegative and below a quarter turn, and not
smaller for a larger input. -/
theorem C43_vha (q : QMode) {f : Fmt} (out : Fmt) (hW : 1 ≤ f.W) (hS : f.S = false) {x x' : ℚ} (hx : f.Rep x)
    (hx' : f.Rep x') :
    ∃ r r' : ℚ, atanVha q f out x = some (out.cvt r) ∧ atanVha q f out x' = some (out.cvt r') ∧
    (x ≤ 1 → |(r : ℝ) - Real.arctan x| ≤ 1 / 21000) ∧ (1 < x → |(r : ℝ) - Real.arctan x| ≤ 1 / 9300) ∧
    0 ≤ r ∧ (r : ℝ) < Real.pi / 2 ∧ (x ≤ x' → r ≤ r') := by
  obtain ⟨r, r', a, b, c, d, e, g, h⟩ := Proof.Atan.spec Proof.Atan.goodVha (Proof.Atan.recipG Proof.PwlHa.goodVha (by norm_num) q)
    (δ := 27 / 1000000) (E1 := 1 / 21000) (E2 := 1 / 9300) (Proof.Atan.pi2_err (by norm_num) (by norm_num)) (by norm_num)
    (by norm_num) q out hW hS hx hx'
  refine ⟨r, r', a, b, fun i => ?_, fun i => ?_, e, ?_, h⟩
  · have := c i; push_cast at this; exact this
  · have := d i; push_cast at this; exact this
  · have g' := Rat.cast_le (K := ℝ) |>.2 g
    have := Real.pi_gt_d20
    push_cast at g'
    linarith

example : (⟨8, 4, false, .TRN, .WRAP⟩ : Fmt).Rep (7 / 4) ∧ (⟨8, 4, false, .TRN, .WRAP⟩ : Fmt).Rep (3 / 4) :=
  ⟨⟨28, by decide, by decide, by decide +kernel⟩, ⟨12, by decide, by decide, by decide +kernel⟩⟩

/-- **C43**, the outputs themselves: when the output type can hold a quarter turn, the output is the arctangent with the
error above plus one unit of the output. -/
theorem C43_output (q : QMode) {f out : Fmt} (hW : 1 ≤ f.W) (hS : f.S = false) (ho : 1 ≤ out.W)
    (hr : 1.571 ≤ out.maxVal) {x : ℚ} (hx : f.Rep x) :
    ∃ y1 y2 y3 : ℚ, atanPwl q f out x = some y1 ∧ atanHa q f out x = some y2 ∧ atanVha q f out x = some y3 ∧
    |(y1 : ℝ) - Real.arctan x| < (if x ≤ 1 then 1 / 311 else 1 / 177) + 2 ^ (-out.F) ∧
    |(y2 : ℝ) - Real.arctan x| < (if x ≤ 1 then 1 / 15000 else 1 / 5000) + 2 ^ (-out.F) ∧
    |(y3 : ℝ) - Real.arctan x| < (if x ≤ 1 then 1 / 21000 else 1 / 9300) + 2 ^ (-out.F) := by
  obtain ⟨r1, -, a1, -, b1, c1, d1, e1, -⟩ := C43_pwl q out hW hS hx hx
  obtain ⟨r2, -, a2, -, b2, c2, d2, e2, -⟩ := C43_ha q out hW hS hx hx
  obtain ⟨r3, -, a3, -, b3, c3, d3, e3, -⟩ := C43_vha q out hW hS hx hx
  have key : ∀ r : ℚ, (r : ℝ) < Real.pi / 2 → r ≤ out.maxVal := by
    intro r h
    refine le_trans ?_ hr
    have : (r : ℝ) ≤ ((1.571 : ℚ) : ℝ) := by
      have := Real.pi_lt_d6
      push_cast; linarith
    exact Rat.cast_le.1 this
  have ite : ∀ (r : ℚ) (A B : ℝ), (x ≤ 1 → |(r : ℝ) - Real.arctan x| ≤ A) → (1 < x → |(r : ℝ) - Real.arctan x| ≤ B) →
      |(r : ℝ) - Real.arctan x| ≤ if x ≤ 1 then A else B := by
    intro r A B h1 h2
    split_ifs with h
    · exact h1 h
    · exact h2 (not_le.1 h)
  exact ⟨_, _, _, a1, a2, a3, Proof.Atan.output ho rfl d1 (key _ e1) (ite _ _ _ b1 c1),
    Proof.Atan.output ho rfl d2 (key _ e2) (ite _ _ _ b2 c2), Proof.Atan.output ho rfl d3 (key _ e3) (ite _ _ _ b3 c3)⟩

example : 1.571 ≤ (⟨12, 2, false, .RND, .WRAP⟩ : Fmt).maxVal ∧ 1.571 ≤ (⟨12, 1, false, .TRN, .SAT⟩ : Fmt).maxVal := by
  decide +kernel

/-- **C43**, a saturating output keeps the order: a larger input never gets a smaller output, also across 1. -/
theorem C43_output_mono (q : QMode) {f out : Fmt} (hW : 1 ≤ f.W) (hS : f.S = false) (hO : out.O = .SAT ∨ out.O = .SAT_SYM)
    {x x' : ℚ} (hx : f.Rep x) (hx' : f.Rep x') (h : x ≤ x') :
    (∃ y y', atanPwl q f out x = some y ∧ atanPwl q f out x' = some y' ∧ y ≤ y') ∧
    (∃ y y', atanHa q f out x = some y ∧ atanHa q f out x' = some y' ∧ y ≤ y') ∧
    (∃ y y', atanVha q f out x = some y ∧ atanVha q f out x' = some y' ∧ y ≤ y') := by
  obtain ⟨_, _, a1, b1, -, -, -, -, m1⟩ := C43_pwl q out hW hS hx hx'
  obtain ⟨_, _, a2, b2, -, -, -, -, m2⟩ := C43_ha q out hW hS hx hx'
  obtain ⟨_, _, a3, b3, -, -, -, -, m3⟩ := C43_vha q out hW hS hx hx'
  exact ⟨⟨_, _, a1, b1, Fmt.cvt_mono hO (m1 h)⟩, ⟨_, _, a2, b2, Fmt.cvt_mono hO (m2 h)⟩, ⟨_, _, a3, b3, Fmt.cvt_mono hO (m3 h)⟩⟩

example : atanPwl .TRN ⟨8, 8, false, .TRN, .WRAP⟩ ⟨8, 1, false, .TRN, .SAT⟩ 255 = some (25 / 16) := by
  decide +kernel

end Props.Atan
