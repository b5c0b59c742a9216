import Verif.Proof.PwlHa

/-! # C41: high accuracy PWL reciprocals

`reciprocalHa q f out x` is the output of `ac_reciprocal_pwl_ha<q>` for the input `x` of type `f` and an output of type `out`,
`reciprocalVha q cn f out x` that of `ac_reciprocal_pwl_vha<q>` with `call_normalize = cn`; `none` is a table read out of
bounds.  `out.cvt r` is the assignment of the exact number `r` to the output. -/

namespace Props.ReciprocalHa
open Ac Model.PwlHa

/-- Inputs allowed without normalization: the top bit of the magnitude, not counting the sign bit of a signed type, is
set. -/
def Normalized (f : Fmt) (x : ℚ) : Prop := 2 ^ (f.I - (if f.S then 2 else 1)) ≤ |x|

/-- **C41**, table safety: no input, in no format, normalized or not, makes the functions read outside their tables; zero
gives the largest output. -/
theorem C41_in_table (q : QMode) (cn : Bool) (f out : Fmt) (x : ℚ) :
    (∃ y, reciprocalHa q f out x = some y ∧ (x = 0 → y = out.maxVal)) ∧
    (∃ y, reciprocalVha q cn f out x = some y ∧ (x = 0 → y = out.maxVal)) :=
  ⟨Proof.PwlHa.recip_isSome Proof.PwlHa.goodHa.lm Proof.PwlHa.goodHa.lc true q f out x,
    Proof.PwlHa.recip_isSome Proof.PwlHa.goodVha.lm Proof.PwlHa.goodVha.lc cn q f out x⟩

example : reciprocalHa .TRN ⟨8, 4, true, .TRN, .WRAP⟩ ⟨20, 2, true, .TRN, .WRAP⟩ (-7 / 4) = some (-74895 / 131072) ∧
    reciprocalVha .TRN true ⟨8, 4, true, .TRN, .WRAP⟩ ⟨20, 2, true, .TRN, .WRAP⟩ 0 = some (524287 / 262144) := by
  decide +kernel

/-- **C41**, `ac_reciprocal_pwl_ha`: error, sign and order. For nonzero inputs the output is the conversion of a number `r`
(`r'`) whose relative error against the reciprocal is at most 1/8192, which has the sign of the input, and is smaller for a
larger positive input. The sign requires a signed output: an unsigned output gets the reciprocal of the magnitude. -/
theorem C41_ha (q : QMode) {f out : Fmt} (hW : 1 ≤ f.W) (ho : 1 ≤ out.W) {x x' : ℚ} (hx : f.Rep x)
    (hx' : f.Rep x') (h : x ≠ 0) (h' : x' ≠ 0) :
    ∃ r r' : ℚ, reciprocalHa q f out x = some (out.cvt r) ∧ reciprocalHa q f out x' = some (out.cvt r') ∧
    (out.S = true → |r * x - 1| ≤ 1 / 8192 ∧ |r' * x' - 1| ≤ 1 / 8192) ∧
    (out.S = false → |r * |x| - 1| ≤ 1 / 8192 ∧ |r' * |x'| - 1| ≤ 1 / 8192) ∧
    (0 < x → x ≤ x' → r' ≤ r) ∧ (x' = -x → out.S = true → r' = -r) ∧ (0 < x → 0 < r) :=
  Proof.PwlHa.recip_spec Proof.PwlHa.goodHa (by norm_num) q hW ho (by norm_num) hx hx' h h' (Or.inl rfl) (Or.inl rfl)

example : (⟨8, 4, true, .TRN, .WRAP⟩ : Fmt).Rep (-7 / 4) ∧ (⟨8, 4, true, .TRN, .WRAP⟩ : Fmt).Rep (-8) :=
  ⟨⟨-28, by decide, by decide, by decide +kernel⟩, ⟨-128, by decide, by decide, by decide +kernel⟩⟩

/-- **C41**, `ac_reciprocal_pwl_vha`: the same with a relative error of at most 1/30000, also without normalization when the
inputs are normalized. -/
theorem C41_vha (q : QMode) {cn : Bool} {f out : Fmt} (hW : 1 ≤ f.W) (ho : 1 ≤ out.W) {x x' : ℚ} (hx : f.Rep x)
    (hx' : f.Rep x') (h : x ≠ 0) (h' : x' ≠ 0) (hc : cn = true ∨ Normalized f x) (hc' : cn = true ∨ Normalized f x') :
    ∃ r r' : ℚ, reciprocalVha q cn f out x = some (out.cvt r) ∧ reciprocalVha q cn f out x' = some (out.cvt r') ∧
    (out.S = true → |r * x - 1| ≤ 1 / 30000 ∧ |r' * x' - 1| ≤ 1 / 30000) ∧
    (out.S = false → |r * |x| - 1| ≤ 1 / 30000 ∧ |r' * |x'| - 1| ≤ 1 / 30000) ∧
    (0 < x → x ≤ x' → r' ≤ r) ∧ (x' = -x → out.S = true → r' = -r) ∧ (0 < x → 0 < r) :=
  Proof.PwlHa.recip_spec Proof.PwlHa.goodVha (by norm_num) q hW ho (by norm_num) hx hx' h h' hc hc'

example : Normalized ⟨8, 4, true, .TRN, .WRAP⟩ (-7) ∧ Normalized ⟨8, 4, true, .TRN, .WRAP⟩ (-8) ∧
    reciprocalVha .TRN false ⟨8, 4, true, .TRN, .WRAP⟩ ⟨20, 2, true, .TRN, .WRAP⟩ (-7) = some (-37449 / 262144) := by
  refine ⟨?_, ?_, ?_⟩
  · unfold Normalized; norm_num [abs_of_neg]
  · unfold Normalized; norm_num [abs_of_neg]
  · decide +kernel

/-- **C41**, the outputs themselves: when the output type can hold the reciprocal with its error, a positive input gives the
reciprocal with an error below 1/8192 (1/30000) of it plus one unit of the output. -/
theorem C41_output (q : QMode) {cn : Bool} {f out : Fmt} (hW : 1 ≤ f.W) (ho : 1 ≤ out.W) {x : ℚ} (hx : f.Rep x) (h : 0 < x) :
    ((1 + 1 / 8192) / x ≤ out.maxVal →
      ∃ y, reciprocalHa q f out x = some y ∧ |y - 1 / x| < 1 / 8192 / x + 2 ^ (-out.F)) ∧
    ((1 + 1 / 30000) / x ≤ out.maxVal → cn = true ∨ Normalized f x →
      ∃ y, reciprocalVha q cn f out x = some y ∧ |y - 1 / x| < 1 / 30000 / x + 2 ^ (-out.F)) :=
  ⟨fun hr => Proof.PwlHa.recip_output Proof.PwlHa.goodHa (by norm_num) q hW ho (by norm_num) hx h (Or.inl rfl) hr,
    fun hr hc => Proof.PwlHa.recip_output Proof.PwlHa.goodVha (by norm_num) q hW ho (by norm_num) hx h hc hr⟩

example : (1 + 1 / 8192) / (7 / 4 : ℚ) ≤ (⟨12, 2, false, .RND, .WRAP⟩ : Fmt).maxVal := by decide +kernel

/-- **C41**, a saturating output keeps the order of positive inputs, zero included: a larger input never gets a larger
output. -/
theorem C41_output_mono (q : QMode) {cn : Bool} {f out : Fmt} (hW : 1 ≤ f.W) (ho : 1 ≤ out.W)
    (hO : out.O = .SAT ∨ out.O = .SAT_SYM) {x x' : ℚ} (hx : f.Rep x) (hx' : f.Rep x') (h0 : 0 ≤ x) (h : x ≤ x') :
    (∃ y y', reciprocalHa q f out x = some y ∧ reciprocalHa q f out x' = some y' ∧ y' ≤ y) ∧
    (x = 0 ∨ cn = true ∨ Normalized f x → x' = 0 ∨ cn = true ∨ Normalized f x' →
      ∃ y y', reciprocalVha q cn f out x = some y ∧ reciprocalVha q cn f out x' = some y' ∧ y' ≤ y) :=
  ⟨Proof.PwlHa.recip_mono Proof.PwlHa.goodHa (by norm_num) q hW ho hO hx hx' h0 h (Or.inr (Or.inl rfl)) (Or.inr (Or.inl rfl)),
    fun hc hc' => Proof.PwlHa.recip_mono Proof.PwlHa.goodVha (by norm_num) q hW ho hO hx hx' h0 h hc hc'⟩

example : reciprocalVha .TRN true ⟨8, 4, false, .TRN, .WRAP⟩ ⟨12, 2, false, .RND, .SAT⟩ (1 / 16) = some (4095 / 1024) := by
  decide +kernel

end Props.ReciprocalHa
