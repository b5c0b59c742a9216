import Verif.Proof.PowPwl2

/-! # C39: PWL power

`pow q f fe out b e` is the output of `ac_pow_pwl<q>` for the unsigned base `b` of type `f`, the exponent `e` of type `fe` and
an unsigned output of type `out`, `none` for a table read out of bounds. -/

namespace Props.PowGeneral
open Ac Model.PwlFixed

/-- **C39**, table safety. -/
theorem C39_in_table (q : QMode) (f fe out : Fmt) (b e : ℚ) : (pow q f fe out b e).isSome := by
  obtain ⟨z, hz, -⟩ := Proof.LogPwl.log2_some .TRN true f ⟨22 + logI f, logI f, true, q, .WRAP⟩ b
  obtain ⟨y, hy⟩ := Proof.PowPwl.pow2_some .TRN ⟨fe.W + (22 + logI f), fe.I + logI f, true, .TRN, .WRAP⟩ out (e * z)
  unfold pow
  simp only [hz, hy, Option.bind_eq_bind, Option.bind_some, Option.isSome_some]

example : pow .TRN ⟨8, 4, false, .TRN, .WRAP⟩ ⟨8, 4, true, .TRN, .WRAP⟩ ⟨16, 8, false, .TRN, .WRAP⟩ 3 (7 / 4) = some (875 / 128) := by
  decide +kernel

/-- **C39**, error for positive bases: the output is the conversion of a number `r` with a relative error of at most
(1 + |e|)/400 against the real power, for exponents up to 800 in magnitude. A zero base is excluded: see
`C39_zero_wrong`. -/
theorem C39_error_partial (q : QMode) {f fe out : Fmt} (hW : 1 ≤ f.W) (hS : f.S = false) (hWe : 1 ≤ fe.W) (ho : 1 ≤ out.W)
    (hSo : out.S = false) {b e : ℚ} (hb : f.Rep b) (he : fe.Rep e) (h : 0 < b) (h800 : |e| ≤ 800) :
    ∃ r : ℚ, pow q f fe out b e = some (out.cvt r) ∧
    |(r : ℝ) - (b : ℝ) ^ (e : ℝ)| ≤ (b : ℝ) ^ (e : ℝ) * ((1 + |(e : ℝ)|) / 400) :=
  ⟨_, Proof.PowPwl.pow_eq q hW hS hWe ho hSo hb he h, Proof.PowPwl.pow_err hW hS hb h h800⟩

example : (⟨8, 4, false, .TRN, .WRAP⟩ : Fmt).Rep 3 ∧ (⟨8, 4, true, .TRN, .WRAP⟩ : Fmt).Rep (7 / 4) ∧ |(7 / 4 : ℚ)| ≤ 800 :=
  ⟨⟨48, by decide, by decide, by decide +kernel⟩, ⟨28, by decide, by decide, by decide +kernel⟩, by decide +kernel⟩

/-- **C39**, order in the base: for a nonnegative exponent and a saturating output a larger base never gives a smaller
output, for a nonpositive one never a larger. -/
theorem C39_base_mono_partial (q : QMode) {f fe out : Fmt} (hW : 1 ≤ f.W) (hS : f.S = false) (hWe : 1 ≤ fe.W) (ho : 1 ≤ out.W)
    (hSo : out.S = false) (hO : out.O = .SAT ∨ out.O = .SAT_SYM) {b b' e : ℚ} (hb : f.Rep b) (hb' : f.Rep b') (he : fe.Rep e)
    (h : 0 < b) (hbb : b ≤ b') :
    ∃ y y', pow q f fe out b e = some y ∧ pow q f fe out b' e = some y' ∧ (0 ≤ e → y ≤ y') ∧ (e ≤ 0 → y' ≤ y) := by
  refine ⟨_, _, Proof.PowPwl.pow_eq q hW hS hWe ho hSo hb he h, Proof.PowPwl.pow_eq q hW hS hWe ho hSo hb' he (by linarith), ?_, ?_⟩
  · intro h0
    exact Fmt.cvt_mono hO (Proof.PowPwl.core_mono (mul_le_mul_of_nonneg_left (Proof.LogPwl.core_mono hW hS hb hb' h (Or.inl rfl) hbb) h0))
  · intro h0
    exact Fmt.cvt_mono hO (Proof.PowPwl.core_mono (mul_le_mul_of_nonpos_left (Proof.LogPwl.core_mono hW hS hb hb' h (Or.inl rfl) hbb) h0))

/-- **C39** fails for a zero base: there is no special case for it, so `0 ^ (1/16)` is about 0.71 for an 8-bit base with 4
integer bits. -/
theorem C39_zero_wrong : pow .TRN ⟨8, 4, false, .TRN, .WRAP⟩ ⟨8, 4, true, .TRN, .WRAP⟩ ⟨16, 8, false, .TRN, .WRAP⟩ 0 (1 / 16) =
    some (180 / 256) := by
  decide +kernel

end Props.PowGeneral
