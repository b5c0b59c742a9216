import Verif.Proof.FloatRec

/-! # C60: the PWL reciprocals of ac_float

`reciprocal q t oq d m e` is the output of `ac_reciprocal_pwl<q>` for the ac_float number `m * 2^e` of type `t`, `none` for a
table read out of bounds; `reciprocalHa` and `reciprocalVha` are the other two versions.  `d` is the conversion of an exact
value to the output type (`o.dst` for the output type `ac_float<o.W,o.I,o.E,o.Q>`) and `oq` the rounding mode of the output.
The mantissa need not be normalised. -/

namespace Props.FloatRec
open Ac Model.Float Proof.FloatRec

/-- `m * 2^e` is a number of the type `t`. -/
def Num (t : FFmt) (m : ℚ) (e : ℤ) : Prop := t.mant.Rep m ∧ -2 ^ (t.E - 1) ≤ e ∧ e < 2 ^ (t.E - 1)

/-- `ρ` is a reciprocal with relative error `ε`, odd, and decreasing on the positive numbers. -/
def Approx (ρ : ℚ → ℚ) (ε : ℚ) : Prop :=
  (∀ x : ℚ, x ≠ 0 → |ρ x * x - 1| ≤ ε) ∧ (∀ x x' : ℚ, 0 < x → x ≤ x' → ρ x' ≤ ρ x) ∧ (∀ x : ℚ, x ≠ 0 → ρ (-x) = -ρ x)

/-- **C60**: one function of the value of the input, whatever its type, mantissa and exponent, gives the output before its
conversion.  It is the reciprocal up to 1/512, odd and decreasing. -/
theorem C60_reciprocal : ∃ ρ : ℚ → ℚ, Approx ρ (1 / 512) ∧
    ∀ (q oq : QMode) (t : FFmt) (d : Dst) (m : ℚ) (e : ℤ), 2 ≤ t.W → Num t m e → m ≠ 0 →
      reciprocal q t oq d m e = some (d.cvt (ρ (m * 2 ^ e))) := by
  refine ⟨_, rho_spec goodBase err_base, ?_⟩
  intro q oq t d m e hW hm h
  obtain ⟨r, hr, hi⟩ := reciprocal_eq q hW oq d hm.1 hm.2.1 h
  rw [hr, isRec_unique hi (rho_isRec (mul_ne_zero h (Fmt.z_pos e).ne'))]

/-- **C60** for `ac_reciprocal_pwl_ha`: 1/8192. -/
theorem C60_reciprocal_ha : ∃ ρ : ℚ → ℚ, Approx ρ (1 / 8192) ∧
    ∀ (q oq : QMode) (t : FFmt) (d : Dst) (m : ℚ) (e : ℤ), 2 ≤ t.W → Num t m e → m ≠ 0 →
      reciprocalHa q t oq d m e = some (d.cvt (ρ (m * 2 ^ e))) := by
  refine ⟨_, rho_spec Proof.PwlHa.goodHa err_ha, ?_⟩
  intro q oq t d m e hW hm h
  obtain ⟨r, hr, hi⟩ := reciprocalHa_eq q hW oq d (e := e) hm.1 h
  rw [hr, isRec_unique hi (rho_isRec (mul_ne_zero h (Fmt.z_pos e).ne'))]

/-- **C60** for `ac_reciprocal_pwl_vha`: 1/30000. -/
theorem C60_reciprocal_vha : ∃ ρ : ℚ → ℚ, Approx ρ (1 / 30000) ∧
    ∀ (q oq : QMode) (t : FFmt) (d : Dst) (m : ℚ) (e : ℤ), 2 ≤ t.W → Num t m e → m ≠ 0 →
      reciprocalVha q t oq d m e = some (d.cvt (ρ (m * 2 ^ e))) := by
  refine ⟨_, rho_spec Proof.PwlHa.goodVha err_vha, ?_⟩
  intro q oq t d m e hW hm h
  obtain ⟨r, hr, hi⟩ := reciprocalVha_eq q hW oq d hm.1 hm.2.1 h
  rw [hr, isRec_unique hi (rho_isRec (mul_ne_zero h (Fmt.z_pos e).ne'))]

/-- A number that is not normalised: 3 * 2^-8 * 2^-8 in `ac_float<8,2,4>`. -/
example : Num ⟨8, 2, 4, .TRN⟩ (3 / 64) (-8) := ⟨⟨3, by decide, by decide, by decide +kernel⟩, by decide, by decide⟩

example : reciprocal .TRN ⟨8, 2, 4, .TRN⟩ .TRN (FFmt.dst ⟨16, 2, 6, .TRN⟩) (3 / 64) (-8) = some (43648 / 8) := by decide +kernel

/-- **C60**, zero: the largest value of the output type. -/
theorem C60_zero (q oq : QMode) (t : FFmt) (d : Dst) (e : ℤ) : reciprocal q t oq d 0 e = some d.maxVal ∧
    reciprocalHa q t oq d 0 e = some d.maxVal ∧ reciprocalVha q t oq d 0 e = some d.maxVal := by
  unfold reciprocal reciprocalHa reciprocalVha renorm
  simp only [if_true]
  refine ⟨?_, ?_, ?_⟩
  · rw [Proof.Reciprocal.reciprocal_zero]; rfl
  · obtain ⟨y, hy, -⟩ := Proof.PwlHa.recip_isSome (m := Model.PwlHa.haM) (c := Model.PwlHa.haC) (p := 16) (ib := 5)
      Proof.PwlHa.goodHa.lm Proof.PwlHa.goodHa.lc true q t.mant (recMantHa t oq) 0
    unfold Model.PwlHa.reciprocalHa; rw [hy]; rfl
  · obtain ⟨y, hy, -⟩ := Proof.PwlHa.recip_isSome (m := Model.PwlHa.vhaM) (c := Model.PwlHa.vhaC) (p := 16) (ib := 6)
      Proof.PwlHa.goodVha.lm Proof.PwlHa.goodVha.lc false q t.mant (recMant 16 7 t oq) 0
    unfold Model.PwlHa.reciprocalVha; rw [hy]; rfl

example : (FFmt.dst ⟨8, 2, 4, .TRN⟩).maxVal = 127 / 64 * 128 := by decide +kernel

/-- **C60**, the output itself: if the reciprocal is in the normal range of the output type `ac_float<o.W,o.I,o.E,o.Q>`, its
relative error is that of the table plus less than two units in the last place of the mantissa. -/
theorem C60_output (q oq : QMode) (t o : FFmt) (m : ℚ) (e : ℤ) (hW : 2 ≤ t.W) (hm : Num t m e) (h : m ≠ 0)
    (h0 : 2 ^ (o.I - 2 - 2 ^ (o.E - 1)) * |m * 2 ^ e| ≤ 1 - 1 / 512) (h1 : 1 + 1 / 512 ≤ o.maxVal * |m * 2 ^ e|) :
    (∃ y, reciprocal q t oq o.dst m e = some y ∧ |y * (m * 2 ^ e) - 1| ≤ 1 / 512 + (1 + 1 / 512) * 2 ^ (2 - (o.W : ℤ))) ∧
    (∃ y, reciprocalHa q t oq o.dst m e = some y ∧ |y * (m * 2 ^ e) - 1| ≤ 1 / 8192 + (1 + 1 / 8192) * 2 ^ (2 - (o.W : ℤ))) ∧
    ∃ y, reciprocalVha q t oq o.dst m e = some y ∧ |y * (m * 2 ^ e) - 1| ≤ 1 / 30000 + (1 + 1 / 30000) * 2 ^ (2 - (o.W : ℤ)) := by
  have hx : m * 2 ^ e ≠ 0 := mul_ne_zero h (Fmt.z_pos e).ne'
  obtain ⟨r, hr, hi⟩ := reciprocal_eq q hW oq o.dst hm.1 hm.2.1 h
  obtain ⟨r', hr', hi'⟩ := reciprocalHa_eq q hW oq o.dst (e := e) hm.1 h
  obtain ⟨r'', hr'', hi''⟩ := reciprocalVha_eq q hW oq o.dst hm.1 hm.2.1 h
  exact ⟨⟨_, hr, output (isRec_err err_base hi) hx h0 h1⟩,
    ⟨_, hr', output (isRec_err err_ha hi') hx (by linarith) (by linarith)⟩,
    ⟨_, hr'', output (isRec_err err_vha hi'') hx (by linarith) (by linarith)⟩⟩

example : (2 : ℚ) ^ ((2 : ℤ) - 2 - 2 ^ (6 - 1)) * |3 / 64 * 2 ^ (-8 : ℤ)| ≤ 1 - 1 / 512 ∧
    1 + 1 / 512 ≤ (FFmt.mk 16 2 6 .TRN).maxVal * |3 / 64 * 2 ^ (-8 : ℤ)| := by
  constructor
  · norm_num
  · decide +kernel

end Props.FloatRec
