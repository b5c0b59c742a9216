import Verif.Proof.FlfxMul3

/-! # C27: ac_flfx_mul

`x` is the float operand (mantissa `x.m`, exponent `x.e`), `b` the raw integer of the fixed point operand. -/

namespace Props.FlfxMul
open Ac Model.AddTree Model.FlfxMul Spec.Flt

/-- The number denoted by a float with a `W`-bit mantissa of which `I` bits are integer bits. -/
def fltVal (W : ℕ) (I : ℤ) (x : Flt) : ℚ := x.m * 2 ^ (I - W) * 2 ^ x.e

/-- Normalized mantissa: at least half of the positive or of the negative range. -/
def Normal (W : ℕ) (m : ℤ) : Prop := 2 ^ (W - 2) ≤ m ∨ m < -2 ^ (W - 2)

/-- Valid template arguments and operands. -/
structure Valid (p : Par) (x : Flt) (b : ℤ) : Prop where
  W1 : 2 ≤ p.W1
  W2 : 1 ≤ p.W2
  oW : 2 ≤ p.oW
  m : -2 ^ (p.W1 - 1) ≤ x.m ∧ x.m < 2 ^ (p.W1 - 1)
  e : -2 ^ (p.E1 - 1) ≤ x.e ∧ x.e < 2 ^ (p.E1 - 1)
  b : minRaw p.W2 p.S ≤ b ∧ b ≤ maxRaw p.W2 p.S

/-- The exact product. -/
def exact (p : Par) (x : Flt) (b : ℤ) : ℚ := fltVal p.W1 p.I1 x * (b * 2 ^ (p.I2 - p.W2))

/-- Value of the float result. -/
def result (p : Par) (subn : Bool) (x : Flt) (b : ℤ) : ℚ := fltVal p.oW p.oI (p.mulFloat subn x b)

theorem Valid.ok {p : Par} {x : Flt} {b : ℤ} (h : Valid p x b) : Proof.FlfxMul.Ok p x b where
  W1 := h.W1
  W2 := h.W2
  oW := h.oW
  m0 := h.m.1
  m1 := h.m.2
  e0 := h.e.1
  e1 := by unfold Par.maxE1; have := h.e.2; omega
  b0 := h.b.1
  b1 := h.b.2

theorem normal_iff {W : ℕ} (hW : 2 ≤ W) {m : ℤ} (h : -2 ^ (W - 1) ≤ m ∧ m < 2 ^ (W - 1)) :
    Normal W m ↔ Proof.FlfxMul.Nrm W m := by
  have h1 : (2 : ℤ) ^ W = 4 * 2 ^ (W - 2) := by
    conv_lhs => rw [show W = (W - 2) + 2 by omega, pow_add]
    ring
  have h2 : (2 : ℤ) ^ (W - 1) = 2 * 2 ^ (W - 2) := by
    rw [show W - 1 = (W - 2) + 1 by omega, pow_succ]; ring
  unfold Normal Proof.FlfxMul.Nrm
  have : (0 : ℤ) < 2 ^ (W - 2) := by positivity
  omega

/-- With subnormal support the result is the exact product rounded down to the output format, saturated at both
ends. -/
theorem C27_float_subnormals {p : Par} {x : Flt} {b : ℤ} (h : Valid p x b) :
    IsFloor p.oW p.oI p.oE (exact p x b) (result p true x b) :=
  Proof.FlfxMul.mulFloat_subn h.ok

example : Valid ⟨8, 2, 4, 3, 3, false, 12, 4, 4⟩ ⟨100, 7⟩ 5 where
  W1 := by decide
  W2 := by decide
  oW := by decide
  m := by decide
  e := by decide
  b := by decide

/-- Without subnormal support, for a normalized float operand and a nonzero fixed point operand: products below the
normal range of the output give zero, every other product is rounded down to the output format, saturated at both
ends. -/
theorem C27_float_normal {p : Par} {x : Flt} {b : ℤ} (h : Valid p x b) (hx : Normal p.W1 x.m) (hb : b ≠ 0) :
    if -2 ^ (p.oI - 2 - 2 ^ (p.oE - 1)) ≤ exact p x b ∧ exact p x b < 2 ^ (p.oI - 2 - 2 ^ (p.oE - 1)) then
      result p false x b = 0
    else IsFloor p.oW p.oI p.oE (exact p x b) (result p false x b) := by
  have := Proof.FlfxMul.mulFloat_norm h.ok ((normal_iff h.W1 h.m).1 hx) hb
  unfold Par.minEo at this
  rw [← sub_eq_add_neg] at this
  exact this

example : Normal 8 (-100) ∧ Normal 8 64 ∧ ¬ Normal 8 (-64) := by unfold Normal; decide

/-- Without subnormal support a float operand that is not normalized (zero or subnormal) gives zero, provided the
exponent it carries cannot exceed the exponent range of the output. -/
theorem C27_float_not_normal_partial {p : Par} {x : Flt} {b : ℤ} (h : Valid p x b) (hx : ¬ Normal p.W1 x.m)
    (he : x.e + (p.I1 + p.I2 - p.oI) < 2 ^ (p.oE - 1)) : result p false x b = 0 :=
  Proof.FlfxMul.mulFloat_not_norm h.ok (fun hc => hx ((normal_iff h.W1 h.m).2 hc)) (by
    unfold Par.maxEo Par.rshift; omega)

/-- Without that proviso the documented rule (ac_flfx_mul.h:250, "set to zero if the floating point input is
subnormal") fails: the saturation mask is applied after the zero mask. -/
theorem C27_float_not_normal_wrong : ∃ (p : Par) (x : Flt) (b : ℤ), Valid p x b ∧ ¬ Normal p.W1 x.m ∧
    p.mulFloat false x b = ⟨2047, 1⟩ :=
  ⟨⟨8, 2, 4, 4, 4, true, 12, -20, 2⟩, ⟨3, -8⟩, 7, ⟨by decide, by decide, by decide, by decide, by decide, by decide⟩,
    by unfold Normal; decide, by decide +kernel⟩

example : Valid ⟨8, 2, 4, 4, 4, true, 12, 2, 4⟩ ⟨3, -8⟩ 7 ∧ ¬ Normal 8 3 ∧ (-8 : ℤ) + (2 + 4 - 2) < 2 ^ (4 - 1) :=
  ⟨⟨by decide, by decide, by decide, by decide, by decide, by decide⟩, by unfold Normal; decide, by decide⟩

/-- A zero fixed point operand gives zero when that operand is signed or its width is not `2^k - 1`. -/
theorem C27_float_zero_partial {p : Par} {x : Flt} (h : Valid p x 0)
    (hw : p.S = true ∨ ¬ ∃ k, p.W2 + 1 = 2 ^ k) : result p false x 0 = 0 := by
  apply Proof.FlfxMul.mulFloat_zero h.ok
  rcases hw with hw | hw
  · exact Or.inl hw
  · right
    have hW := h.W2
    unfold nbits
    rw [if_neg (by omega), if_neg (by omega)]
    congr 1
    have h1 := Nat.log2_self_le (n := p.W2) (by omega)
    have h2 := Nat.lt_log2_self (n := p.W2)
    have h3 : p.W2 + 1 < 2 ^ (Nat.log2 p.W2 + 1) := by
      rcases Nat.lt_or_ge (p.W2 + 1) (2 ^ (Nat.log2 p.W2 + 1)) with h | h
      · exact h
      · exact absurd ⟨Nat.log2 p.W2 + 1, by omega⟩ hw
    have h4 : Nat.log2 (p.W2 + 1) < Nat.log2 p.W2 + 1 := (Nat.log2_lt (by omega)).2 h3
    have h5 : Nat.log2 p.W2 ≤ Nat.log2 (p.W2 + 1) := by
      rw [Nat.le_log2 (by omega)]; omega
    omega

example : Valid ⟨8, 2, 4, 4, 3, false, 12, 4, 4⟩ ⟨100, 7⟩ 0 ∧ ¬ ∃ k, (4 : ℕ) + 1 = 2 ^ k := by
  refine ⟨⟨by decide, by decide, by decide, by decide, by decide, by decide⟩, ?_⟩
  rintro ⟨k, hk⟩
  rcases Nat.lt_or_ge k 3 with h | h
  · interval_cases k <;> omega
  · have : 2 ^ 3 ≤ 2 ^ k := Nat.pow_le_pow_right (by norm_num) h
    omega

/-- The full claim fails: zero times a normal number can be the largest number of the output type.  The shift counts
add up to `W2 + 1` but are stored in a word sized for `W2`. -/
theorem C27_float_zero_wrong : ∃ (p : Par) (x : Flt), Valid p x 0 ∧ Normal p.W1 x.m ∧ exact p x 0 = 0 ∧
    result p false x 0 = 2047 * 2 ^ (-1 : ℤ) ∧ ∀ w, Rep p.oW p.oI p.oE w → w ≤ result p false x 0 := by
  refine ⟨⟨8, 2, 4, 3, 3, false, 12, 4, 4⟩, ⟨100, 7⟩, ⟨by decide, by decide, by decide, by decide, by decide, by decide⟩,
    by unfold Normal; decide, by unfold exact fltVal; simp, ?_, fun w hw => ?_⟩
  · unfold result
    rw [show (⟨8, 2, 4, 3, 3, false, 12, 4, 4⟩ : Par).mulFloat false ⟨100, 7⟩ 0 = ⟨2047, 7⟩ by decide +kernel]
    unfold fltVal; norm_num
  · unfold result
    rw [show (⟨8, 2, 4, 3, 3, false, 12, 4, 4⟩ : Par).mulFloat false ⟨100, 7⟩ 0 = ⟨2047, 7⟩ by decide +kernel]
    exact (Proof.FlfxMul.value_max_ge (p := ⟨8, 2, 4, 3, 3, false, 12, 4, 4⟩) (by decide) hw).1

/-- Swapping the operands changes nothing (all formats, every output kind). -/
theorem C27_swap (p : Par) (subn : Bool) (x : Flt) (b : ℤ) : mulFloatSwap p subn b x = p.mulFloat subn x b := rfl

/-- Fixed point output: the exact product, converted once to the output type.  Without subnormal support a float
operand that is not normalized counts as zero. -/
theorem C27_fixed {subn : Bool} {W1 : ℕ} {I1 : ℤ} {E1 : ℕ} {g out : Fmt} {x : Flt} {y : ℚ} (hW : 2 ≤ W1) (hE : 1 ≤ E1)
    (hg : 1 ≤ g.W) (ho : 1 ≤ out.W) (hm : -2 ^ (W1 - 1) ≤ x.m ∧ x.m < 2 ^ (W1 - 1))
    (he : -2 ^ (E1 - 1) ≤ x.e ∧ x.e < 2 ^ (E1 - 1)) (hy : g.Rep y) :
    (subn = true ∨ Normal W1 x.m → mulFixed subn W1 I1 E1 g out x y = out.cvt (fltVal W1 I1 x * y)) ∧
    (subn = false → ¬ Normal W1 x.m → mulFixed subn W1 I1 E1 g out x y = 0) := by
  rw [Proof.FlfxMul.mulFixed_eq (by omega) hE hg ho hm.1 hm.2 he.1 he.2 hy]
  have hn := Proof.FlfxMul.isNorm_iff hW hm.1 hm.2
  rw [← normal_iff hW hm] at hn
  constructor
  · intro h
    rw [if_neg]
    · rfl
    · rintro ⟨rfl, h2⟩
      rcases h with h | h
      · cases h
      · rw [hn.2 h] at h2; cases h2
  · intro h1 h2
    rw [if_pos ⟨h1, by rw [← Bool.not_eq_true, hn]; exact h2⟩]
    exact Fmt.cvt_zero' ho

example : (⟨7, 3, true, .TRN, .WRAP⟩ : Fmt).Rep (-5 / 16) := ⟨-5, by decide, by decide, by unfold Fmt.val Fmt.F; norm_num⟩

/-- Swapping the operands changes nothing, fixed point output. -/
theorem C27_fixed_swap (subn : Bool) (W1 : ℕ) (I1 : ℤ) (E1 : ℕ) (g out : Fmt) (x : Flt) (y : ℚ) :
    mulFixedSwap subn W1 I1 E1 g out y x = mulFixed subn W1 I1 E1 g out x y := rfl

/-- Two float operands, fixed point output: the exact product converted once; symmetric in the operands. -/
theorem C27_floats {subn : Bool} {W1 : ℕ} {I1 : ℤ} {E1 W2 : ℕ} {I2 : ℤ} {E2 : ℕ} {out : Fmt} {x y : Flt} (hW : 2 ≤ W1)
    (hE : 1 ≤ E1) (hW2 : 2 ≤ W2) (hE2 : 1 ≤ E2) (ho : 1 ≤ out.W) (hm : -2 ^ (W1 - 1) ≤ x.m ∧ x.m < 2 ^ (W1 - 1))
    (he : -2 ^ (E1 - 1) ≤ x.e ∧ x.e < 2 ^ (E1 - 1)) (hm2 : -2 ^ (W2 - 1) ≤ y.m ∧ y.m < 2 ^ (W2 - 1))
    (he2 : -2 ^ (E2 - 1) ≤ y.e ∧ y.e < 2 ^ (E2 - 1)) :
    (subn = true ∨ (Normal W1 x.m ∧ Normal W2 y.m) →
      mulFloats subn W1 I1 E1 W2 I2 E2 out x y = out.cvt (fltVal W1 I1 x * fltVal W2 I2 y)) ∧
    (subn = false → ¬ (Normal W1 x.m ∧ Normal W2 y.m) → mulFloats subn W1 I1 E1 W2 I2 E2 out x y = 0) ∧
    mulFloats subn W1 I1 E1 W2 I2 E2 out x y = mulFloats subn W2 I2 E2 W1 I1 E1 out y x := by
  rw [Proof.FlfxMul.mulFloats_eq (by omega) hE (by omega) hE2 ho hm.1 hm.2 he.1 he.2 hm2.1 hm2.2 he2.1 he2.2,
    Proof.FlfxMul.mulFloats_eq (by omega) hE2 (by omega) hE ho hm2.1 hm2.2 he2.1 he2.2 hm.1 hm.2 he.1 he.2]
  have hn := Proof.FlfxMul.isNorm_iff hW hm.1 hm.2
  rw [← normal_iff hW hm] at hn
  have hn2 := Proof.FlfxMul.isNorm_iff hW2 hm2.1 hm2.2
  rw [← normal_iff hW2 hm2] at hn2
  refine ⟨?_, ?_, ?_⟩
  · intro h
    rw [if_neg]
    · rfl
    · rintro ⟨rfl, h2⟩
      rcases h with h | ⟨h, h'⟩
      · cases h
      · rw [hn.2 h, hn2.2 h'] at h2; simp at h2
  · intro h1 h2
    rw [if_pos]
    · exact Fmt.cvt_zero' ho
    · refine ⟨h1, ?_⟩
      rw [← Bool.not_eq_true, ← Bool.not_eq_true, hn, hn2]
      exact not_and_or.1 h2
  · rw [mul_comm]
    cases isNorm W1 x.m <;> cases isNorm W2 y.m <;> simp

end Props.FlfxMul
