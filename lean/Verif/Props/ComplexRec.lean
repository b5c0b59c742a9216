import Verif.Proof.Complex
import Verif.Props.SqrtPwl

/-! # C56: the magnitude and the reciprocal of a complex number

`f` is the type of the two parts of the input, `fm` the type of its squared magnitude, which is decided by the class
`ac_complex` outside the library: unsigned, with twice the fraction bits of the input, and wide enough for the input at hand.
`none` stands for a table read out of bounds; `out.cvt r` is the assignment of the exact number `r` to the output. -/

namespace Props.ComplexRec
open Ac Model.Complex

/-- `fm` is a type for the squared magnitude of numbers with parts of type `f` and can hold that of `a + bi`. -/
structure Holds (f fm : Fmt) (a b : ℚ) : Prop where
  /-- It has at least one bit, -/
  W : 1 ≤ fm.W
  /-- no sign, -/
  S : fm.S = false
  /-- does not saturate symmetrically (which has no meaning without a sign), -/
  O : fm.O ≠ .SAT_SYM
  /-- has twice the fraction bits -/
  F : fm.F = 2 * f.F
  /-- and enough integer bits. -/
  I : a ^ 2 + b ^ 2 < 2 ^ fm.I

example : Holds ⟨8, 4, true, .TRN, .WRAP⟩ ⟨15, 7, false, .TRN, .WRAP⟩ (-8) (5 / 16) := by
  constructor <;> first | decide | (simp only []; norm_num)

/-- **C56**, no call reads outside the tables, whatever the input and the types. -/
theorem C56_in_table (q : QMode) (f fm out : Fmt) (a b : ℚ) :
    (Model.Complex.abs q fm out a b).isSome ∧ (reciprocal q f fm out a b).isSome ∧ (reciprocalHa q f fm out a b).isSome ∧
    (reciprocalVha q f fm out a b).isSome := by
  refine ⟨SqrtPwl.C30_in_table _ _ _ _ _, ?_, ?_, ?_⟩
  · obtain ⟨y, hy⟩ := Option.isSome_iff_exists.1 (Reciprocal.C29_in_table q fm (recFmt 4 10 f out) (magSqr fm a b))
    unfold reciprocal; rw [hy]; rfl
  · obtain ⟨⟨y, hy, -⟩, -⟩ := ReciprocalHa.C41_in_table q true fm (recFmt 6 16 f out) (magSqr fm a b)
    unfold reciprocalHa; rw [hy]; rfl
  · obtain ⟨-, ⟨y, hy, -⟩⟩ := ReciprocalHa.C41_in_table q true fm (recFmtVha 7 16 f out) (magSqr fm a b)
    unfold reciprocalVha; rw [hy]; rfl

example : reciprocal .TRN ⟨8, 4, true, .TRN, .WRAP⟩ ⟨15, 7, false, .TRN, .WRAP⟩ ⟨20, 5, true, .TRN, .SAT⟩ 3 (-4) =
    some (1967 / 16384, 2623 / 16384) := by decide +kernel

/-- **C56**, the magnitude: the output is the conversion of a number within 1/800 of `√(a² + b²)`, and zero for zero. -/
theorem C56_abs (q : QMode) {f fm out : Fmt} (ho : 1 ≤ out.W) (hSo : out.S = false) {a b : ℚ} (ha : f.Rep a) (hb : f.Rep b)
    (h : Holds f fm a b) :
    ∃ r : ℚ, Model.Complex.abs q fm out a b = some (out.cvt r) ∧
      |(r : ℝ) - Real.sqrt ((a : ℝ) ^ 2 + (b : ℝ) ^ 2)| ≤ Real.sqrt ((a : ℝ) ^ 2 + (b : ℝ) ^ 2) / 800 ∧
      (a = 0 → b = 0 → out.cvt r = 0) := by
  have hrep := Proof.Complex.m_rep h.W h.F h.S ha hb h.I
  unfold Model.Complex.abs
  rw [Proof.Complex.magSqr_eq h.W h.O hrep]
  by_cases h0 : a = 0 ∧ b = 0
  · refine ⟨0, ?_, ?_, fun _ _ => Fmt.cvt_zero' ho⟩
    · rw [h0.1, h0.2, Fmt.cvt_zero' ho]; simpa using SqrtPwl.C30_zero q true fm ho
    · rw [h0.1, h0.2]; simp
  · have hz : a ≠ 0 ∨ b ≠ 0 := by by_contra hc; push Not at hc; exact h0 hc
    have hm : 0 < a ^ 2 + b ^ 2 := lt_of_lt_of_le (Fmt.z_pos _) (Proof.Complex.m_low ha hb hz)
    obtain ⟨r, h1, h2⟩ := SqrtPwl.C30_error q true h.W h.S ho hSo hrep hm (Or.inl rfl)
    refine ⟨r, h1, ?_, fun h1 h2 => absurd ⟨h1, h2⟩ h0⟩
    push_cast at h2
    exact h2

example : Model.Complex.abs .TRN ⟨15, 7, false, .TRN, .WRAP⟩ ⟨12, 4, false, .RND, .SAT⟩ 3 (-4) = some 5 := by
  decide +kernel

/-- **C56**, the reciprocal of a nonzero number: both parts are scaled by the same number `c`, which is within 3/1024
(relatively) of `1/(a² + b²)`.  So the direction of the result is exact before the conversion to the output type. -/
theorem C56_reciprocal (q : QMode) {f fm out : Fmt} (hW : 1 ≤ f.W) {a b : ℚ} (ha : f.Rep a) (hb : f.Rep b)
    (h : Holds f fm a b) (hz : a ≠ 0 ∨ b ≠ 0) :
    ∃ c : ℚ, reciprocal q f fm out a b = some (out.cvt (a * c), out.cvt (-b * c)) ∧
      |c * (a ^ 2 + b ^ 2) - 1| < 3 / 1024 := by
  have hrep := Proof.Complex.m_rep h.W h.F h.S ha hb h.I
  have hl := Proof.Complex.m_low ha hb hz
  have hm : 0 < a ^ 2 + b ^ 2 := lt_of_lt_of_le (Fmt.z_pos _) hl
  have ho : 1 ≤ (recFmt 4 10 f out).W := by have := Proof.Complex.scIn_pos (f := f) 4 10; simp only [recFmt]; omega
  obtain ⟨y, hy, he⟩ := Reciprocal.C29_output q h.W ho hrep hm
    (Proof.Complex.rec_fit (out := out) hW 4 (by norm_num) hl (by norm_num) (by norm_num))
  refine ⟨y, ?_, ?_⟩
  · unfold reciprocal
    rw [Proof.Complex.magSqr_eq h.W h.O hrep, hy]
    show some (scaleConj out a b y) = _
    rw [Proof.Complex.scaleConj_pos hz]
  · have := Proof.Complex.rel_of_abs hm (Proof.Complex.m_up hW ha hb) (Proof.Complex.rec_F (out := out) 4 10) he
    refine lt_of_lt_of_eq this (by norm_num)

/-- **C56**, the same for the two more accurate versions. -/
theorem C56_reciprocal_ha (q : QMode) {f fm out : Fmt} (hW : 1 ≤ f.W) {a b : ℚ} (ha : f.Rep a) (hb : f.Rep b)
    (h : Holds f fm a b) (hz : a ≠ 0 ∨ b ≠ 0) :
    ∃ c c' : ℚ, reciprocalHa q f fm out a b = some (out.cvt (a * c), out.cvt (-b * c)) ∧
      reciprocalVha q f fm out a b = some (out.cvt (a * c'), out.cvt (-b * c')) ∧
      |c * (a ^ 2 + b ^ 2) - 1| < 1 / 7000 ∧ |c' * (a ^ 2 + b ^ 2) - 1| < 1 / 24000 := by
  have hrep := Proof.Complex.m_rep h.W h.F h.S ha hb h.I
  have hl := Proof.Complex.m_low ha hb hz
  have hm : 0 < a ^ 2 + b ^ 2 := lt_of_lt_of_le (Fmt.z_pos _) hl
  have ho : 1 ≤ (recFmt 6 16 f out).W := by have := Proof.Complex.scIn_pos (f := f) 6 16; simp only [recFmt]; omega
  have ho' : 1 ≤ (recFmtVha 7 16 f out).W := by have := Proof.Complex.scIn_pos (f := f) 7 16; simp only [recFmtVha]; omega
  obtain ⟨y, hy, he⟩ := (ReciprocalHa.C41_output q (cn := true) h.W ho hrep hm).1
    (Proof.Complex.rec_fit (out := out) hW 6 (by norm_num) hl (by norm_num) (by norm_num))
  obtain ⟨y', hy', he'⟩ := Proof.Complex.vha_err q (out := out) hW h.W hrep hl hm
  refine ⟨y, y', ?_, ?_, ?_, ?_⟩
  · unfold reciprocalHa
    rw [Proof.Complex.magSqr_eq h.W h.O hrep, hy]
    show some (scaleConj out a b y) = _
    rw [Proof.Complex.scaleConj_pos hz]
  · unfold reciprocalVha
    rw [Proof.Complex.magSqr_eq h.W h.O hrep, hy']
    show some (scaleConj out a b y') = _
    rw [Proof.Complex.scaleConj_pos hz]
  · have := Proof.Complex.rel_of_abs hm (Proof.Complex.m_up hW ha hb) (Proof.Complex.rec_F (out := out) 6 16) he
    refine lt_of_lt_of_le this (by norm_num)
  · have := Proof.Complex.rel_of_abs hm (Proof.Complex.m_up hW ha hb) (Proof.Complex.rec_F' (out := out) 7 16) he'
    refine lt_of_lt_of_le this (by norm_num)

example : Holds ⟨8, 4, true, .TRN, .WRAP⟩ ⟨15, 7, false, .TRN, .WRAP⟩ 0 (-1 / 16) ∧
    reciprocalVha .TRN ⟨8, 4, true, .TRN, .WRAP⟩ ⟨15, 7, false, .TRN, .WRAP⟩ ⟨20, 6, true, .TRN, .SAT⟩ 0 (-1 / 16) =
      some (0, 32767 / 2048) := by
  refine ⟨?_, by decide +kernel⟩
  constructor <;> first | decide | (simp only []; norm_num)

/-- **C56**, the reciprocal of zero: both parts get the largest value of their type. -/
theorem C56_zero (q : QMode) (f fm out : Fmt) :
    reciprocal q f fm out 0 0 = some (out.maxVal, out.maxVal) ∧ reciprocalHa q f fm out 0 0 = some (out.maxVal, out.maxVal) ∧
    reciprocalVha q f fm out 0 0 = some (out.maxVal, out.maxVal) := by
  refine ⟨?_, ?_, ?_⟩
  · obtain ⟨y, hy⟩ := Option.isSome_iff_exists.1 (Reciprocal.C29_in_table q fm (recFmt 4 10 f out) (magSqr fm 0 0))
    unfold reciprocal; rw [hy]; show some (scaleConj out 0 0 y) = _; unfold scaleConj; simp
  · obtain ⟨⟨y, hy, -⟩, -⟩ := ReciprocalHa.C41_in_table q true fm (recFmt 6 16 f out) (magSqr fm 0 0)
    unfold reciprocalHa; rw [hy]; show some (scaleConj out 0 0 y) = _; unfold scaleConj; simp
  · obtain ⟨-, ⟨y, hy, -⟩⟩ := ReciprocalHa.C41_in_table q true fm (recFmtVha 7 16 f out) (magSqr fm 0 0)
    unfold reciprocalVha; rw [hy]; show some (scaleConj out 0 0 y) = _; unfold scaleConj; simp

example : (⟨20, 5, true, .TRN, .SAT⟩ : Fmt).maxVal = 524287 / 32768 := by decide +kernel

end Props.ComplexRec
