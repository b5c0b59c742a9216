import Verif.Proof.FloatComplex
import Verif.Props.FloatRec

/-! # C78: the PWL reciprocals of complex floating-point numbers

`reciprocal q t oq d add a b` is the output of `ac_reciprocal_pwl<q>` for the number `a + bi` with parts of type
`ac_float<t.W,t.I,t.E,t.Q>`, `none` for a table read out of bounds; `reciprocalHa` and `reciprocalVha` are the other two versions.
`d` is the conversion of an exact value to the parts of the output and `oq` its rounding mode.  `add` is the addition of ac_float,
of which only the error is assumed: `Sums`. -/

namespace Props.FloatComplex
open Ac Model.FloatComplex Props.FloatRec
open Model.Float (FFmt Dst)

/-- `s`, mantissa and exponent, is a number of the type `t` within a relative error `η` of `N`. -/
def Sums (t : FFmt) (η : ℚ) (s : ℚ × ℤ) (N : ℚ) : Prop := Num t s.1 s.2 ∧ |s.1 * 2 ^ s.2 - N| ≤ η * N

/-- The relative error `ε` of the reciprocal together with that of the sum. -/
def total (ε η : ℚ) : ℚ := (ε + η) / (1 - η)

theorem norm_pos {a b : ℚ} (hz : a ≠ 0 ∨ b ≠ 0) : 0 < a * a + b * b := by
  rcases hz with h | h
  · have := mul_self_pos.2 h; linarith [mul_self_nonneg b]
  · have := mul_self_pos.2 h; linarith [mul_self_nonneg a]

theorem sum_low {t : FFmt} {η : ℚ} {s : ℚ × ℤ} {N : ℚ} (h : Sums t η s N) : (1 - η) * N ≤ s.1 * 2 ^ s.2 := by
  have := (abs_le.1 h.2).1; linarith

theorem sum_pos {t : FFmt} {η : ℚ} {s : ℚ × ℤ} {N : ℚ} (hη : η < 1) (hN : 0 < N) (h : Sums t η s N) :
    0 < s.1 * 2 ^ s.2 ∧ s.1 ≠ 0 := by
  have h1 := sum_low h
  have h2 := mul_pos (sub_pos.2 hη) hN
  have h3 : 0 < s.1 * 2 ^ s.2 := by linarith
  exact ⟨h3, fun h0 => by rw [h0, zero_mul] at h3; exact lt_irrefl _ h3⟩

theorem to_total {c N ε η : ℚ} (hη : η < 1) (h : (1 - η) * |c * N - 1| ≤ ε + η) : |c * N - 1| ≤ total ε η := by
  unfold total
  rw [le_div_iff₀ (sub_pos.2 hη)]; linarith

/-- **C78**, no call reads outside the tables. -/
theorem C78_in_table (q oq : QMode) (t : FFmt) (hW : 1 ≤ t.W) (d : Dst) (add : ℚ → ℚ → ℚ × ℤ) (a b : ℚ)
    (hs : Num (magT 1 t) (add (a * a) (b * b)).1 (add (a * a) (b * b)).2)
    (hs' : Num (magT 2 t) (add (a * a) (b * b)).1 (add (a * a) (b * b)).2) :
    (reciprocal q t oq d add a b).isSome ∧ (reciprocalHa q t oq d add a b).isSome ∧ (reciprocalVha q t oq d add a b).isSome := by
  have w1 : 2 ≤ (magT 1 t).W := by simp only [magT]; omega
  have w2 : 2 ≤ (magT 2 t).W := by simp only [magT]; omega
  unfold reciprocal reciprocalHa reciprocalVha
  simp only []
  by_cases h0 : (add (a * a) (b * b)).1 = 0
  · rw [h0, (C60_zero q oq _ _ _).1, (C60_zero q oq _ _ _).2.1, (C60_zero q oq _ _ _).2.2]
    exact ⟨rfl, rfl, rfl⟩
  · obtain ⟨ρ, -, h1⟩ := C60_reciprocal
    obtain ⟨ρ', -, h2⟩ := C60_reciprocal_ha
    obtain ⟨ρ'', -, h3⟩ := C60_reciprocal_vha
    rw [h1 q oq _ _ _ _ w2 hs' h0, h2 q oq _ _ _ _ w2 hs' h0, h3 q oq _ _ _ _ w1 hs h0]
    exact ⟨rfl, rfl, rfl⟩

/-- **C78**: the output is the conversion of the conjugate times a number `c`, which is the reciprocal of the squared magnitude up
to 1/500 and the error of the addition, for all numbers of the type, normalised or not. -/
theorem C78_reciprocal (q oq : QMode) (t : FFmt) (hW : 2 ≤ t.W) (hE : 1 ≤ t.E) (d : Dst) (add : ℚ → ℚ → ℚ × ℤ) (a b η : ℚ)
    (hz : a ≠ 0 ∨ b ≠ 0) (hη : η < 1) (hs : Sums (magT 2 t) η (add (a * a) (b * b)) (a * a + b * b)) :
    ∃ c, reciprocal q t oq d add a b = some (d.cvt (a * c), d.cvt (-b * c)) ∧
      |c * (a * a + b * b) - 1| ≤ total (1 / 500) η := by
  have hN := norm_pos hz
  obtain ⟨p1, p2⟩ := sum_pos hη hN hs
  obtain ⟨ρ, ha, h1⟩ := C60_reciprocal
  have hr := h1 q oq (magT 2 t) (recT 10 4 t oq).dst _ _ (by simp only [magT]; omega) hs.1 p2
  refine ⟨_, ?_, to_total hη (Proof.FloatComplex.transfer hN
    (le_trans (Proof.FloatComplex.base (p := 10) (lg := 4) oq hW hE (ε := 1 / 512) (by norm_num) (by norm_num) hs.1.1 hs.1.2.1 hs.1.2.2 p1
      (ha.1 _ p1.ne')) (by norm_num)) hs.2)⟩
  unfold reciprocal
  simp only []
  rw [hr]
  show some (finish _ _ _ _ _) = _
  unfold finish
  rw [if_pos p2]; rfl

/-- **C78** for `ac_reciprocal_pwl_ha`: 1/8100. -/
theorem C78_reciprocal_ha (q oq : QMode) (t : FFmt) (hW : 2 ≤ t.W) (hE : 1 ≤ t.E) (d : Dst) (add : ℚ → ℚ → ℚ × ℤ) (a b η : ℚ)
    (hz : a ≠ 0 ∨ b ≠ 0) (hη : η < 1) (hs : Sums (magT 2 t) η (add (a * a) (b * b)) (a * a + b * b)) :
    ∃ c, reciprocalHa q t oq d add a b = some (d.cvt (a * c), d.cvt (-b * c)) ∧
      |c * (a * a + b * b) - 1| ≤ total (1 / 8100) η := by
  have hN := norm_pos hz
  obtain ⟨p1, p2⟩ := sum_pos hη hN hs
  obtain ⟨ρ, ha, h1⟩ := C60_reciprocal_ha
  have hr := h1 q oq (magT 2 t) (recT 16 6 t oq).dst _ _ (by simp only [magT]; omega) hs.1 p2
  refine ⟨_, ?_, to_total hη (Proof.FloatComplex.transfer hN
    (le_trans (Proof.FloatComplex.base (p := 16) (lg := 6) oq hW hE (ε := 1 / 8192) (by norm_num) (by norm_num) hs.1.1 hs.1.2.1 hs.1.2.2 p1
      (ha.1 _ p1.ne')) (by norm_num)) hs.2)⟩
  unfold reciprocalHa
  simp only []
  rw [hr]
  show some (finish _ _ _ _ _) = _
  unfold finish
  rw [if_pos p2]; rfl

/-- **C78** for `ac_reciprocal_pwl_vha`: 1/24000.  The type it uses for the reciprocal of the squared magnitude must be able to
hold it: the exponent of the input is wide enough for its mantissa, or the input is not too small. -/
theorem C78_reciprocal_vha_partial (q oq : QMode) (t : FFmt) (hW : 1 ≤ t.W) (hE : 1 ≤ t.E) (d : Dst) (add : ℚ → ℚ → ℚ × ℤ)
    (a b η : ℚ) (hz : a ≠ 0 ∨ b ≠ 0) (hη : η < 1) (hs : Sums (magT 1 t) η (add (a * a) (b * b)) (a * a + b * b))
    (hfit : 2 * t.W + 2 ≤ 3 * 2 ^ t.E ∨ (2 : ℚ) ^ (2 * t.I + 2 - 2 ^ (t.E + 2)) ≤ (1 - η) * (a * a + b * b)) :
    ∃ c, reciprocalVha q t oq d add a b = some (d.cvt (a * c), d.cvt (-b * c)) ∧
      |c * (a * a + b * b) - 1| ≤ total (1 / 24000) η := by
  have hN := norm_pos hz
  obtain ⟨p1, p2⟩ := sum_pos hη hN hs
  obtain ⟨ρ, ha, h1⟩ := C60_reciprocal_vha
  have hr := h1 q oq (magT 1 t) (recTVha t oq).dst _ _ (by simp only [magT]; omega) hs.1 p2
  have hS : (2 : ℚ) ^ (2 * t.I + 2 - 2 ^ (t.E + 2)) ≤ (add (a * a) (b * b)).1 * 2 ^ (add (a * a) (b * b)).2 := by
    rcases hfit with h | h
    · refine le_trans (Fmt.z_le ?_) (Proof.FloatComplex.num_bounds (t := magT 1 t) (by simp [magT]) hs.1.1 hs.1.2.1 hs.1.2.2 p1).1
      have h' : (2 * t.W + 2 : ℤ) ≤ 3 * 2 ^ t.E := by exact_mod_cast h
      simp only [magT, Nat.add_sub_cancel]
      push_cast
      rw [pow_add]
      linarith
    · exact le_trans h (sum_low hs)
  refine ⟨_, ?_, to_total hη (Proof.FloatComplex.transfer hN
    (le_trans (Proof.FloatComplex.vha oq hE (ε := 1 / 30000) (by norm_num) (by norm_num) hs.1.1 hs.1.2.1 hs.1.2.2 hS
      (ha.1 _ p1.ne')) (by norm_num)) hs.2)⟩
  unfold reciprocalVha
  simp only []
  rw [hr]
  show some (finish _ _ _ _ _) = _
  unfold finish
  rw [if_pos p2]; rfl

/-- An addition that is exact for 3² + 4²: 25 = 25/1024 * 2^10 in `ac_float<17,5,6>`. -/
example : Sums (magT 2 ⟨8, 2, 4, .TRN⟩) 0 (25 / 1024, 10) (3 * 3 + 4 * 4) ∧ Sums (magT 1 ⟨8, 2, 4, .TRN⟩) 0 (25 / 1024, 10) (3 * 3 + 4 * 4) ∧
    2 * 8 + 2 ≤ 3 * 2 ^ 4 :=
  ⟨⟨⟨⟨100, by decide, by decide, by decide +kernel⟩, by decide, by decide⟩, by decide +kernel⟩,
   ⟨⟨⟨100, by decide, by decide, by decide +kernel⟩, by decide, by decide⟩, by decide +kernel⟩, by decide⟩

example : reciprocal .TRN ⟨8, 2, 4, .TRN⟩ .TRN (FFmt.dst ⟨16, 2, 8, .TRN⟩) (fun _ _ => (25 / 1024, 10)) 3 (-4) =
    some (7869 / 65536, 2623 / 16384) := by decide +kernel

/-- **C78**, the output itself: for an output of type `ac_float<o.W,o.I,o.E,o.Q>` that holds the reciprocal, each part is within the
error above, two units in the last place and one unit of the smallest number of the exact one. -/
theorem C78_output (o : FFmt) (a b c δ : ℚ) (hz : a ≠ 0 ∨ b ≠ 0) (h : |c * (a * a + b * b) - 1| ≤ δ)
    (hr : (1 + δ) * (|a| / (a * a + b * b)) ≤ o.maxVal) (hi : (1 + δ) * (|b| / (a * a + b * b)) ≤ o.maxVal) :
    |o.dst.cvt (a * c) - a / (a * a + b * b)| ≤
      (|a| / (a * a + b * b)) * (δ + (1 + δ) * 2 ^ (2 - (o.W : ℤ))) + 2 ^ (o.I - o.W - 2 ^ (o.E - 1)) ∧
    |o.dst.cvt (-b * c) - -b / (a * a + b * b)| ≤
      (|b| / (a * a + b * b)) * (δ + (1 + δ) * 2 ^ (2 - (o.W : ℤ))) + 2 ^ (o.I - o.W - 2 ^ (o.E - 1)) := by
  have hN := norm_pos hz
  have key : ∀ x : ℚ, (1 + δ) * (|x| / (a * a + b * b)) ≤ o.maxVal → |o.dst.cvt (x * c) - x / (a * a + b * b)| ≤
      (|x| / (a * a + b * b)) * (δ + (1 + δ) * 2 ^ (2 - (o.W : ℤ))) + 2 ^ (o.I - o.W - 2 ^ (o.E - 1)) := by
    intro x hx
    have e1 : x * c - x / (a * a + b * b) = x / (a * a + b * b) * (c * (a * a + b * b) - 1) := by
      generalize a * a + b * b = N at hN
      field_simp
    have e2 : |x * c - x / (a * a + b * b)| ≤ |x| / (a * a + b * b) * δ := by
      rw [e1, abs_mul, abs_div, abs_of_pos hN]
      exact mul_le_mul_of_nonneg_left h (div_nonneg (abs_nonneg _) hN.le)
    have e3 : |x * c| ≤ (1 + δ) * (|x| / (a * a + b * b)) := by
      have := abs_add_le (x * c - x / (a * a + b * b)) (x / (a * a + b * b))
      rw [sub_add_cancel, abs_div x, abs_of_pos hN] at this
      linarith
    obtain ⟨c1, c2⟩ := abs_le.1 (e3.trans hx)
    have e4 := Proof.FloatCvt.cvt_abs (le_trans (Proof.FloatRec.minVal_le o) c1) c2
    have e5 := mul_le_mul_of_nonneg_right e3 (Fmt.z_pos (2 - (o.W : ℤ))).le
    have e6 : |o.cvt (x * c) - x / (a * a + b * b)| ≤ |o.cvt (x * c) - x * c| + |x * c - x / (a * a + b * b)| := abs_sub_le _ _ _
    show |o.cvt (x * c) - x / (a * a + b * b)| ≤ _
    linarith
  refine ⟨key a hr, ?_⟩
  have := key (-b) (by rwa [abs_neg])
  rwa [abs_neg] at this

example : |(1 / 25 : ℚ) * (3 * 3 + -4 * -4) - 1| ≤ 1 / 500 ∧
    (1 + 1 / 500) * (|(3 : ℚ)| / (3 * 3 + -4 * -4)) ≤ (FFmt.mk 16 2 8 .TRN).maxVal ∧
    (1 + 1 / 500) * (|(-4 : ℚ)| / (3 * 3 + -4 * -4)) ≤ (FFmt.mk 16 2 8 .TRN).maxVal := by decide +kernel

/-- **C78**, zero: both parts of the output are the largest value of the type. -/
theorem C78_zero (q oq : QMode) (t : FFmt) (d : Dst) (add : ℚ → ℚ → ℚ × ℤ) (h : (add 0 0).1 = 0) :
    reciprocal q t oq d add 0 0 = some (d.maxVal, d.maxVal) ∧ reciprocalHa q t oq d add 0 0 = some (d.maxVal, d.maxVal) ∧
    reciprocalVha q t oq d add 0 0 = some (d.maxVal, d.maxVal) := by
  unfold reciprocal reciprocalHa reciprocalVha
  simp only [mul_zero]
  rw [h, (C60_zero q oq _ _ _).1, (C60_zero q oq _ _ _).2.1, (C60_zero q oq _ _ _).2.2]
  refine ⟨?_, ?_, ?_⟩ <;>
  · show some (finish _ _ _ _ _) = _
    unfold finish; rw [if_neg (by simp)]

example : ((fun _ _ => (0, 0) : ℚ → ℚ → ℚ × ℤ) 0 0).1 = 0 := rfl

/-- The third version for a small number of a type with few exponent bits: 2^-20 in `ac_float<20,2,2>`, whose square 2^-40 is
exact.  The reciprocal of the square is cut to 4095, and the output is 0.0039 instead of 2^20; the first version gives
1047040. -/
theorem C78_vha_small_wrong :
    Num ⟨20, 2, 2, .TRN⟩ (1 / 2 ^ 18) (-2) ∧ Sums (magT 1 ⟨20, 2, 2, .TRN⟩) 0 (1 / 2 ^ 36, -4) (1 / 2 ^ 20 * (1 / 2 ^ 20) + 0 * 0) ∧
    reciprocalVha .TRN ⟨20, 2, 2, .TRN⟩ .TRN (FFmt.dst ⟨32, 2, 8, .TRN⟩) (fun _ _ => (1 / 2 ^ 36, -4)) (1 / 2 ^ 20) 0 =
      some (2147483647 / 549755813888, 0) ∧
    reciprocal .TRN ⟨20, 2, 2, .TRN⟩ .TRN (FFmt.dst ⟨32, 2, 8, .TRN⟩) (fun _ _ => (1 / 2 ^ 36, -4)) (1 / 2 ^ 20) 0 =
      some (1047040, 0) := by
  refine ⟨⟨⟨1, by decide, by decide, by decide +kernel⟩, by decide, by decide⟩,
    ⟨⟨⟨1, by decide, by decide, by decide +kernel⟩, by decide, by decide⟩, by decide +kernel⟩, ?_, ?_⟩ <;> decide +kernel

end Props.FloatComplex
