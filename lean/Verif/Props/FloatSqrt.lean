import Verif.Proof.FloatIsqrt
import Verif.Props.FloatRec
import Mathlib.Data.Real.Sqrt

/-! # C61: the PWL square roots and inverse square roots of ac_float

`sqrtPwl q t d m e` is the output of `ac_sqrt_pwl<q>` for the ac_float number `m * 2^e` of type `t`, `none` for a table read out
of bounds; `inverseSqrtPwl` and `inverseSqrtPwlVha` are the inverse square roots.  `d` is the conversion of an exact value to the
output type (`o.dst` for the output type `ac_float<o.W,o.I,o.E,o.Q>`) and `oq` the rounding mode of the output. -/

namespace Props.FloatSqrt
open Ac Model.Float Props.FloatRec Proof.FloatSqrt

/-- The mantissa is normalised: its leading bit is just below the sign. -/
def Normal (t : FFmt) (m : ℚ) : Prop := 2 ^ (t.I - 2) ≤ m

/-- The square root from its square. -/
theorem near_sqrt {y x : ℚ} {ε δ : ℝ} (hx : 0 < x) (hy : 0 < y) (hδ : 0 ≤ δ) (hε : δ ≤ 1)
    (h1 : (1 - δ) ^ 2 * x ≤ (y : ℝ) ^ 2) (h2 : (y : ℝ) ^ 2 ≤ (1 + δ) ^ 2 * x) (hε : δ ≤ ε) :
    |(y : ℝ) - Real.sqrt x| ≤ ε * Real.sqrt x := by
  have hx' : (0 : ℝ) < x := by exact_mod_cast hx
  have hy' : (0 : ℝ) < y := by exact_mod_cast hy
  set s := Real.sqrt x with hs
  have hss : s ^ 2 = x := Real.sq_sqrt hx'.le
  have hs0 : 0 < s := Real.sqrt_pos.2 hx'
  rw [← hss] at h1 h2
  have l : (1 - δ) * s ≤ y := by
    apply le_of_sq_le_sq _ hy'.le; rw [mul_pow]; exact h1
  have u : (y : ℝ) ≤ (1 + δ) * s := by
    apply le_of_sq_le_sq _ (mul_nonneg (by linarith) hs0.le); rw [mul_pow]; exact h2
  have := mul_le_mul_of_nonneg_right hε hs0.le
  rw [abs_le]; constructor <;> linarith

theorem near_isqrt {y x : ℚ} {ε δ : ℝ} (hx : 0 < x) (hy : 0 < y) (hδ : 0 ≤ δ)
    (h1 : (1 - δ) ^ 2 ≤ (y : ℝ) ^ 2 * x) (h2 : (y : ℝ) ^ 2 * x ≤ (1 + δ) ^ 2) (hε : δ ≤ ε) :
    |(y : ℝ) * Real.sqrt x - 1| ≤ ε := by
  have hx' : (0 : ℝ) < x := by exact_mod_cast hx
  have hy' : (0 : ℝ) < y := by exact_mod_cast hy
  set s := Real.sqrt x with hs
  have hss : s ^ 2 = x := Real.sq_sqrt hx'.le
  have hs0 : 0 < s := Real.sqrt_pos.2 hx'
  rw [← hss, ← mul_pow] at h1 h2
  have p0 := mul_pos hy' hs0
  have l : 1 - δ ≤ y * s := le_of_sq_le_sq h1 p0.le
  have u : y * s ≤ 1 + δ := le_of_sq_le_sq h2 (by linarith)
  rw [abs_le]; constructor <;> linarith

theorem val_pos {m : ℚ} (h : 0 < m) (e : ℤ) : 0 < m * 2 ^ e := mul_pos h (Fmt.z_pos e)

/-- **C61**: the square root of a normalised number is right up to 1/850 before its conversion to the output type. -/
theorem C61_sqrt_partial (q : QMode) (t : FFmt) (d : Dst) (m : ℚ) (e : ℤ) (hW : 2 ≤ t.W) (hm : Num t m e) (hn : Normal t m) :
    ∃ y : ℚ, sqrtPwl q t d m e = some (d.cvt y) ∧ 0 < y ∧
      |(y : ℝ) - Real.sqrt ((m * 2 ^ e : ℚ) : ℝ)| ≤ 1 / 850 * Real.sqrt ((m * 2 ^ e : ℚ) : ℝ) := by
  obtain ⟨y, h1, y0, he⟩ := sqrt_err q hW hm.1 hn d e
  have hx := val_pos (lt_of_lt_of_le (Fmt.z_pos (t.I - 2)) hn) e
  refine ⟨y, h1, y0, ?_⟩
  obtain ⟨e1, e2⟩ := abs_le.1 he
  have e1' := (Rat.cast_le (K := ℝ)).2 e1
  have e2' := (Rat.cast_le (K := ℝ)).2 e2
  have hx' : (0 : ℝ) < ((m * 2 ^ e : ℚ) : ℝ) := by exact_mod_cast hx
  generalize m * 2 ^ e = x at *
  push_cast at e1' e2'
  exact near_sqrt (δ := 1 / 850) hx y0 (by norm_num) (by norm_num) (by linarith) (by linarith) le_rfl

/-- **C61**: the inverse square root of a normalised number is right up to 1/1100 before its conversion. -/
theorem C61_inverse_sqrt_partial (q oq : QMode) (t : FFmt) (d : Dst) (m : ℚ) (e : ℤ) (hW : 3 ≤ t.W) (hm : Num t m e)
    (hn : Normal t m) :
    ∃ y : ℚ, inverseSqrtPwl q t oq d m e = some (d.cvt y) ∧ 0 < y ∧ |(y : ℝ) * Real.sqrt ((m * 2 ^ e : ℚ) : ℝ) - 1| ≤ 1 / 1100 := by
  obtain ⟨y, h1, y0, he⟩ := isqrt_err q oq hW hm.1 hn d e
  have hx := val_pos (lt_of_lt_of_le (Fmt.z_pos (t.I - 2)) hn) e
  refine ⟨y, h1, y0, ?_⟩
  obtain ⟨e1, e2⟩ := abs_le.1 he
  have e1' := (Rat.cast_le (K := ℝ)).2 e1
  have e2' := (Rat.cast_le (K := ℝ)).2 e2
  generalize m * 2 ^ e = x at *
  push_cast at e1' e2'
  exact near_isqrt (δ := 1 / 1100) hx y0 (by norm_num) (by linarith) (by linarith) le_rfl

/-- **C61**: `ac_inverse_sqrt_pwl_vha` of any positive number, normalised or not, is right up to 1/17000 before its conversion. -/
theorem C61_inverse_sqrt_vha (q oq : QMode) (t : FFmt) (d : Dst) (m : ℚ) (e : ℤ) (hW : 2 ≤ t.W) (hm : Num t m e) (h0 : 0 < m) :
    ∃ y : ℚ, inverseSqrtPwlVha q t oq d m e = some (d.cvt y) ∧ 0 < y ∧
      |(y : ℝ) * Real.sqrt ((m * 2 ^ e : ℚ) : ℝ) - 1| ≤ 1 / 17000 := by
  obtain ⟨y, h1, y0, he⟩ := isqrtVha_err q oq hW hm.1 h0 d hm.2.1
  have hx := val_pos h0 e
  refine ⟨y, h1, y0, ?_⟩
  obtain ⟨e1, e2⟩ := abs_le.1 he
  have e1' := (Rat.cast_le (K := ℝ)).2 e1
  have e2' := (Rat.cast_le (K := ℝ)).2 e2
  generalize m * 2 ^ e = x at *
  push_cast at e1' e2'
  exact near_isqrt (δ := 1 / 17000) hx y0 (by norm_num) (by linarith) (by linarith) le_rfl

/-- 3/2 * 2^-7 in `ac_float<8,2,4>`. -/
example : Num ⟨8, 2, 4, .TRN⟩ (3 / 2) (-7) ∧ Normal ⟨8, 2, 4, .TRN⟩ (3 / 2) :=
  ⟨⟨⟨96, by decide, by decide, by decide +kernel⟩, by decide, by decide⟩, by unfold Normal; norm_num⟩

example : sqrtPwl .TRN ⟨8, 2, 4, .TRN⟩ (FFmt.dst ⟨24, 2, 8, .TRN⟩) (3 / 2) (-7) = some (1817187 / 16777216) ∧
    inverseSqrtPwl .TRN ⟨8, 2, 4, .TRN⟩ .TRN (FFmt.dst ⟨24, 2, 8, .TRN⟩) (3 / 2) (-7) = some (4840437 / 524288) := by decide +kernel

/-- **C61**, zero: the square root is zero and the inverse square roots are the largest value of the output type. -/
theorem C61_zero (q oq : QMode) (t : FFmt) (d : Dst) (e : ℤ) (hW : 2 ≤ t.W) : sqrtPwl q t d 0 e = some (d.cvt 0) ∧
    inverseSqrtPwl q t oq d 0 e = some d.maxVal ∧ inverseSqrtPwlVha q t oq d 0 e = some d.maxVal := by
  have hc : (posMant t).cvt (0 : ℚ) = 0 := Fmt.cvt_zero' (by show 1 ≤ t.W - 1; omega)
  refine ⟨?_, ?_, ?_⟩
  · obtain ⟨y, hy, h0⟩ := Proof.SqrtPwl.sqrt_some q false (posMant t) (Model.Complex.rtSqrt (t.W - t.I) (t.I - 1)) 0
    have hy0 : y = 0 := by rw [h0 rfl, Fmt.cvt_zero' (rt_W hW)]
    unfold sqrtPwl
    rw [hc]
    simp only [hy, hy0, Option.bind_eq_bind, Option.bind_some, zero_mul, ite_self]
    rw [Fmt.cvt_zero' (by have := rt_W hW; show 1 ≤ _ + _; omega), zero_mul]
  · obtain ⟨y, hy⟩ := Proof.IsqrtPwl.inverseSqrt_some q false (posMant t)
      ⟨(rtIsqI (t.W - t.I) + rtIsqF (t.I - 1)).toNat, rtIsqI (t.W - t.I), false, q, .WRAP⟩ 0
    unfold inverseSqrtPwl
    rw [hc]
    simp only [hy]; rfl
  · have hn : (renorm t (Etemp t) 0 e).1 = 0 := by unfold renorm; simp
    obtain ⟨y, hy⟩ := Proof.IsqrtVha.inverseSqrtVha_some q false (posMant t)
      ⟨2 * 16 - (if t.I.tmod 2 = 0 then 3 else 5), isqVhaI t.I, false, q, .WRAP⟩ 0
    unfold inverseSqrtPwlVha
    simp only [hn, hc, hy]; rfl

/-- **C61** fails for numbers that are not normalised: the square root of 2^-12 is returned as more than four times 2^-6, and
its inverse square root as less than a quarter of 2^6.  (`ac_inverse_sqrt_pwl_vha` is right.) -/
theorem C61_subnormal_counterexample :
    Num ⟨8, 2, 4, .TRN⟩ (1 / 16) (-8) ∧ ((1 / 16 : ℚ) * 2 ^ (-8 : ℤ) = (1 / 64) ^ 2) ∧
    (∃ y, sqrtPwl .TRN ⟨8, 2, 4, .TRN⟩ (FFmt.dst ⟨24, 2, 8, .TRN⟩) (1 / 16) (-8) = some y ∧ 4 * (1 / 64) < y) ∧
    (∃ y, inverseSqrtPwl .TRN ⟨8, 2, 4, .TRN⟩ .TRN (FFmt.dst ⟨24, 2, 8, .TRN⟩) (1 / 16) (-8) = some y ∧ y < 64 / 4) := by
  refine ⟨⟨⟨4, by decide, by decide, by decide +kernel⟩, by decide, by decide⟩, by norm_num, ⟨67535 / 1048576, by decide +kernel, by norm_num⟩,
    ⟨2035707 / 131072, by decide +kernel, by norm_num⟩⟩

/-- `r` is in the normal range of the type, with a margin `ε`. -/
def InNormal (o : FFmt) (ε r : ℝ) : Prop :=
  ((2 ^ (o.I - 2 - 2 ^ (o.E - 1)) : ℚ) : ℝ) ≤ (1 - ε) * r ∧ (1 + ε) * r ≤ ((o.maxVal : ℚ) : ℝ)

theorem output {o : FFmt} {y : ℚ} {r ε : ℝ} (hy : 0 < y) (hr : 0 < r) (h : |(y : ℝ) - r| ≤ ε * r) (hn : InNormal o ε r) :
    |((o.cvt y : ℚ) : ℝ) - r| ≤ (ε + (1 + ε) * 2 ^ (2 - (o.W : ℤ))) * r := by
  obtain ⟨h1, h2⟩ := abs_le.1 h
  have a : 2 ^ (o.I - 2 - 2 ^ (o.E - 1)) ≤ |y| := by
    rw [abs_of_pos hy]
    have : ((2 ^ (o.I - 2 - 2 ^ (o.E - 1)) : ℚ) : ℝ) ≤ ((y : ℚ) : ℝ) := by linarith [hn.1]
    exact_mod_cast (Rat.cast_le (K := ℝ)).1 this
  have b : y ≤ o.maxVal := by
    have : ((y : ℚ) : ℝ) ≤ ((o.maxVal : ℚ) : ℝ) := by linarith [hn.2]
    exact (Rat.cast_le (K := ℝ)).1 this
  have c : o.minVal ≤ y := by
    have := Proof.FloatRec.minVal_le (o := o)
    linarith
  have e := Proof.Float.cvt_err a c b
  rw [abs_of_pos hy] at e
  have e' := (Rat.cast_le (K := ℝ)).2 e
  push_cast at e'
  have hz : (0 : ℝ) < 2 ^ (2 - (o.W : ℤ)) := zpow_pos (by norm_num) _
  have k := mul_le_mul_of_nonneg_right (show (y : ℝ) ≤ (1 + ε) * r by linarith) hz.le
  obtain ⟨e1, e2⟩ := abs_le.1 e'
  rw [abs_le]
  constructor <;> nlinarith

/-- **C61**, the outputs themselves: if the result is in the normal range of the output type `ac_float<o.W,o.I,o.E,o.Q>`, its
relative error is that of the table plus less than two units in the last place of the mantissa. -/
theorem C61_output_partial (q oq : QMode) (t o : FFmt) (m : ℚ) (e : ℤ) (hW : 3 ≤ t.W) (hm : Num t m e) (h0 : 0 < m)
    {r : ℝ} (hr : r = Real.sqrt ((m * 2 ^ e : ℚ) : ℝ)) :
    (Normal t m → InNormal o (1 / 850) r → ∃ y, sqrtPwl q t o.dst m e = some y ∧
      |(y : ℝ) - r| ≤ (1 / 850 + (1 + 1 / 850) * 2 ^ (2 - (o.W : ℤ))) * r) ∧
    (Normal t m → InNormal o (1 / 1100) (1 / r) → ∃ y, inverseSqrtPwl q t oq o.dst m e = some y ∧
      |(y : ℝ) - 1 / r| ≤ (1 / 1100 + (1 + 1 / 1100) * 2 ^ (2 - (o.W : ℤ))) * (1 / r)) ∧
    (InNormal o (1 / 17000) (1 / r) → ∃ y, inverseSqrtPwlVha q t oq o.dst m e = some y ∧
      |(y : ℝ) - 1 / r| ≤ (1 / 17000 + (1 + 1 / 17000) * 2 ^ (2 - (o.W : ℤ))) * (1 / r)) := by
  have hr0 : 0 < r := by
    rw [hr]; apply Real.sqrt_pos.2; exact_mod_cast val_pos h0 e
  have inv : ∀ (y : ℚ) (ε : ℝ), |(y : ℝ) * r - 1| ≤ ε → |(y : ℝ) - 1 / r| ≤ ε * (1 / r) := by
    intro y ε h
    have : (y : ℝ) - 1 / r = ((y : ℝ) * r - 1) * (1 / r) := by field_simp
    rw [this, abs_mul, abs_of_pos (one_div_pos.2 hr0)]
    exact mul_le_mul_of_nonneg_right h (one_div_pos.2 hr0).le
  refine ⟨fun hn ho => ?_, fun hn ho => ?_, fun ho => ?_⟩
  · obtain ⟨y, h1, y0, he⟩ := C61_sqrt_partial q t o.dst m e (by omega) hm hn
    rw [← hr] at he
    exact ⟨_, h1, output y0 hr0 he ho⟩
  · obtain ⟨y, h1, y0, he⟩ := C61_inverse_sqrt_partial q oq t o.dst m e hW hm hn
    rw [← hr] at he
    exact ⟨_, h1, output y0 (one_div_pos.2 hr0) (inv _ _ he) ho⟩
  · obtain ⟨y, h1, y0, he⟩ := C61_inverse_sqrt_vha q oq t o.dst m e (by omega) hm h0
    rw [← hr] at he
    exact ⟨_, h1, output y0 (one_div_pos.2 hr0) (inv _ _ he) ho⟩

/-- The square root of 1, and its inverse, are well inside the range of `ac_float<8,2,4>`. -/
example : InNormal ⟨8, 2, 4, .TRN⟩ (1 / 850) 1 := by
  have h : (FFmt.maxVal ⟨8, 2, 4, .TRN⟩ : ℚ) = 127 / 64 * 128 := by decide +kernel
  unfold InNormal
  rw [h]; norm_num

end Props.FloatSqrt
