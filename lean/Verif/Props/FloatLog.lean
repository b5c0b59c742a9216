import Verif.Proof.FloatLog
import Verif.Props.FloatSqrt

/-! # C62: the PWL logarithms of ac_float

`log2Pwl q t d m e` is the output of `ac_log2_pwl<q>` for the ac_float number `m * 2^e` of type `t`, and `logPwl` that of
`ac_log_pwl<q>`; `none` stands for a table read out of bounds.  `d` is the conversion of an exact value to the output type. -/

namespace Props.FloatLog
open Ac Model.Float Props.FloatRec Props.FloatSqrt Proof.FloatLog

/-- **C62**: one function of the value of the input, whatever its type, gives the base 2 logarithm of a normalised number before
its conversion to the output type.  It is increasing and within 1/600 of the real logarithm.  The natural logarithm is a
constant times the same function, within 1/860 plus a part in 450000 of the real one. -/
theorem C62_log_partial : ∃ l : ℚ → ℚ,
    (∀ x x' : ℚ, 0 < x → x ≤ x' → l x ≤ l x') ∧
    (∀ x : ℚ, 0 < x → |(l x : ℝ) - Real.logb 2 x| ≤ 1 / 600) ∧
    (∀ x : ℚ, 0 < x → |((l x * ln2 : ℚ) : ℝ) - Real.log x| ≤ 1 / 860 + |Real.log x| / 450000) ∧
    ∀ (q : QMode) (t : FFmt) (d : Dst) (m : ℚ) (e : ℤ), 2 ≤ t.W → Num t m e → Normal t m →
      log2Pwl q t d m e = some (d.cvt (l (m * 2 ^ e))) ∧ logPwl q t d m e = some (d.cvt (l (m * 2 ^ e) * ln2)) := by
  refine ⟨lam, fun x x' h h' => isLog_mono (lam_isLog h) (lam_isLog (lt_of_lt_of_le h h')) h', fun x h => isLog_err (lam_isLog h), ?_, ?_⟩
  · intro x h
    have h1 := isLog_err (lam_isLog h)
    have l1 := Real.log_two_gt_d9
    have l2 := Real.log_two_lt_d9
    have hl : Real.log x = Real.logb 2 x * Real.log 2 := by
      rw [Real.logb, div_mul_cancel₀]; linarith
    unfold Model.Float.ln2
    rw [hl, abs_mul, abs_of_pos (by linarith : 0 < Real.log 2)]
    push_cast
    generalize Real.logb 2 (x : ℝ) = L at *
    generalize Real.log 2 = c at *
    generalize ((lam x : ℚ) : ℝ) = t at *
    have e : t * (22713 / 32768) - L * c = (t - L) * (22713 / 32768) + L * (22713 / 32768 - c) := by ring
    rw [e]
    refine le_trans (abs_add_le _ _) ?_
    rw [abs_mul, abs_mul]
    have a1 : |(22713 / 32768 : ℝ)| = 22713 / 32768 := abs_of_pos (by norm_num)
    have a2 : |(22713 / 32768 : ℝ) - c| ≤ c / 450000 := by rw [abs_le]; constructor <;> norm_num at l1 l2 ⊢ <;> linarith
    rw [a1]
    have b1 := mul_le_mul_of_nonneg_right h1 (show (0 : ℝ) ≤ 22713 / 32768 by norm_num)
    have b2 := mul_le_mul_of_nonneg_left a2 (abs_nonneg L)
    have b3 : |L| * (c / 450000) = |L| * c / 450000 := by ring
    norm_num at b1 b2 b3 ⊢
    linarith
  · intro q t d m e hW hm hn
    have hm0 : 0 < m := lt_of_lt_of_le (Fmt.z_pos _) hn
    have h0 : logMant t m ≠ 0 := by
      rw [(logMant_eq hW hm.1 hm0.le).1]; exact (mul_pos hm0 (Fmt.z_pos _)).ne'
    unfold log2Pwl logPwl
    rw [logSum_eq q hW hm.1 hn]
    simp [h0]

example : Num ⟨8, 2, 4, .TRN⟩ (3 / 2) (-7) ∧ Normal ⟨8, 2, 4, .TRN⟩ (3 / 2) :=
  ⟨⟨⟨96, by decide, by decide, by decide +kernel⟩, by decide, by decide⟩, by unfold Normal; norm_num⟩

example : log2Pwl .TRN ⟨8, 2, 4, .TRN⟩ (FFmt.dst ⟨24, 2, 8, .TRN⟩) (3 / 2) (-7) = some (-13137 / 2048) := by decide +kernel

/-- **C62**, zero: the smallest value of the output type. -/
theorem C62_zero (q : QMode) (t : FFmt) (d : Dst) (e : ℤ) (hW : 2 ≤ t.W) :
    log2Pwl q t d 0 e = some d.minVal ∧ logPwl q t d 0 e = some d.minVal := by
  have h0 : logMant t 0 = 0 := by
    rw [(logMant_eq (t := t) hW (m := 0) ⟨0, minRaw_nonpos _ _, maxRaw_nonneg _ _, by simp [Fmt.val]⟩ le_rfl).1, zero_mul]
  obtain ⟨y, hy, -⟩ := Proof.LogPwl.log2_some q false ⟨t.W - 1, 0, false, .TRN, .WRAP⟩ ⟨23, 1, true, .TRN, .WRAP⟩ 0
  unfold log2Pwl logPwl logSum
  rw [h0, hy]
  simp

example : (FFmt.dst ⟨8, 2, 4, .TRN⟩).minVal = -256 := by decide +kernel

/-- **C62**, safety: no number, normalised or not, makes the functions read outside their table. -/
theorem C62_in_table (q : QMode) (t : FFmt) (d : Dst) (m : ℚ) (e : ℤ) : (log2Pwl q t d m e).isSome ∧ (logPwl q t d m e).isSome := by
  obtain ⟨y, hy, -⟩ := Proof.LogPwl.log2_some q false ⟨t.W - 1, 0, false, .TRN, .WRAP⟩ ⟨23, 1, true, .TRN, .WRAP⟩ (logMant t m)
  unfold log2Pwl logPwl logSum
  rw [hy]
  simp

/-- **C62** fails for numbers that are not normalised: the logarithm of 2^-12 is returned as more than -8. -/
theorem C62_subnormal_counterexample :
    Num ⟨8, 2, 4, .TRN⟩ (1 / 16) (-8) ∧ ((1 / 16 : ℚ) * 2 ^ (-8 : ℤ) = 2 ^ (-12 : ℤ)) ∧
    ∃ y, log2Pwl .TRN ⟨8, 2, 4, .TRN⟩ (FFmt.dst ⟨24, 2, 8, .TRN⟩) (1 / 16) (-8) = some y ∧ -8 < y :=
  ⟨⟨⟨4, by decide, by decide, by decide +kernel⟩, by decide, by decide⟩, by norm_num, -16207 / 2048, by decide +kernel, by norm_num⟩

end Props.FloatLog
