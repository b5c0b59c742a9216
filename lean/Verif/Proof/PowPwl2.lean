import Verif.Proof.PowPwl
import Verif.Proof.LogPwl2

/-! # Lemmas for C39 -/

namespace Proof.PowPwl
open Ac Model.Pwl Model.PwlFixed Model.Normalize Proof.Pwl Proof.PwlFixed Proof.Shift

theorem pow_eq (q : QMode) {f fe out : Fmt} (hW : 1 ≤ f.W) (hS : f.S = false) (hWe : 1 ≤ fe.W) (ho : 1 ≤ out.W) (hSo : out.S = false)
    {b e : ℚ} (hb : f.Rep b) (he : fe.Rep e) (h : 0 < b) :
    pow q f fe out b e = some (out.cvt (core (e * LogPwl.core true f b))) := by
  unfold pow
  simp only [LogPwl.log2_eq .TRN true hW hS hb h (Or.inl rfl), LogPwl.log_cvt q hW hS hb h, Option.bind_eq_bind, Option.bind_some]
  have hfl : 1 ≤ (⟨22 + logI f, logI f, true, q, .WRAP⟩ : Fmt).W := by simp; omega
  have hl : (⟨22 + logI f, logI f, true, q, .WRAP⟩ : Fmt).Rep (LogPwl.core true f b) := by
    rw [← LogPwl.log_cvt q hW hS hb h]; exact Fmt.rep_cvt hfl _
  have hr := Fmt.rep_mult hWe hfl he hl
  refine pow2_eq .TRN ho hSo ?_
  have hm : fe.mult (⟨22 + logI f, logI f, true, q, .WRAP⟩ : Fmt) =
      ⟨fe.W + (22 + logI f), fe.I + logI f, true, .TRN, .WRAP⟩ := by
    unfold Fmt.mult; simp
  rw [hm] at hr; exact hr

theorem pow_err {f : Fmt} (hW : 1 ≤ f.W) (hS : f.S = false) {b e : ℚ} (hb : f.Rep b) (h : 0 < b) (he : |e| ≤ 800) :
    |(core (e * LogPwl.core true f b) : ℝ) - (b : ℝ) ^ (e : ℝ)| ≤ (b : ℝ) ^ (e : ℝ) * ((1 + |(e : ℝ)|) / 400) := by
  have h1 := core_err (e * LogPwl.core true f b)
  have h2 := LogPwl.core_err (cn := true) hW hS hb h (Or.inl rfl)
  have h3 : |(e : ℝ)| ≤ 800 := by exact_mod_cast cast_le he
  have hb' : (0 : ℝ) < b := by exact_mod_cast h
  have l1 := Real.log_two_gt_d9
  have l2 := Real.log_two_lt_d9
  push_cast at h1
  set l := ((LogPwl.core true f b : ℚ) : ℝ)
  have hlog : Real.log b = Real.logb 2 b * Real.log 2 := by rw [Real.logb, div_mul_cancel₀]; linarith
  have e1 : (2 : ℝ) ^ ((e : ℝ) * l) = (b : ℝ) ^ (e : ℝ) * Real.exp (e * (l - Real.logb 2 b) * Real.log 2) := by
    rw [Real.rpow_def_of_pos (by norm_num), Real.rpow_def_of_pos hb', ← Real.exp_add, hlog]; congr 1; ring
  rw [e1] at h1
  have hy : |(e : ℝ) * (l - Real.logb 2 b) * Real.log 2| ≤ |(e : ℝ)| * (7 / 6000) := by
    rw [abs_mul, abs_mul, abs_of_pos (by linarith : 0 < Real.log 2), mul_assoc]
    refine mul_le_mul_of_nonneg_left ?_ (abs_nonneg _)
    have := mul_le_mul h2 l2.le (by linarith) (by norm_num)
    norm_num at this ⊢; linarith
  generalize (e : ℝ) * (l - Real.logb 2 b) * Real.log 2 = y at *
  have h5 : |Real.exp y - 1| ≤ 2 * |y| := Real.abs_exp_sub_one_le (by linarith)
  have hE : 0 < (b : ℝ) ^ (e : ℝ) := Real.rpow_pos_of_pos hb' _
  generalize (b : ℝ) ^ (e : ℝ) = E at *
  generalize Real.exp y = r at *
  generalize (core (e * LogPwl.core true f b) : ℝ) = c at *
  set a := |(e : ℝ)|
  have h6 : |r - 1| ≤ a * (7 / 3000) := by linarith
  obtain ⟨a1, a2⟩ := abs_le.1 h6
  obtain ⟨b1, b2⟩ := abs_le.1 h1
  have m1 := mul_le_mul_of_nonneg_left (by linarith : r ≤ 1 + a * (7 / 3000)) hE.le
  have m2 := mul_le_mul_of_nonneg_left (by linarith : 1 - a * (7 / 3000) ≤ r) hE.le
  have m3 : 0 ≤ E * a := mul_nonneg hE.le (abs_nonneg _)
  rw [abs_le]
  constructor <;> linarith

end Proof.PowPwl
