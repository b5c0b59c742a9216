import Verif.Proof.FloatSqrt
import Verif.Proof.LogPwl2

/-! # Lemmas for C62 -/

namespace Proof.FloatLog
open Ac Model.Float Proof.Float Proof.PwlFixed Proof.FloatSqrt

/-- The logarithm of the table plus the exponent. -/
def IsLog (x r : ℚ) : Prop := ∃ (n : ℚ) (e : ℤ), 1 / 2 ≤ n ∧ n < 1 ∧ x = n * 2 ^ e ∧ r = LogPwl.g n + e

theorem isLog_mono {x x' r r' : ℚ} (h : IsLog x r) (h' : IsLog x' r') (hx : x ≤ x') : r ≤ r' := by
  obtain ⟨n, e, a1, a2, rfl, rfl⟩ := h
  obtain ⟨n', e', b1, b2, rfl, rfl⟩ := h'
  have he : e ≤ e' := by
    by_contra hc
    have h1 : (2 : ℚ) ^ (e' + 1) ≤ 2 ^ e := Fmt.z_le (by omega)
    rw [Fmt.z_succ] at h1
    have hz := Fmt.z_pos e'
    have hz' := Fmt.z_pos e
    have : n' * 2 ^ e' < 1 * 2 ^ e' := mul_lt_mul_of_pos_right b2 hz
    have : 1 / 2 * 2 ^ e ≤ n * 2 ^ e := mul_le_mul_of_nonneg_right a1 hz'.le
    linarith
  rcases eq_or_lt_of_le he with rfl | hlt
  · have := LogPwl.g_mono a1 (le_of_mul_le_mul_right hx (Fmt.z_pos e)) b2
    linarith
  · have h1 := (LogPwl.g_bounds a1 a2).2
    have h2 := (LogPwl.g_bounds b1 b2).1
    have : (e : ℚ) + 1 ≤ e' := by exact_mod_cast hlt
    linarith

theorem isLog_err {x r : ℚ} (h : IsLog x r) : |(r : ℝ) - Real.logb 2 x| ≤ 1 / 600 := by
  obtain ⟨n, e, a2, a3, rfl, rfl⟩ := h
  have hn : (0 : ℝ) < n := by exact_mod_cast (by linarith : (0 : ℚ) < n)
  have he : Real.logb 2 ((n * 2 ^ e : ℚ) : ℝ) = Real.logb 2 n + e := by
    push_cast
    rw [Real.logb_mul hn.ne' (by positivity), ← Real.rpow_intCast, Real.logb_rpow (by norm_num) (by norm_num)]
  rw [he]; push_cast
  have := LogPwl.g_err a2 a3
  rwa [show (LogPwl.g n : ℝ) + e - (Real.logb 2 n + e) = LogPwl.g n - Real.logb 2 n by ring]

/-- The logarithm as a function of the number. -/
def lam (x : ℚ) : ℚ := LogPwl.g (x * 2 ^ (-(Int.log 2 x + 1))) + ((Int.log 2 x + 1 : ℤ) : ℚ)

theorem lam_isLog {x : ℚ} (h : 0 < x) : IsLog x (lam x) := by
  have h1 := Int.zpow_log_le_self (R := ℚ) (b := 2) (by norm_num) h
  have h2 := Int.lt_zpow_succ_log_self (R := ℚ) (b := 2) (by norm_num) x
  push_cast at h1 h2
  have hz := Fmt.z_pos (Int.log 2 x + 1)
  have hz' := Fmt.z_pos (Int.log 2 x)
  refine ⟨x * 2 ^ (-(Int.log 2 x + 1)), Int.log 2 x + 1, ?_, ?_, ?_, rfl⟩
  · rw [zpow_neg, ← div_eq_mul_inv, le_div_iff₀ hz, zpow_add₀ (by norm_num), zpow_one]; linarith
  · rw [zpow_neg, ← div_eq_mul_inv, div_lt_one hz]; exact h2
  · rw [mul_assoc, ← zpow_add₀ (by norm_num : (2 : ℚ) ≠ 0), neg_add_cancel, zpow_zero, mul_one]

theorem lam_unique {x r : ℚ} (hx : 0 < x) (h : IsLog x r) : r = lam x :=
  le_antisymm (isLog_mono h (lam_isLog hx) le_rfl) (isLog_mono (lam_isLog hx) h le_rfl)

/-- The mantissa between 1/2 and 1. -/
theorem logMant_eq {t : FFmt} (hW : 2 ≤ t.W) {m : ℚ} (hm : t.mant.Rep m) (h0 : 0 ≤ m) :
    logMant t m = m * 2 ^ (1 - t.I) ∧ (⟨t.W - 1, 0, false, .TRN, .WRAP⟩ : Fmt).Rep (logMant t m) := by
  have hrep := pos_rep (t := { t with Q := .TRN }) (by show 1 ≤ t.W; omega) hm h0
  have hc := pos_cvt (t := { t with Q := .TRN }) (by show 2 ≤ t.W; omega) hm h0
  obtain ⟨r, r0, r1, hr⟩ := hrep
  unfold logMant
  rw [hc, hr, Fmt.raw_val]
  refine ⟨?_, ⟨r, r0, r1, rfl⟩⟩
  unfold Fmt.val Fmt.F posMant
  rw [mul_assoc, Fmt.z_add]
  congr 2
  simp only
  ring

theorem logSum_eq (q : QMode) {t : FFmt} (hW : 2 ≤ t.W) {m : ℚ} (hm : t.mant.Rep m) (hn : 2 ^ (t.I - 2) ≤ m) (e : ℤ) :
    logSum q t m e = some (lam (m * 2 ^ e)) := by
  have hm0 : 0 < m := lt_of_lt_of_le (Fmt.z_pos _) hn
  obtain ⟨h1, h2⟩ := logMant_eq hW hm hm0.le
  have hlt := mant_lt (by omega) hm
  have hz := Fmt.z_pos (1 - t.I)
  have l0 : 1 / 2 ≤ logMant t m := by
    have := mul_le_mul_of_nonneg_right hn hz.le
    rw [Fmt.z_add, show t.I - 2 + (1 - t.I) = -1 by ring] at this
    rw [h1]; norm_num at this ⊢; exact this
  have l1 : logMant t m < 1 := by
    have := mul_lt_mul_of_pos_right hlt hz
    rw [Fmt.z_add, show t.I - 1 + (1 - t.I) = 0 by ring, zpow_zero] at this
    rw [h1]; exact this
  have lp : 0 < logMant t m := by linarith
  have hnorm : Model.PwlFixed.norm false ⟨t.W - 1, 0, false, .TRN, .WRAP⟩ (logMant t m) = (logMant t m, 0) := by
    obtain ⟨a1, a2, a3, -⟩ := norm_pos (cn := false) (f := ⟨t.W - 1, 0, false, .TRN, .WRAP⟩) (by show 1 ≤ t.W - 1; omega) rfl h2 lp
      (Or.inr (by norm_num; linarith)) 3
    have he : (Model.PwlFixed.norm false ⟨t.W - 1, 0, false, .TRN, .WRAP⟩ (logMant t m)).2 = 0 := by
      unfold Model.PwlFixed.norm; simp
    rw [he, zpow_zero, mul_one] at a1
    exact Prod.ext a1.symm he
  unfold logSum
  rw [LogPwl.log2_eq q false (by show 1 ≤ t.W - 1; omega) rfl h2 lp (Or.inr (by norm_num; linarith))]
  unfold LogPwl.core
  rw [hnorm]
  obtain ⟨k, -, hk, b1, b2⟩ := LogPwl.g_cell l0 l1
  obtain ⟨w1, -, -⟩ := cvt_word (f := ⟨23, 1, true, .TRN, .WRAP⟩) (by simp) (n := 22) (by simp [Fmt.F]) rfl
    (k := Pwl.segRaw Model.PwlFixed.logM Model.PwlFixed.logC 11 k)
    (by simp only [minRaw, if_true]; norm_num at b1 ⊢; linarith) (by simp only [maxRaw, if_true]; norm_num at b2 ⊢; linarith)
  simp only [Int.cast_zero, add_zero, Option.bind_eq_bind, Option.bind_some]
  rw [hk, w1, ← hk]
  congr 1
  apply lam_unique (mul_pos hm0 (Fmt.z_pos e))
  refine ⟨logMant t m, t.I - 1 + e, l0, l1, ?_, rfl⟩
  rw [h1, mul_assoc, Fmt.z_add]
  congr 2; ring

end Proof.FloatLog
