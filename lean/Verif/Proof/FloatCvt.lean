import Verif.Proof.FloatDiv
import Mathlib.Data.Real.Archimedean

/-! # The conversion to ac_float: order and absolute error -/

namespace Proof.FloatCvt
open Ac Model.Float Proof.Float

/-- The conversion at the exponent `e`, before saturation. -/
def U (t : FFmt) (e : ℤ) (x : ℚ) : ℚ := (quant t.Q (x * 2 ^ (-e) * 2 ^ t.mant.F) : ℚ) * 2 ^ (-t.mant.F) * 2 ^ e

def clamp (t : FFmt) (v : ℚ) : ℚ := if t.maxVal < v then t.maxVal else if v < t.minVal then t.minVal else v

theorem cvt_eq (t : FFmt) {x : ℚ} (hx : x ≠ 0) : t.cvt x = clamp t (U t (t.exp x) x) := by
  unfold FFmt.cvt
  rw [if_neg hx]; rfl

theorem max_nonneg (t : FFmt) : 0 ≤ t.maxVal := by
  unfold FFmt.maxVal Fmt.maxVal Fmt.val
  have := maxRaw_nonneg t.mant.W t.mant.S
  have h : (0 : ℚ) ≤ maxRaw t.mant.W t.mant.S := by exact_mod_cast this
  exact mul_nonneg (mul_nonneg h (Fmt.z_pos _).le) (Fmt.z_pos _).le

theorem min_nonpos (t : FFmt) : t.minVal ≤ 0 := by
  have := Proof.FloatRec.minVal_le t
  linarith [max_nonneg t]

theorem clamp_mono (t : FFmt) {u v : ℚ} (h : u ≤ v) : clamp t u ≤ clamp t v := by
  have h0 := max_nonneg t
  have h1 := min_nonpos t
  unfold clamp
  split_ifs <;> linarith

theorem clamp_zero (t : FFmt) : clamp t 0 = 0 := by
  have h0 := max_nonneg t
  have h1 := min_nonpos t
  unfold clamp
  rw [if_neg (by linarith), if_neg (by linarith)]

theorem unit_eq (t : FFmt) (e : ℤ) (x : ℚ) : x * 2 ^ (-e) * 2 ^ t.mant.F * 2 ^ (-t.mant.F) * 2 ^ e = x := by
  rw [mul_assoc, mul_assoc, mul_assoc, Fmt.z_add, Fmt.z_add, Fmt.z_add]
  rw [show -e + (t.mant.F + (-t.mant.F + e)) = 0 by ring]; simp

theorem U_mono (t : FFmt) (e : ℤ) {x y : ℚ} (h : x ≤ y) : U t e x ≤ U t e y := by
  unfold U
  have a : x * 2 ^ (-e) * 2 ^ t.mant.F ≤ y * 2 ^ (-e) * 2 ^ t.mant.F :=
    mul_le_mul_of_nonneg_right (mul_le_mul_of_nonneg_right h (Fmt.z_pos _).le) (Fmt.z_pos _).le
  have b : ((quant t.Q (x * 2 ^ (-e) * 2 ^ t.mant.F) : ℤ) : ℚ) ≤ quant t.Q (y * 2 ^ (-e) * 2 ^ t.mant.F) := by
    exact_mod_cast quant_mono t.Q a
  exact mul_le_mul_of_nonneg_right (mul_le_mul_of_nonneg_right b (Fmt.z_pos _).le) (Fmt.z_pos _).le

theorem U_int (t : FFmt) (e k : ℤ) : U t e (k * 2 ^ (-t.mant.F) * 2 ^ e) = k * 2 ^ (-t.mant.F) * 2 ^ e := by
  unfold U
  have : (k : ℚ) * 2 ^ (-t.mant.F) * 2 ^ e * 2 ^ (-e) * 2 ^ t.mant.F = k := by
    rw [mul_assoc, mul_assoc, mul_assoc, Fmt.z_add, Fmt.z_add, Fmt.z_add]
    rw [show -t.mant.F + (e + (-e + t.mant.F)) = 0 by ring]; simp
  rw [this, quant_intCast]

theorem F_eq (t : FFmt) : t.mant.F = t.W - t.I := rfl

/-- Powers of two at and below the top of the mantissa convert to themselves. -/
theorem U_pow {t : FFmt} (e : ℤ) {a : ℤ} (ha : t.I - t.W + e ≤ a) : U t e (2 ^ a) = 2 ^ a := by
  have e1 : (2 : ℚ) ^ a = ((2 ^ (a - (t.I - t.W + e)).toNat : ℤ) : ℚ) * 2 ^ (-t.mant.F) * 2 ^ e := by
    push_cast
    rw [← zpow_natCast, Int.toNat_of_nonneg (by omega), Fmt.z_add, Fmt.z_add, F_eq]
    congr 1; ring
  rw [e1, U_int]

theorem U_neg_pow {t : FFmt} (e : ℤ) {a : ℤ} (ha : t.I - t.W + e ≤ a) : U t e (-2 ^ a) = -2 ^ a := by
  have e1 : -(2 : ℚ) ^ a = ((-2 ^ (a - (t.I - t.W + e)).toNat : ℤ) : ℚ) * 2 ^ (-t.mant.F) * 2 ^ e := by
    push_cast
    rw [← zpow_natCast, Int.toNat_of_nonneg (by omega), neg_mul, neg_mul, Fmt.z_add, Fmt.z_add, F_eq]
    congr 2; ring
  rw [e1, U_int]

theorem U_zero (t : FFmt) (e : ℤ) : U t e 0 = 0 := by
  have := U_int t e 0
  simpa using this

theorem exp_ge (t : FFmt) (x : ℚ) : -2 ^ (t.E - 1) ≤ t.exp x := le_max_left _ _

theorem pos_lt {t : FFmt} {x : ℚ} (hx : 0 < x) : x < 2 ^ (t.I - 1 + t.exp x) := by
  have h : Int.log 2 x + 1 - (t.I - 1) ≤ t.exp x := by
    unfold FFmt.exp; rw [if_neg (not_lt.2 hx.le)]; exact le_max_right _ _
  have := Int.lt_zpow_succ_log_self (R := ℚ) (b := 2) (by norm_num) x
  push_cast at this
  exact lt_of_lt_of_le this (Fmt.z_le (by omega))

theorem neg_le {t : FFmt} {x : ℚ} (hx : x < 0) : -x ≤ 2 ^ (t.I - 1 + t.exp x) := by
  have h : Int.clog 2 (-x) - (t.I - 1) ≤ t.exp x := by
    unfold FFmt.exp; rw [if_pos hx]; exact le_max_right _ _
  have := Int.self_le_zpow_clog (R := ℚ) (b := 2) (by norm_num) (-x)
  push_cast at this
  exact le_trans this (Fmt.z_le (by omega))

theorem pos_ge {t : FFmt} {x : ℚ} (hx : 0 < x) (h : -2 ^ (t.E - 1) < t.exp x) : 2 ^ (t.I - 2 + t.exp x) ≤ x := by
  have h : Int.log 2 x + 1 - (t.I - 1) = t.exp x := by
    unfold FFmt.exp at h ⊢; rw [if_neg (not_lt.2 hx.le)] at h ⊢
    rcases max_choice (-2 ^ (t.E - 1)) (Int.log 2 x + 1 - (t.I - 1)) with he | he
    · rw [he] at h; exact absurd h (lt_irrefl _)
    · exact he.symm
  have := Int.zpow_log_le_self (R := ℚ) (b := 2) (by norm_num) hx
  push_cast at this
  rwa [show t.I - 2 + t.exp x = Int.log 2 x by omega]

theorem neg_gt {t : FFmt} {x : ℚ} (hx : x < 0) (h : -2 ^ (t.E - 1) < t.exp x) : 2 ^ (t.I - 2 + t.exp x) < -x := by
  have h : Int.clog 2 (-x) - (t.I - 1) = t.exp x := by
    unfold FFmt.exp at h ⊢; rw [if_pos hx] at h ⊢
    rcases max_choice (-2 ^ (t.E - 1)) (Int.clog 2 (-x) - (t.I - 1)) with he | he
    · rw [he] at h; exact absurd h (lt_irrefl _)
    · exact he.symm
  have := Int.zpow_pred_clog_lt_self (R := ℚ) (b := 2) (by norm_num) (r := -x) (by linarith)
  push_cast at this
  rwa [show t.I - 2 + t.exp x = Int.clog 2 (-x) - 1 by omega]

/-- The conversion keeps the order. -/
theorem cvt_mono {t : FFmt} (hW : 2 ≤ t.W) {x y : ℚ} (h : x ≤ y) : t.cvt x ≤ t.cvt y := by
  have zero : t.cvt 0 = 0 := by simp [FFmt.cvt]
  have up : ∀ {x : ℚ}, 0 < x → 0 ≤ t.cvt x := fun {x} hx => by
    rw [cvt_eq t hx.ne', ← clamp_zero t]
    apply clamp_mono
    rw [← U_zero t (t.exp x)]; exact U_mono _ _ hx.le
  have dn : ∀ {x : ℚ}, x < 0 → t.cvt x ≤ 0 := fun {x} hx => by
    rw [cvt_eq t hx.ne, ← clamp_zero t]
    apply clamp_mono
    rw [← U_zero t (t.exp x)]; exact U_mono _ _ hx.le
  rcases lt_trichotomy x 0 with hx | rfl | hx
  · rcases lt_trichotomy y 0 with hy | rfl | hy
    · rw [cvt_eq t hx.ne, cvt_eq t hy.ne]
      apply clamp_mono
      rcases lt_trichotomy (t.exp x) (t.exp y) with he | he | he
      · exfalso
        have a := neg_gt hy (lt_of_le_of_lt (exp_ge t x) he)
        have b := neg_le (t := t) hx
        have c : (2 : ℚ) ^ (t.I - 1 + t.exp x) ≤ 2 ^ (t.I - 2 + t.exp y) := Fmt.z_le (by omega)
        -- `-y > 2^(I-2+ey) ≥ 2^(I-1+ex) ≥ -x`
        linarith
      · rw [he]; exact U_mono _ _ h
      · have a := neg_gt hx (lt_of_le_of_lt (exp_ge t y) he)
        have b := neg_le (t := t) hy
        have c : (2 : ℚ) ^ (t.I - 1 + t.exp y) ≤ 2 ^ (t.I - 2 + t.exp x) := Fmt.z_le (by omega)
        have a' := U_mono t (t.exp x) (show x ≤ -2 ^ (t.I - 2 + t.exp x) by linarith)
        have b' := U_mono t (t.exp y) (show -2 ^ (t.I - 1 + t.exp y) ≤ y by linarith)
        rw [U_neg_pow _ (by omega)] at a' b'
        linarith
    · rw [zero]; exact dn hx
    · exact le_trans (dn hx) (up hy)
  · rcases lt_or_eq_of_le h with hy | rfl
    · rw [zero]; exact up hy
    · exact le_rfl
  · have hy := lt_of_lt_of_le hx h
    rw [cvt_eq t hx.ne', cvt_eq t hy.ne']
    apply clamp_mono
    rcases lt_trichotomy (t.exp x) (t.exp y) with he | he | he
    · have a := pos_ge hy (lt_of_le_of_lt (exp_ge t x) he)
      have b := pos_lt (t := t) hx
      have c : (2 : ℚ) ^ (t.I - 1 + t.exp x) ≤ 2 ^ (t.I - 2 + t.exp y) := Fmt.z_le (by omega)
      have a' := U_mono t (t.exp y) a
      have b' := U_mono t (t.exp x) b.le
      rw [U_pow _ (by omega)] at a' b'
      linarith
    · rw [he]; exact U_mono _ _ h
    · exfalso
      have a := pos_ge hx (lt_of_le_of_lt (exp_ge t y) he)
      have b := pos_lt (t := t) hy
      have c : (2 : ℚ) ^ (t.I - 1 + t.exp y) ≤ 2 ^ (t.I - 2 + t.exp x) := Fmt.z_le (by omega)
      linarith

/-- The error of the conversion: one unit of the mantissa, or of the smallest number of the type. -/
theorem cvt_abs {t : FFmt} {x : ℚ} (h0 : t.minVal ≤ x) (h1 : x ≤ t.maxVal) :
    |t.cvt x - x| ≤ |x| * 2 ^ (2 - (t.W : ℤ)) + 2 ^ (t.I - t.W - 2 ^ (t.E - 1)) := by
  have z1 := Fmt.z_pos (t.I - t.W - 2 ^ (t.E - 1))
  have z2 := Fmt.z_pos (2 - (t.W : ℤ))
  have hnn : 0 ≤ |x| * (2 : ℚ) ^ (2 - (t.W : ℤ)) := mul_nonneg (abs_nonneg _) z2.le
  rcases le_or_gt (2 ^ (t.I - 2 - 2 ^ (t.E - 1))) |x| with h | h
  · have := cvt_err h h0 h1
    linarith
  · rcases eq_or_ne x 0 with rfl | hx
    · have : t.cvt 0 = 0 := by simp [FFmt.cvt]
      rw [this]; simp only [sub_zero, abs_zero, zero_mul, zero_add]; exact z1.le
    have he : t.exp x = -2 ^ (t.E - 1) := by
      by_contra hc
      have hlt : -2 ^ (t.E - 1) < t.exp x := lt_of_le_of_ne (exp_ge t x) (Ne.symm hc)
      have c : (2 : ℚ) ^ (t.I - 2 - 2 ^ (t.E - 1)) ≤ 2 ^ (t.I - 2 + t.exp x) := Fmt.z_le (by linarith)
      rcases lt_or_gt_of_ne hx with hn | hp
      · have := neg_gt hn hlt
        rw [abs_of_neg hn] at h; linarith
      · have := pos_ge hp hlt
        rw [abs_of_pos hp] at h; linarith
    rw [cvt_eq t hx, he]
    have hu : |U t (-2 ^ (t.E - 1)) x - x| ≤ 2 ^ (t.I - t.W - 2 ^ (t.E - 1)) := by
      have e1 := unit_eq t (-2 ^ (t.E - 1)) x
      unfold U
      set y := x * 2 ^ (-(-2 ^ (t.E - 1)) : ℤ) * 2 ^ t.mant.F
      have e2 : (quant t.Q y : ℚ) * 2 ^ (-t.mant.F) * 2 ^ (-2 ^ (t.E - 1) : ℤ) - x =
          (quant t.Q y - y) * (2 ^ (-t.mant.F) * 2 ^ (-2 ^ (t.E - 1) : ℤ)) := by
        conv_lhs => rw [← e1]
        ring
      have hq : |(quant t.Q y : ℚ) - y| ≤ 1 := by simpa using (quant_err t.Q y).le
      rw [e2, abs_mul, Fmt.z_add, abs_of_pos (Fmt.z_pos _)]
      have := mul_le_mul_of_nonneg_right hq (Fmt.z_pos (-t.mant.F + -2 ^ (t.E - 1))).le
      refine le_trans this (le_of_eq ?_)
      rw [one_mul, F_eq]; congr 1; ring
    obtain ⟨u1, u2⟩ := abs_le.1 hu
    unfold clamp
    rw [abs_le]
    split_ifs <;> constructor <;> linarith

/-- The error of a converted approximation. -/
theorem output_abs {o : FFmt} {y : ℚ} {r δ : ℝ} (h : |(y : ℝ) - r| ≤ δ) (hr : |r| + δ ≤ ((o.maxVal : ℚ) : ℝ)) :
    |((o.cvt y : ℚ) : ℝ) - r| ≤ δ + (|r| + δ) * 2 ^ (2 - (o.W : ℤ)) + 2 ^ (o.I - o.W - 2 ^ (o.E - 1)) := by
  have t1 : |(y : ℝ)| ≤ |r| + δ := by
    have := abs_add_le ((y : ℝ) - r) r
    rw [sub_add_cancel] at this; linarith
  have t2 : |y| ≤ o.maxVal := by
    have : ((|y| : ℚ) : ℝ) ≤ ((o.maxVal : ℚ) : ℝ) := by rw [Rat.cast_abs]; linarith
    exact (Rat.cast_le (K := ℝ)).1 this
  have c := cvt_abs (le_trans (Proof.FloatRec.minVal_le o) (abs_le.1 t2).1) (abs_le.1 t2).2
  have c' := (Rat.cast_le (K := ℝ)).2 c
  push_cast at c'
  have k := mul_le_mul_of_nonneg_right t1 (zpow_pos (by norm_num : (0 : ℝ) < 2) (2 - (o.W : ℤ))).le
  have t3 : |((o.cvt y : ℚ) : ℝ) - r| ≤ |((o.cvt y : ℚ) : ℝ) - y| + |(y : ℝ) - r| := abs_sub_le _ _ _
  linarith

end Proof.FloatCvt
