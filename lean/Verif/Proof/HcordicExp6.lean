import Verif.Proof.HcordicExp5

/-! # The error of ac_exp_cordic -/

namespace Proof.Hcordic
open Ac Model.Hcordic

/-- The product of `log 2` and the stored `1 / log 2`. -/
theorem inv_mul : |((ln2Raw * invLn2Raw : ℤ) : ℚ) / 2 ^ 317 - 1| ≤ 1 / 2 ^ 150 := by decide +kernel

theorem invLn2_range : (14 : ℚ) / 10 ≤ (invLn2Raw : ℚ) / 2 ^ 158 ∧ (invLn2Raw : ℚ) / 2 ^ 158 ≤ 1445 / 1000 := by decide +kernel

/-- The stored `1 / log 2`, in units of `2^-t`. -/
def il (t : ℕ) : ℤ := invLn2Raw / 2 ^ (158 - t)

theorem il_all : Proof.Pwl.allLt 46 (fun t => decide (0 ≤ il t ∧ il t < 2 ^ (t + 1))) = true := by decide +kernel

theorem invLn2_eq {t : ℕ} (h45 : t ≤ 45) :
    (⟨t + 1, 1, false, .TRN, .WRAP⟩ : Fmt).cvt (invLn2 (t + 1)) = (il t : ℚ) / 2 ^ t := by
  obtain ⟨k0, k1⟩ := of_decide_eq_true (Proof.Pwl.allLt_iff.1 il_all t (by omega))
  have e : invLn2 (t + 1) = (⟨t + 1, 1, false, .TRN, .WRAP⟩ : Fmt).val (il t) := by
    unfold invLn2
    rw [show (invLn2Raw : ℚ) / 2 ^ 158 = (invLn2Raw : ℚ) * 2 ^ (-((158 : ℕ) : ℤ)) by rw [zpow_neg, zpow_natCast, div_eq_mul_inv]]
    refine cvt_trunc (n := 158) (k := t) (by simp) rfl rfl (by unfold Fmt.F; simp) (by omega) ?_ ?_
    · simpa [minRaw, il] using k0
    · simp only [maxRaw]
      simpa [il] using Int.le_sub_one_of_lt k1
  rw [e, Proof.Atan2.cvt_raw (by simp) rfl]
  · unfold Fmt.val Fmt.F; simp [div_eq_mul_inv]
  · simpa [minRaw] using k0
  · simpa [maxRaw] using k1

/-- `log 2` times the stored constant. -/
theorem il_near {t : ℕ} (h45 : t ≤ 45) :
    1 - 0.7 * (1 / 2 ^ t) ≤ ((il t : ℚ) / 2 ^ t : ℚ) * Real.log 2 ∧ ((il t : ℚ) / 2 ^ t : ℚ) * Real.log 2 ≤ 1 + 1 / 2 ^ 100 ∧
    ((il t : ℚ) / 2 ^ t : ℚ) ≤ (1445 / 1000 : ℝ) ∧ (0 : ℝ) ≤ ((il t : ℚ) / 2 ^ t : ℚ) := by
  obtain ⟨l0, l1⟩ := abs_le.1 log2_near
  have d := div_near invLn2Raw (158 - t)
  have i1 := Rat.cast_le (K := ℝ) |>.2 inv_mul
  have i2 := Rat.cast_le (K := ℝ) |>.2 invLn2_range.2
  rw [Rat.cast_abs, Rat.cast_sub, Rat.cast_div, Rat.cast_div, Rat.cast_pow, Rat.cast_pow, Rat.cast_intCast, Int.cast_mul,
    Rat.cast_one, Rat.cast_ofNat] at i1
  rw [Rat.cast_div, Rat.cast_div, Rat.cast_pow, Rat.cast_intCast, Rat.cast_ofNat, Rat.cast_ofNat, Rat.cast_ofNat] at i2
  obtain ⟨m0, m1⟩ := abs_le.1 i1
  obtain ⟨k0, -⟩ := of_decide_eq_true (Proof.Pwl.allLt_iff.1 il_all t (by omega))
  have hlg := Real.log_two_lt_d9
  have hlg0 : 0 < Real.log 2 := Real.log_pos (by norm_num)
  set w : ℝ := 1 / 2 ^ t with hw
  have hw0 : 0 < w := by positivity
  set κ : ℝ := (invLn2Raw : ℝ) / 2 ^ 158 with hκ
  set lm : ℝ := (ln2Raw : ℝ) / 2 ^ 159 with hlm
  have e1 : (ln2Raw : ℝ) * invLn2Raw / 2 ^ 317 = lm * κ := by
    rw [hlm, hκ, div_mul_div_comm, ← pow_add]
  rw [e1] at m0 m1
  have ei : (((il t : ℚ) / 2 ^ t : ℚ) : ℝ) = (il t : ℝ) * w := by rw [hw]; push_cast; ring
  rw [ei]
  have e : (invLn2Raw : ℝ) * (1 / 2 ^ (158 - t)) * w = κ := by
    rw [hκ, hw, show (2 : ℝ) ^ 158 = 2 ^ (158 - t) * 2 ^ t by rw [← pow_add]; congr 1; omega]
    field_simp
  have a1 : (il t : ℝ) * w ≤ κ := by
    have := mul_le_mul_of_nonneg_right d.2 hw0.le
    unfold il; linarith
  have a0 : κ - w ≤ (il t : ℝ) * w := by
    have := mul_le_mul_of_nonneg_right d.1 hw0.le
    unfold il; linarith
  have tw : (1 : ℝ) / 2 ^ 45 ≤ w := by
    rw [hw]; exact one_div_le_one_div_of_le (by positivity) (pow_le_pow_right₀ (by norm_num) h45)
  have κ0 : 0 ≤ κ := by
    have := Rat.cast_le (K := ℝ) |>.2 invLn2_range.1
    rw [Rat.cast_div, Rat.cast_div, Rat.cast_pow, Rat.cast_intCast, Rat.cast_ofNat, Rat.cast_ofNat, Rat.cast_ofNat, ← hκ] at this
    linarith
  have p1 : κ * Real.log 2 ≤ 1 + 1 / 2 ^ 100 := by
    have h1 := mul_le_mul_of_nonneg_left (show Real.log 2 ≤ lm + 1 / 2 ^ 158 by linarith) κ0
    have h2 : κ * (1 / 2 ^ 158) ≤ 1445 / 1000 * (1 / 2 ^ 158) := mul_le_mul_of_nonneg_right i2 (by positivity)
    have h3 : (1 : ℝ) / 2 ^ 150 + 1445 / 1000 * (1 / 2 ^ 158) ≤ 1 / 2 ^ 100 := by norm_num
    linarith
  have p0 : 1 - 1 / 2 ^ 100 ≤ κ * Real.log 2 := by
    have h1 := mul_le_mul_of_nonneg_left (show lm - 1 / 2 ^ 158 ≤ Real.log 2 by linarith) κ0
    have h2 : κ * (1 / 2 ^ 158) ≤ 1445 / 1000 * (1 / 2 ^ 158) := mul_le_mul_of_nonneg_right i2 (by positivity)
    have h3 : (1 : ℝ) / 2 ^ 150 + 1445 / 1000 * (1 / 2 ^ 158) ≤ 1 / 2 ^ 100 := by norm_num
    linarith
  have q0 := mul_le_mul_of_nonneg_right a0 hlg0.le
  have q1 := mul_le_mul_of_nonneg_right a1 hlg0.le
  have q2 := mul_le_mul_of_nonneg_left hlg.le hw0.le
  have q3 : (1 : ℝ) / 2 ^ 100 ≤ 0.001 * (1 / 2 ^ 45) := by norm_num
  refine ⟨by linarith, by linarith, by linarith, ?_⟩
  exact mul_nonneg (by exact_mod_cast k0) hw0.le

/-- The type of `x_to_exp2` holds the product. -/
theorem expFmt_fit {tf : Option ℕ} {tq : QMode} {f out : Fmt} {t : ℕ} (ht : fbits tf out.F.toNat = t) (h45 : t ≤ 45)
    (hI : 2 ≤ t + f.I) (hW : 1 ≤ f.W) {x : ℚ} (hx : f.Rep x) :
    |(expFmt tf tq f out).cvt (x * ((il t : ℚ) / 2 ^ t)) - x * ((il t : ℚ) / 2 ^ t)| < 1 / 2 ^ t := by
  obtain ⟨-, -, i2, i0⟩ := il_near h45
  have i2 : (il t : ℚ) / 2 ^ t ≤ 1445 / 1000 := by
    have : (((il t : ℚ) / 2 ^ t : ℚ) : ℝ) ≤ ((1445 / 1000 : ℚ) : ℝ) := by
      refine i2.trans (le_of_eq ?_); norm_num
    exact_mod_cast this
  have i0 : 0 ≤ (il t : ℚ) / 2 ^ t := by exact_mod_cast i0
  set k := (il t : ℚ) / 2 ^ t
  have hF : (expFmt tf tq f out).F = t := by unfold expFmt; rw [ht]; unfold Fmt.F; simp only []; omega
  have hWv : ((expFmt tf tq f out).W : ℤ) = t + f.I + 1 := by unfold expFmt; rw [ht]; simp only []; omega
  obtain ⟨n, hn⟩ : ∃ n : ℕ, (t : ℤ) + f.I = n + 2 := ⟨(t + f.I - 2).toNat, by omega⟩
  have hWn : (expFmt tf tq f out).W = n + 3 := by omega
  obtain ⟨r, r0, r1, rfl⟩ := hx
  have hzI : ∀ c : ℚ, c * 2 ^ f.W * 2 ^ (-f.F) * 2 ^ (t : ℤ) = c * (4 * 2 ^ n) := by
    intro c
    rw [← zpow_natCast 2 f.W, mul_assoc c, Fmt.z_add, mul_assoc, Fmt.z_add,
      show (f.W : ℤ) + -f.F + t = (n : ℤ) + 2 by unfold Fmt.F; linarith, ← Fmt.z_add, zpow_natCast,
      show (2 : ℚ) ^ (2 : ℤ) = 4 by norm_num]
    ring
  have hp : (0 : ℚ) < 2 ^ n := by positivity
  have hp1 : (1 : ℚ) ≤ 2 ^ n := one_le_pow₀ (by norm_num)
  have key : loRaw (expFmt tf tq f out).W f.S .WRAP ≤ f.val r * k * 2 ^ (t : ℤ) ∧
      f.val r * k * 2 ^ (t : ℤ) ≤ maxRaw (expFmt tf tq f out).W f.S := by
    have hz := mul_pos (Fmt.z_pos (-f.F)) (Fmt.z_pos (t : ℤ))
    rw [hWn]
    cases hS : f.S
    · simp only [loRaw, minRaw, maxRaw, hS, Bool.false_eq_true, if_false] at r0 r1 ⊢
      have r0' : (0 : ℚ) ≤ r := by exact_mod_cast r0
      have r1' : (r : ℚ) ≤ 2 ^ f.W := by exact_mod_cast (by omega : r ≤ 2 ^ f.W)
      have b1 := mul_le_mul_of_nonneg_right r1' hz.le
      have b0 := mul_nonneg r0' hz.le
      have e := hzI 1
      rw [one_mul, one_mul, mul_assoc] at e
      rw [e] at b1
      have b2 := mul_le_mul b1 i2 i0 (by positivity)
      have e2 : f.val r * k * 2 ^ (t : ℤ) = (r : ℚ) * (2 ^ (-f.F) * 2 ^ (t : ℤ)) * k := by unfold Fmt.val; ring
      rw [e2]
      push_cast
      constructor
      · exact mul_nonneg b0 i0
      · rw [show (2 : ℚ) ^ (n + 3) = 8 * 2 ^ n by rw [pow_add]; ring]; linarith
    · simp only [loRaw, minRaw, maxRaw, hS, if_true] at r0 r1 ⊢
      have hW2 : (2 : ℚ) ^ f.W = 2 * 2 ^ (f.W - 1) := by rw [← pow_succ']; congr 1; omega
      have r0' : -(1 / 2 * 2 ^ f.W) ≤ (r : ℚ) := by
        have : -(2 ^ (f.W - 1)) ≤ (r : ℚ) := by exact_mod_cast r0
        rw [hW2]; linarith
      have r1' : (r : ℚ) ≤ 1 / 2 * 2 ^ f.W := by
        have : (r : ℚ) ≤ 2 ^ (f.W - 1) := by exact_mod_cast (by omega : r ≤ 2 ^ (f.W - 1))
        rw [hW2]; linarith
      have b1 := mul_le_mul_of_nonneg_right r1' hz.le
      have b0 := mul_le_mul_of_nonneg_right r0' hz.le
      have e := hzI (1 / 2)
      rw [mul_assoc] at e
      rw [neg_mul, e] at b0
      rw [e] at b1
      have e2 : f.val r * k * 2 ^ (t : ℤ) = (r : ℚ) * (2 ^ (-f.F) * 2 ^ (t : ℤ)) * k := by unfold Fmt.val; ring
      rw [e2]
      have c1 := mul_le_mul_of_nonneg_right b1 i0
      have c0 := mul_le_mul_of_nonneg_right b0 i0
      have c2 : 1 / 2 * (4 * 2 ^ n) * k ≤ 1 / 2 * (4 * 2 ^ n) * (1445 / 1000) := mul_le_mul_of_nonneg_left i2 (by positivity)
      push_cast
      simp only [reduceCtorEq, false_and, if_false]
      rw [show (2 : ℚ) ^ (n + 2) = 4 * 2 ^ n by rw [pow_add]; ring]
      constructor <;> linarith
  have := Fmt.cvt_err (f := expFmt tf tq f out) (by omega) (x := f.val r * k) (by rw [hF]; exact key.1) (by rw [hF]; exact key.2)
  rw [hF, zpow_neg, zpow_natCast] at this
  rw [one_div]
  simpa using this

end Proof.Hcordic
