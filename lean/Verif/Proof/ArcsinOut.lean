import Verif.Proof.ArcsinSmall

/-! # Outputs of the arcsine and the arccosine -/

namespace Proof.Arcsin
open Ac Model.Arcsin

theorem angle_some (p i : ℕ) : ∃ v, angle p i = some v := by
  unfold angle
  by_cases c : 129 < i
  · exact ⟨0, by rw [if_pos c]⟩
  · rw [if_neg c, List.getElem?_eq_getElem (by rw [table_len]; omega)]
    exact ⟨_, rfl⟩

theorem rotate_some (p g i : ℕ) (sel : Bool) (s : St) : ∃ s', rotate p g i sel s = some s' := by
  obtain ⟨v, hv⟩ := angle_some p i
  unfold rotate
  cases sel <;> simp [hv]

theorem loop_some {p g n : ℕ} (f : St → Bool) (s : St) : ∃ s', forUp (fun i s => s.bind fun s => rotate p g i (f s) s) n (some s) = some s' := by
  induction n with
  | zero => exact ⟨s, rfl⟩
  | succ n ih =>
    obtain ⟨s1, h1⟩ := ih
    rw [forUp, h1]
    exact rotate_some p g n (f s1) s1

theorem pF_eq {o : Fmt} {h : ℕ} (hF : o.F = h) : pF o = 2 * h := by
  unfold pF
  have : o.F = o.W - o.I := rfl
  rw [← this, hF]; omega

theorem sqrt_unit (h : ℕ) : Real.sqrt ((((2 * h : ℕ) : ℝ) + 1) / 2 ^ (2 * h + 2)) = Real.sqrt (2 * h + 1) / 2 / 2 ^ h := by
  rw [Real.sqrt_div (by positivity), show (2 : ℝ) ^ (2 * h + 2) = (2 ^ (h + 1)) ^ 2 by rw [← pow_mul]; congr 1; ring,
    Real.sqrt_sq (by positivity), pow_succ]
  push_cast; field_simp

theorem errS_eq (h : ℕ) : errS h = (Real.sqrt (2 * h + 1) / 2 + 1 / 3) / 2 ^ h + (2 * h + 1) / 4 ^ h + 1 / 2 ^ 117 := by
  unfold errS
  rw [sqrt_unit, show (4 : ℝ) ^ h = 2 ^ (2 * h) by rw [pow_mul]; norm_num]
  ring

theorem errN_eq (h : ℕ) : errN (2 * h) = 3 / 2 * Real.sqrt (2 * h + 1) / 2 ^ h + 8 / 5 * (h + 1) ^ 2 / 4 ^ h + 1 / 2 ^ 10 := by
  unfold errN
  rw [sqrt_unit, show (4 : ℝ) ^ h = 2 ^ (2 * h) by rw [pow_mul]; norm_num]
  push_cast
  ring

theorem err_eq (h : ℕ) : err (2 * h) = Real.sqrt (2 * h + 1) / 2 / 2 ^ h + 8 / 5 * (h + 1) ^ 2 / 4 ^ h + 1 / 2 ^ 117 := by
  unfold err
  rw [sqrt_unit, show (4 : ℝ) ^ h = 2 ^ (2 * h) by rw [pow_mul]; norm_num]
  push_cast
  ring

theorem sqrt_small {p : ℕ} (hp : 10 ≤ p) : Real.sqrt (((p : ℝ) + 1) / 2 ^ (p + 2)) ≤ 0.052 := by
  rw [Real.sqrt_le_left (by norm_num)]
  exact le_trans (lin_small hp) (by norm_num)

theorem errS_small {h : ℕ} (hh : 11 ≤ h) : errS h ≤ 0.3 := by
  unfold errS
  have h1 := sqrt_small (p := 2 * h) (by omega)
  have h2 := lin_small (p := 2 * h) (by omega)
  have e : (2 * (h : ℝ) + 1) / 2 ^ (2 * h) = 4 * ((((2 * h : ℕ) : ℝ) + 1) / 2 ^ (2 * h + 2)) := by push_cast; rw [pow_add]; field_simp; norm_num
  have h3 : (1 : ℝ) / 3 / 2 ^ h ≤ 1 / 3 / 2 ^ 3 := div_le_div_of_nonneg_left (by norm_num) (by norm_num) (pow_le_pow_right₀ (by norm_num) (by omega))
  have h4 : (1 : ℝ) / 2 ^ 117 ≤ 0.001 := by norm_num
  rw [e]
  norm_num at h3
  linarith

theorem errN_small {p : ℕ} (hp : 12 ≤ p) : errN p ≤ 0.3 := by
  unfold errN
  have h1 := sqrt_small (p := p) (by omega)
  have h2 := sq_small (show 10 ≤ p by omega)
  have e : ((p : ℝ) + 2) ^ 2 / 2 ^ p ≤ 8 * (((p : ℝ) + 1) ^ 2 / 2 ^ (p + 2)) := by
    rw [pow_add, show 8 * (((p : ℝ) + 1) ^ 2 / (2 ^ p * 2 ^ 2)) = (2 * ((p : ℝ) + 1) ^ 2) / 2 ^ p by field_simp; norm_num]
    refine div_le_div_of_nonneg_right ?_ (by positivity)
    have : (12 : ℝ) ≤ p := by exact_mod_cast hp
    nlinarith
  have h4 : (1 : ℝ) / 2 ^ 10 ≤ 0.001 := by norm_num
  linarith

theorem signed_err {o : Fmt} {h : ℕ} (hF : o.F = h) (hS : o.S = true) (hI : 1 ≤ o.I) {r : ℚ}
    (hr : |r| * 2 ^ h ≤ ((2 ^ (o.W - 1) : ℤ) : ℚ) - 1) : |o.cvt r - r| < 1 / 2 ^ h := by
  have hFd : o.F = o.W - o.I := rfl
  have hu : (0 : ℚ) < 2 ^ h := by positivity
  rw [show |r| * 2 ^ h = |r * 2 ^ h| by rw [abs_mul, abs_of_pos hu], abs_le] at hr
  have lo : ((loRaw o.W o.S o.O : ℤ) : ℚ) ≤ -((2 ^ (o.W - 1) : ℤ) : ℚ) + 1 := by
    have : loRaw o.W o.S o.O ≤ -2 ^ (o.W - 1) + 1 := by
      rw [hS]; unfold loRaw minRaw maxRaw
      rw [if_pos rfl, if_pos rfl]
      split_ifs <;> linarith
    have := Int.cast_le (R := ℚ) |>.2 this
    rwa [Int.cast_add, Int.cast_neg, Int.cast_one] at this
  have hi : ((maxRaw o.W o.S : ℤ) : ℚ) = ((2 ^ (o.W - 1) : ℤ) : ℚ) - 1 := by
    rw [hS]; unfold maxRaw; rw [if_pos rfl, Int.cast_sub, Int.cast_one]
  have := Fmt.cvt_err (R := ℚ) (f := o) (x := r) (by omega) (by rw [hF, zpow_natCast]; linarith) (by rw [hF, zpow_natCast, hi]; linarith)
  rw [hF, zpow_neg, zpow_natCast, ← one_div] at this
  simpa using this

theorem unsigned_err {o : Fmt} {h : ℕ} (hF : o.F = h) (hS : o.S = false) (hI : 1 ≤ o.I) {r : ℚ} (h0 : 0 ≤ r) (h1 : r ≤ 1) :
    |o.cvt r - r| < 1 / 2 ^ h := by
  have hFd : o.F = o.W - o.I := rfl
  have hpow : (2 : ℚ) ^ h + 1 ≤ ((2 ^ o.W : ℤ) : ℚ) := by
    push_cast
    have : (2 : ℚ) ^ (h + 1) ≤ 2 ^ o.W := pow_le_pow_right₀ (by norm_num) (by omega)
    have h2 : (1 : ℚ) ≤ 2 ^ h := one_le_pow₀ (by norm_num)
    rw [pow_succ] at this
    linarith
  have hu : (0 : ℚ) < 2 ^ h := by positivity
  have lo : ((loRaw o.W o.S o.O : ℤ) : ℚ) ≤ 0 := by exact_mod_cast loRaw_nonpos _ _ _
  have hi : ((maxRaw o.W o.S : ℤ) : ℚ) = ((2 ^ o.W : ℤ) : ℚ) - 1 := by
    rw [hS]; unfold maxRaw; rw [if_neg (by simp), Int.cast_sub, Int.cast_one]
  have := Fmt.cvt_err (R := ℚ) (f := o) (x := r) (by omega) (by rw [hF, zpow_natCast]; have := mul_nonneg h0 hu.le; linarith)
    (by rw [hF, zpow_natCast, hi]; have := mul_le_of_le_one_left hu.le h1; linarith)
  rw [hF, zpow_neg, zpow_natCast, ← one_div] at this
  simpa using this

theorem arcsin_half (x : ℝ) : |Real.arcsin x / Real.pi| ≤ 1 / 2 := by
  have hpi := Real.pi_pos
  rw [abs_div, abs_of_pos hpi, div_le_iff₀ hpi, abs_le]
  have h1 := Real.neg_pi_div_two_le_arcsin x
  have h2 := Real.arcsin_le_pi_div_two x
  constructor <;> linarith

theorem room {o : Fmt} {h : ℕ} (hF : o.F = h) (hh : 6 ≤ h) (hI : 1 ≤ o.I) {e : ℝ} (he : e ≤ 0.3) : (1 / 2 + e) * 2 ^ h ≤ 2 ^ (o.W - 1) - 1 := by
  have hFd : o.F = o.W - o.I := rfl
  have hpow : (2 : ℝ) ^ h ≤ 2 ^ (o.W - 1) := pow_le_pow_right₀ (by norm_num) (by omega)
  have h6 : (64 : ℝ) ≤ 2 ^ h := by
    have : (2 : ℝ) ^ 6 ≤ 2 ^ h := pow_le_pow_right₀ (by norm_num) hh
    linarith
  have := mul_le_mul_of_nonneg_right (show 1 / 2 + e ≤ 0.8 by linarith) (show (0 : ℝ) ≤ 2 ^ h by positivity)
  linarith

/-- From the angle to the converted angle. -/
theorem out_err {o : Fmt} {h : ℕ} (hF : o.F = h) (hS : o.S = true) (hI : 1 ≤ o.I) {r : ℚ} {x e : ℝ} (he : (1 / 2 + e) * 2 ^ h ≤ 2 ^ (o.W - 1) - 1)
    (hr : |(r : ℝ) - Real.arcsin x / Real.pi| ≤ e) : |((o.cvt r : ℚ) : ℝ) - Real.arcsin x / Real.pi| ≤ 1 / 2 ^ h + e := by
  have ha := arcsin_half x
  have hr2 : |r| * 2 ^ h ≤ ((2 ^ (o.W - 1) : ℤ) : ℚ) - 1 := by
    have h1 : |(r : ℝ)| ≤ 1 / 2 + e := by
      rw [abs_le] at *
      constructor <;> linarith
    have h2 := (mul_le_mul_of_nonneg_right h1 (show (0 : ℝ) ≤ 2 ^ h by positivity)).trans he
    exact_mod_cast h2
  have := signed_err hF hS hI hr2
  have h3 := Rat.cast_lt (K := ℝ) |>.2 this
  push_cast at h3
  have := abs_sub_le ((o.cvt r : ℚ) : ℝ) (r : ℝ) (Real.arcsin x / Real.pi)
  linarith

end Proof.Arcsin
