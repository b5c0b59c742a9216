import Verif.Proof.SincosTable

namespace Proof.Sincos
open Ac Model.Sincos

/-- Eight terms of the series. -/
theorem series {y : ℝ} (h0 : 0 ≤ y) (h1 : y ≤ 1 / 500) :
    |Real.cos y - (1 - y ^ 2 / 2 + y ^ 4 / 24 - y ^ 6 / 720)| ≤ 1 / 10 ^ 25 ∧
    |Real.sin y - (y - y ^ 3 / 6 + y ^ 5 / 120 - y ^ 7 / 5040)| ≤ 1 / 10 ^ 25 := by
  have hn : ‖(y : ℂ) * Complex.I‖ = y := by
    rw [norm_mul, Complex.norm_I, mul_one, Complex.norm_real, Real.norm_of_nonneg h0]
  have h := Complex.exp_bound (x := (y : ℂ) * Complex.I) (by rw [hn]; linarith) (n := 8) (by norm_num)
  rw [hn] at h
  have hs : ∑ m ∈ Finset.range 8, ((y : ℂ) * Complex.I) ^ m / (m.factorial : ℂ) =
      ((1 - y ^ 2 / 2 + y ^ 4 / 24 - y ^ 6 / 720 : ℝ) : ℂ) + ((y - y ^ 3 / 6 + y ^ 5 / 120 - y ^ 7 / 5040 : ℝ) : ℂ) * Complex.I := by
    have i2 : Complex.I ^ 2 = -1 := Complex.I_sq
    simp only [Finset.sum_range_succ, Finset.sum_range_zero, mul_pow, Nat.factorial]
    have i3 : Complex.I ^ 3 = -Complex.I := by rw [pow_succ, i2]; ring
    have i4 : Complex.I ^ 4 = 1 := by rw [show (4 : ℕ) = 2 * 2 by rfl, pow_mul, i2]; norm_num
    have i5 : Complex.I ^ 5 = Complex.I := by rw [pow_succ, i4]; ring
    have i6 : Complex.I ^ 6 = -1 := by rw [pow_succ, i5, ← pow_two, i2]
    have i7 : Complex.I ^ 7 = -Complex.I := by rw [pow_succ, i6]; ring
    rw [i2, i3, i4, i5, i6, i7]
    push_cast
    ring
  rw [hs] at h
  have he : Complex.exp (y * Complex.I) = (Real.cos y : ℂ) + (Real.sin y : ℂ) * Complex.I := by
    rw [Complex.exp_mul_I]; push_cast; rfl
  rw [he] at h
  have hb : y ^ 8 * ((Nat.succ 8 : ℕ) * ((Nat.factorial 8 : ℕ) * (8 : ℕ) : ℝ)⁻¹) ≤ 1 / 10 ^ 25 := by
    have h8 : y ^ 8 ≤ (1 / 500) ^ 8 := pow_le_pow_left₀ h0 h1 8
    have : ((Nat.succ 8 : ℕ) * ((Nat.factorial 8 : ℕ) * (8 : ℕ) : ℝ)⁻¹) ≤ 1 / 10000 := by norm_num [Nat.factorial]
    calc _ ≤ (1 / 500 : ℝ) ^ 8 * (1 / 10000) := mul_le_mul h8 this (by positivity) (by positivity)
      _ ≤ _ := by norm_num
  have h' := le_trans h hb
  set A : ℝ := Real.cos y - (1 - y ^ 2 / 2 + y ^ 4 / 24 - y ^ 6 / 720) with hA
  set B : ℝ := Real.sin y - (y - y ^ 3 / 6 + y ^ 5 / 120 - y ^ 7 / 5040) with hB
  have e : (Real.cos y : ℂ) + (Real.sin y : ℂ) * Complex.I - (((1 - y ^ 2 / 2 + y ^ 4 / 24 - y ^ 6 / 720 : ℝ) : ℂ) +
      ((y - y ^ 3 / 6 + y ^ 5 / 120 - y ^ 7 / 5040 : ℝ) : ℂ) * Complex.I) = (A : ℂ) + (B : ℂ) * Complex.I := by
    rw [hA, hB]; push_cast; ring
  rw [e] at h'
  refine ⟨le_trans ?_ h', le_trans ?_ h'⟩
  · have := Complex.abs_re_le_norm ((A : ℂ) + (B : ℂ) * Complex.I)
    simpa using this
  · have := Complex.abs_im_le_norm ((A : ℂ) + (B : ℂ) * Complex.I)
    simpa using this

/-- The tables as real numbers. -/
noncomputable def rc (k : ℕ) : ℝ := ec k / 10 ^ 30
@[inherit_doc rc] noncomputable def rs (k : ℕ) : ℝ := es k / 10 ^ 30

theorem ec1 : ec 1 = 999998823451701909929025710172 := by decide +kernel
theorem es1 : es 1 = 1533980186284765612303697150 := by decide +kernel

theorem base : |rc 1 - Real.cos θ| ≤ 1 / 10 ^ 23 ∧ |rs 1 - Real.sin θ| ≤ 1 / 10 ^ 23 := by
  have p1 := Real.pi_gt_d20
  have p2 := Real.pi_lt_d20
  set y : ℝ := 3.141592653589793238465 / 2048 with hy
  have hd : |y - θ| ≤ 1 / (4 * 10 ^ 23) := by
    unfold θ
    rw [abs_le]; constructor <;> rw [hy] <;> linarith
  obtain ⟨s1, s2⟩ := series (y := y) (by rw [hy]; norm_num) (by rw [hy]; norm_num)
  have c1 := le_trans (Real.abs_cos_sub_cos_le y θ) hd
  have c2 := le_trans (Real.abs_sin_sub_sin_le y θ) hd
  have a1 : |rc 1 - (1 - y ^ 2 / 2 + y ^ 4 / 24 - y ^ 6 / 720)| ≤ 2 / 10 ^ 24 := by
    unfold rc; rw [ec1, hy, abs_le]; constructor <;> norm_num
  have a2 : |rs 1 - (y - y ^ 3 / 6 + y ^ 5 / 120 - y ^ 7 / 5040)| ≤ 2 / 10 ^ 24 := by
    unfold rs; rw [es1, hy, abs_le]; constructor <;> norm_num
  have t1 := abs_sub_le (rc 1) (1 - y ^ 2 / 2 + y ^ 4 / 24 - y ^ 6 / 720) (Real.cos y)
  have t2 := abs_sub_le (rc 1) (Real.cos y) (Real.cos θ)
  have t3 := abs_sub_le (rs 1) (y - y ^ 3 / 6 + y ^ 5 / 120 - y ^ 7 / 5040) (Real.sin y)
  have t4 := abs_sub_le (rs 1) (Real.sin y) (Real.sin θ)
  rw [abs_sub_comm (1 - y ^ 2 / 2 + y ^ 4 / 24 - y ^ 6 / 720) (Real.cos y)] at t1
  rw [abs_sub_comm (y - y ^ 3 / 6 + y ^ 5 / 120 - y ^ 7 / 5040) (Real.sin y)] at t3
  have : (2 : ℝ) / 10 ^ 24 + 1 / 10 ^ 25 + 1 / (4 * 10 ^ 23) ≤ 1 / 10 ^ 23 := by norm_num
  exact ⟨le_trans t2 (le_trans (add_le_add (le_trans t1 (add_le_add a1 s1)) c1) this),
    le_trans t4 (le_trans (add_le_add (le_trans t3 (add_le_add a2 s2)) c2) this)⟩

theorem rstep {k : ℕ} (hk : k < 511) : |rc (k + 1) - (rc k * rc 1 - rs k * rs 1)| ≤ 2 / 10 ^ 30 ∧
    |rs (k + 1) - (rs k * rc 1 + rc k * rs 1)| ≤ 2 / 10 ^ 30 := by
  have h := step_all k hk
  unfold step at h
  simp only [Bool.and_eq_true, decide_eq_true_eq] at h
  obtain ⟨h1, h2⟩ := h
  unfold rc rs
  generalize ec (k + 1) = a at *
  generalize es (k + 1) = b at *
  generalize ec k = c at *
  generalize es k = d at *
  generalize ec 1 = e at *
  generalize es 1 = f at *
  have h1' : |(a : ℝ) * 10 ^ 30 - (c * e - d * f)| ≤ 2 * 10 ^ 30 := by exact_mod_cast h1
  have h2' : |(b : ℝ) * 10 ^ 30 - (d * e + c * f)| ≤ 2 * 10 ^ 30 := by exact_mod_cast h2
  constructor
  · rw [show (a : ℝ) / 10 ^ 30 - (c / 10 ^ 30 * (e / 10 ^ 30) - d / 10 ^ 30 * (f / 10 ^ 30)) =
      (a * 10 ^ 30 - (c * e - d * f)) / (10 ^ 30 * 10 ^ 30) by field_simp, abs_div, abs_of_pos (show (0 : ℝ) < 10 ^ 30 * 10 ^ 30 by positivity),
      div_le_div_iff₀ (by positivity) (by positivity)]
    linarith
  · rw [show (b : ℝ) / 10 ^ 30 - (d / 10 ^ 30 * (e / 10 ^ 30) + c / 10 ^ 30 * (f / 10 ^ 30)) =
      (b * 10 ^ 30 - (d * e + c * f)) / (10 ^ 30 * 10 ^ 30) by field_simp, abs_div, abs_of_pos (show (0 : ℝ) < 10 ^ 30 * 10 ^ 30 by positivity),
      div_le_div_iff₀ (by positivity) (by positivity)]
    linarith

theorem table_norm {k : ℕ} (hk : k < 512) :
    ‖((rc k : ℂ) + rs k * Complex.I) - Complex.exp (((k * θ : ℝ) : ℂ) * Complex.I)‖ ≤ k * (1 / 10 ^ 22) := by
  induction k with
  | zero =>
    have h1 : rc 0 = 1 := by unfold rc; rw [show ec 0 = 10 ^ 30 by decide +kernel]; norm_num
    have h2 : rs 0 = 0 := by unfold rs; rw [show es 0 = 0 by decide +kernel]; norm_num
    simp [h1, h2]
  | succ k ih =>
    have ih := ih (by omega)
    obtain ⟨s1, s2⟩ := rstep (k := k) (by omega)
    obtain ⟨b1, b2⟩ := base
    set z : ℂ := (rc k : ℂ) + rs k * Complex.I with hz
    set z1 : ℂ := (rc 1 : ℂ) + rs 1 * Complex.I with hz1
    set z' : ℂ := (rc (k + 1) : ℂ) + rs (k + 1) * Complex.I with hz'
    set w : ℂ := Complex.exp ((θ : ℂ) * Complex.I) with hw
    set wk : ℂ := Complex.exp (((k * θ : ℝ) : ℂ) * Complex.I) with hwk
    have hww : Complex.exp ((((k + 1 : ℕ) * θ : ℝ) : ℂ) * Complex.I) = wk * w := by
      rw [hwk, hw, ← Complex.exp_add]; congr 1; push_cast; ring
    have nw : ‖w‖ = 1 := Complex.norm_exp_ofReal_mul_I θ
    have nwk : ‖wk‖ = 1 := Complex.norm_exp_ofReal_mul_I _
    have d1 : ‖z' - z * z1‖ ≤ 4 / 10 ^ 30 := by
      have e : z' - z * z1 = ((rc (k + 1) - (rc k * rc 1 - rs k * rs 1) : ℝ) : ℂ) + ((rs (k + 1) - (rs k * rc 1 + rc k * rs 1) : ℝ) : ℂ) * Complex.I := by
        rw [hz, hz1, hz']
        push_cast
        linear_combination (-(rs k : ℂ) * rs 1) * Complex.I_sq
      rw [e]
      refine le_trans (norm_add_le _ _) ?_
      rw [norm_mul, Complex.norm_I, mul_one, Complex.norm_real, Complex.norm_real, Real.norm_eq_abs, Real.norm_eq_abs]
      linarith
    have d2 : ‖z1 - w‖ ≤ 2 / 10 ^ 23 := by
      have e : z1 - w = ((rc 1 - Real.cos θ : ℝ) : ℂ) + ((rs 1 - Real.sin θ : ℝ) : ℂ) * Complex.I := by
        rw [hz1, hw, Complex.exp_mul_I]; push_cast; ring
      rw [e]
      refine le_trans (norm_add_le _ _) ?_
      rw [norm_mul, Complex.norm_I, mul_one, Complex.norm_real, Complex.norm_real, Real.norm_eq_abs, Real.norm_eq_abs]
      linarith
    have nz : ‖z‖ ≤ 2 := by
      have h1 : ‖z‖ ≤ ‖z - wk‖ + ‖wk‖ := by
        have := norm_add_le (z - wk) wk
        rwa [sub_add_cancel] at this
      have h2 : (k : ℝ) ≤ 511 := by exact_mod_cast (by omega : k ≤ 511)
      have h3 : (k : ℝ) * (1 / 10 ^ 22) ≤ 511 * (1 / 10 ^ 22) := mul_le_mul_of_nonneg_right h2 (by positivity)
      have : (511 : ℝ) * (1 / 10 ^ 22) ≤ 1 := by norm_num
      rw [nwk] at h1
      linarith
    rw [hww, show z' - wk * w = (z' - z * z1) + z * (z1 - w) + (z - wk) * w by ring]
    refine le_trans (norm_add_le _ _) ?_
    have h1 := norm_add_le (z' - z * z1) (z * (z1 - w))
    rw [norm_mul] at h1
    rw [norm_mul, nw, mul_one]
    have h2 : ‖z‖ * ‖z1 - w‖ ≤ 2 * (2 / 10 ^ 23) := mul_le_mul nz d2 (norm_nonneg _) (by norm_num)
    push_cast
    have : (4 : ℝ) / 10 ^ 30 + 2 * (2 / 10 ^ 23) ≤ 1 / 10 ^ 22 := by norm_num
    linarith

theorem table_err {k : ℕ} (hk : k < 512) : |rc k - Real.cos (k * θ)| ≤ 1 / 10 ^ 19 ∧ |rs k - Real.sin (k * θ)| ≤ 1 / 10 ^ 19 := by
  have h := table_norm hk
  have h2 : (k : ℝ) ≤ 511 := by exact_mod_cast (by omega : k ≤ 511)
  have h3 : (k : ℝ) * (1 / 10 ^ 22) ≤ 511 * (1 / 10 ^ 22) := mul_le_mul_of_nonneg_right h2 (by positivity)
  have h4 : (511 : ℝ) * (1 / 10 ^ 22) ≤ 1 / 10 ^ 19 := by norm_num
  have e : ((rc k : ℂ) + rs k * Complex.I) - Complex.exp (((k * θ : ℝ) : ℂ) * Complex.I) =
      ((rc k - Real.cos (k * θ) : ℝ) : ℂ) + ((rs k - Real.sin (k * θ) : ℝ) : ℂ) * Complex.I := by
    rw [Complex.exp_mul_I]; push_cast; ring
  rw [e] at h
  constructor
  · have := Complex.abs_re_le_norm (((rc k - Real.cos (k * θ) : ℝ) : ℂ) + ((rs k - Real.sin (k * θ) : ℝ) : ℂ) * Complex.I)
    simp only [Complex.add_re, Complex.ofReal_re, Complex.mul_re, Complex.I_re, Complex.ofReal_im, Complex.I_im] at this
    rw [mul_zero, zero_mul, sub_zero, add_zero] at this
    linarith
  · have := Complex.abs_im_le_norm (((rc k - Real.cos (k * θ) : ℝ) : ℂ) + ((rs k - Real.sin (k * θ) : ℝ) : ℂ) * Complex.I)
    simp only [Complex.add_im, Complex.ofReal_re, Complex.mul_im, Complex.I_re, Complex.ofReal_im, Complex.I_im] at this
    rw [mul_one, mul_zero, add_zero, zero_add] at this
    linarith

/-- A double is within 2^-54 of the literal. -/
theorem dbl_err (n : ℕ) : |dbl n - n / 10 ^ 22| ≤ 1 / 2 ^ 53 := by
  unfold dbl
  simp only
  set e := 53 + Nat.log2 ((10 ^ 22 - 1) / n) with he
  have hE : (0 : ℚ) < 2 ^ e := by positivity
  have hq := quant_err .RND_CONV ((n : ℚ) * 2 ^ e / 10 ^ 22)
  have h1 : (1 : ℚ) / 2 ^ e ≤ 1 / 2 ^ 53 := one_div_le_one_div_of_le (by positivity) (pow_le_pow_right₀ (by norm_num) (by omega))
  have e2 : (quant .RND_CONV ((n : ℚ) * 2 ^ e / 10 ^ 22) : ℚ) / 2 ^ e - n / 10 ^ 22 =
      ((quant .RND_CONV ((n : ℚ) * 2 ^ e / 10 ^ 22) : ℚ) - (n : ℚ) * 2 ^ e / 10 ^ 22) / 2 ^ e := by field_simp
  rw [e2, abs_div, abs_of_pos hE]
  refine le_trans ?_ h1
  rw [div_le_div_iff_of_pos_right hE]
  exact hq.le

theorem dbl_nonneg (n : ℕ) : 0 ≤ dbl n := by
  unfold dbl
  refine div_nonneg ?_ (by positivity)
  have : (0 : ℤ) ≤ quant .RND_CONV ((n : ℚ) * 2 ^ (53 + Nat.log2 ((10 ^ 22 - 1) / n)) / 10 ^ 22) := by
    apply le_quant; push_cast; positivity
  exact_mod_cast this

theorem dbl_le_one {n : ℕ} (h : n ≤ 10 ^ 22) : dbl n ≤ 1 := by
  unfold dbl
  simp only
  set e := 53 + Nat.log2 ((10 ^ 22 - 1) / n) with he
  rw [div_le_one (by positivity)]
  have : quant .RND_CONV ((n : ℚ) * 2 ^ e / 10 ^ 22) ≤ 2 ^ e := by
    apply quant_le
    push_cast
    rw [div_le_iff₀ (by positivity), mul_comm]
    have : (n : ℚ) ≤ 10 ^ 22 := by exact_mod_cast h
    exact mul_le_mul_of_nonneg_left this (by positivity)
  exact_mod_cast this

/-- The literals, as doubles, are within 2^-47 of the cosine and the sine. -/
theorem literal_err {k : ℕ} (hk : k < 512) :
    |(dbl (literals.getD k (0, 0)).1 : ℝ) - Real.cos (k * θ)| ≤ 1 / 2 ^ 47 ∧
    |(dbl (literals.getD k (0, 0)).2 : ℝ) - Real.sin (k * θ)| ≤ 1 / 2 ^ 47 ∧
    (literals.getD k (0, 0)).1 ≤ 10 ^ 22 ∧ (literals.getD k (0, 0)).2 ≤ 10 ^ 22 := by
  have h := lit_all k hk
  unfold lit at h
  simp only [Bool.and_eq_true, decide_eq_true_eq] at h
  obtain ⟨⟨⟨h1, h2⟩, h3⟩, h4⟩ := h
  obtain ⟨t1, t2⟩ := table_err hk
  unfold rc at t1
  unfold rs at t2
  have key : ∀ (n : ℕ) (v : ℤ) (r : ℝ), n ≤ 10 ^ 22 → |(n : ℤ) * 10 ^ 8 - v| * (10 * 2 ^ 47) ≤ 8 * 10 ^ 30 →
      |(v : ℝ) / 10 ^ 30 - r| ≤ 1 / 10 ^ 19 → |(dbl n : ℝ) - r| ≤ 1 / 2 ^ 47 := by
    intro n v r hn hv hr
    have d1 : |(dbl n : ℝ) - n / 10 ^ 22| ≤ 1 / 2 ^ 53 := by
      have : ((|dbl n - n / 10 ^ 22| : ℚ) : ℝ) ≤ ((1 / 2 ^ 53 : ℚ) : ℝ) := Rat.cast_le.2 (dbl_err n)
      rw [Rat.cast_abs] at this
      push_cast at this
      exact this
    have hv' : |(n : ℝ) * 10 ^ 8 - v| * (10 * 2 ^ 47) ≤ 8 * 10 ^ 30 := by exact_mod_cast hv
    have d2 : |(n : ℝ) / 10 ^ 22 - v / 10 ^ 30| ≤ 8 / (10 * 2 ^ 47) := by
      rw [show (n : ℝ) / 10 ^ 22 - v / 10 ^ 30 = (n * 10 ^ 8 - v) / 10 ^ 30 by field_simp, abs_div,
        abs_of_pos (show (0 : ℝ) < 10 ^ 30 by positivity), div_le_div_iff₀ (by positivity) (by positivity)]
      linarith
    have : (1 : ℝ) / 2 ^ 53 + 8 / (10 * 2 ^ 47) + 1 / 10 ^ 19 ≤ 1 / 2 ^ 47 := by norm_num
    have e : (dbl n : ℝ) - r = (dbl n - n / 10 ^ 22) + (n / 10 ^ 22 - v / 10 ^ 30) + (v / 10 ^ 30 - r) := by ring
    rw [e]
    have u1 := abs_add_le ((dbl n : ℝ) - n / 10 ^ 22 + ((n : ℝ) / 10 ^ 22 - (v : ℝ) / 10 ^ 30)) ((v : ℝ) / 10 ^ 30 - r)
    have u2 := abs_add_le ((dbl n : ℝ) - n / 10 ^ 22) ((n : ℝ) / 10 ^ 22 - (v : ℝ) / 10 ^ 30)
    linarith
  exact ⟨key _ _ _ h3 h1 t1, key _ _ _ h4 h2 t2, h3, h4⟩

end Proof.Sincos
