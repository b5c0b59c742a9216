import Verif.Model.Atan2
import Verif.Proof.Cordic

/-! # The vectoring CORDIC in the complex plane -/

namespace Proof.Atan2
open Proof.Cordic (G G_pos G_succ G_zero G_mono rot ser ser_eq arctan_near piq pi_near norm_le_of_comp)

/-! ## The table -/

/-- Entries as integers. -/
def T (i : ℕ) : ℤ := Model.Atan2.atanTable.getD i 0

/-- Bound of the error of entry `i`. -/
def ae (i : ℕ) : ℚ :=
  if i = 0 then |(T 0 : ℚ) / 2 ^ 71 - piq / 4| + 1 / 10 ^ 20 else
    |(T i : ℚ) / 2 ^ 71 - ser (1 / 2 ^ i) 30| + (1 / 2 ^ i) * ((1 / 2 ^ i) ^ 2) ^ 30 / (1 - (1 / 2 ^ i) ^ 2)

def aeSum : ℕ → ℚ
  | 0 => 0
  | n + 1 => aeSum n + ae n

theorem aeSum_le : aeSum 70 ≤ 1 / 2 ^ 53 := by decide +kernel

theorem T_all : Proof.Pwl.allLt 70 (fun i => decide (0 < T i ∧ T i ≤ 2 ^ 71 - 2 ^ 68)) = true := by decide +kernel

theorem T_pos {i : ℕ} (hi : i < 70) : 0 < T i ∧ T i ≤ 2 ^ 71 - 2 ^ 68 := by
  have := Proof.Pwl.allLt_iff.1 T_all i hi
  exact of_decide_eq_true this

theorem atan_err {i : ℕ} (hi : i < 70) : |(T i : ℝ) / 2 ^ 71 - Real.arctan (1 / 2 ^ i)| ≤ ((ae i : ℚ) : ℝ) := by
  by_cases h : i = 0
  · subst h
    unfold ae
    rw [if_pos rfl]
    have h2 := pi_near
    rw [pow_zero, div_one, Real.arctan_one]
    have e : (T 0 : ℝ) / 2 ^ 71 - Real.pi / 4 = ((T 0 : ℝ) / 2 ^ 71 - (piq : ℝ) / 4) + -((Real.pi - piq) / 4) := by ring
    rw [e]
    refine le_trans (abs_add_le _ _) ?_
    rw [Rat.cast_add, Rat.cast_abs]
    refine add_le_add (le_of_eq ?_) ?_
    · congr 1; push_cast; rfl
    · rw [abs_neg, abs_div]
      have : |(4 : ℝ)| = 4 := by norm_num
      rw [this]
      push_cast
      have := abs_nonneg (Real.pi - piq)
      linarith
  · unfold ae
    rw [if_neg h]
    have hx0 : (0 : ℝ) ≤ 1 / 2 ^ i := by positivity
    have hx1 : (1 : ℝ) / 2 ^ i < 1 := by
      rw [div_lt_one (by positivity)]; exact one_lt_pow₀ (by norm_num) h
    have h3 := arctan_near hx0 hx1 30
    have h3' := ser_eq (1 / 2 ^ i) 30
    rw [show (((1 / 2 ^ i : ℚ)) : ℝ) = 1 / 2 ^ i by push_cast; rfl] at h3'
    rw [← h3'] at h3
    refine le_trans (abs_sub_le _ ((ser (1 / 2 ^ i) 30 : ℚ) : ℝ) _) ?_
    rw [Rat.cast_add, Rat.cast_abs]
    refine add_le_add ?_ ?_
    · push_cast; exact le_rfl
    · refine le_trans h3 ?_
      push_cast; exact le_rfl

theorem ae_nonneg {i : ℕ} (hi : i < 70) : 0 ≤ ae i := by
  have := le_trans (abs_nonneg _) (atan_err hi)
  exact_mod_cast this

/-- The error of the entries used, beyond the table too. -/
noncomputable def te (i : ℕ) : ℝ := if i < 70 then ((ae i : ℚ) : ℝ) else 1 / 2 ^ i

noncomputable def teSum : ℕ → ℝ
  | 0 => 0
  | n + 1 => teSum n + te n

/-- The entry used. -/
def Tq (i : ℕ) : ℚ := if i < 70 then (T i : ℚ) / 2 ^ 71 else 0

theorem arctan_le {x : ℝ} (h : 0 ≤ x) : Real.arctan x ≤ x := by
  rcases h.eq_or_lt with rfl | h
  · simp
  have h2 : 0 < Real.arctan x := Real.arctan_pos.2 h
  have := (Real.lt_tan h2 (Real.arctan_lt_pi_div_two x)).le
  rwa [Real.tan_arctan] at this

theorem Tq_err (i : ℕ) : |((Tq i : ℚ) : ℝ) - Real.arctan (1 / 2 ^ i)| ≤ te i := by
  unfold Tq te
  split_ifs with h
  · push_cast; exact atan_err h
  · have h0 : (0 : ℝ) ≤ 1 / 2 ^ i := by positivity
    have := Real.arctan_nonneg.2 h0
    rw [Rat.cast_zero, zero_sub, abs_neg, abs_of_nonneg this]
    exact arctan_le h0

theorem teSum_le (n : ℕ) : teSum n ≤ 1 / 2 ^ 52 := by
  have h70 : ∀ n ≤ 70, teSum n = ((aeSum n : ℚ) : ℝ) := by
    intro n
    induction n with
    | zero => intro _; simp [teSum, aeSum]
    | succ n ih =>
      intro h
      rw [teSum, aeSum, ih (by omega), te, if_pos (by omega)]; push_cast; rfl
  have hs : ((aeSum 70 : ℚ) : ℝ) ≤ 1 / 2 ^ 53 := by
    have := Rat.cast_le (K := ℝ) |>.2 aeSum_le
    refine le_trans this (by norm_num)
  have up : ∀ m, teSum (70 + m) ≤ 1 / 2 ^ 53 + (1 / 2 ^ 69 - 1 / 2 ^ (69 + m)) := by
    intro m
    induction m with
    | zero => rw [Nat.add_zero, h70 70 le_rfl]; simpa using hs
    | succ m ih =>
      rw [show 70 + (m + 1) = (70 + m) + 1 by ring, teSum, te, if_neg (by omega)]
      have e : (1 : ℝ) / 2 ^ (69 + m) = 2 * (1 / 2 ^ (70 + m)) := by
        rw [show 70 + m = (69 + m) + 1 by ring, pow_succ]; field_simp
      have e2 : (1 : ℝ) / 2 ^ (69 + (m + 1)) = 1 / 2 ^ (70 + m) := by rw [show 69 + (m + 1) = 70 + m by ring]
      rw [e] at ih
      rw [e2]
      linarith
  rcases le_or_gt 70 n with h | h
  · have h1 := up (n - 70)
    rw [show 70 + (n - 70) = n by omega] at h1
    have : (0 : ℝ) ≤ 1 / 2 ^ (69 + (n - 70)) := by positivity
    refine le_trans h1 ?_
    have : (1 : ℝ) / 2 ^ 53 + 1 / 2 ^ 69 ≤ 1 / 2 ^ 52 := by norm_num
    linarith
  · rw [h70 n h.le]
    have key : ∀ m, n + m ≤ 70 → aeSum n ≤ aeSum (n + m) := by
      intro m
      induction m with
      | zero => intro _; exact le_rfl
      | succ m ih =>
        intro h
        have := ae_nonneg (show n + m < 70 by omega)
        have e : aeSum (n + (m + 1)) = aeSum (n + m) + ae (n + m) := rfl
        rw [e]
        linarith [ih (by omega)]
    have h1 := key (70 - n) (by omega)
    rw [show n + (70 - n) = 70 by omega] at h1
    have h2 : ((aeSum n : ℚ) : ℝ) ≤ ((aeSum 70 : ℚ) : ℝ) := by exact_mod_cast h1
    refine le_trans h2 (le_trans hs (by norm_num))

theorem te_nonneg (i : ℕ) : 0 ≤ te i := le_trans (abs_nonneg _) (Tq_err i)

/-! ## The angles -/

noncomputable def a (i : ℕ) : ℝ := Real.arctan (1 / 2 ^ i)

theorem a_nonneg (i : ℕ) : 0 ≤ a i := Real.arctan_nonneg.2 (by positivity)

theorem a_le (i : ℕ) : a i ≤ 1 / 2 ^ i := arctan_le (by positivity)

theorem a_half (i : ℕ) : a i ≤ 2 * a (i + 1) := by
  unfold a
  have hx : (1 : ℝ) / 2 ^ (i + 1) ≤ 1 / 2 := by
    rw [pow_succ]
    have : (1 : ℝ) ≤ 2 ^ i := one_le_pow₀ (by norm_num)
    rw [div_le_div_iff₀ (by positivity) (by norm_num)]
    linarith
  have hx0 : (0 : ℝ) < 1 / 2 ^ (i + 1) := by positivity
  rw [Real.two_mul_arctan (by linarith) (by linarith)]
  refine Real.arctan_mono ?_
  have e : (1 : ℝ) / 2 ^ i = 2 * (1 / 2 ^ (i + 1)) := by rw [pow_succ]; field_simp
  rw [e]
  set v : ℝ := 1 / 2 ^ (i + 1)
  have h1 : 0 < 1 - v ^ 2 := by nlinarith
  rw [le_div_iff₀ h1]
  nlinarith [mul_pos hx0 (pow_pos hx0 2)]

/-- The bound of the angle before step `i`. -/
noncomputable def β : ℕ → ℝ
  | 0 => Real.pi / 2
  | i + 1 => a i

theorem β_step (i : ℕ) : β i ≤ 2 * a i := by
  cases i with
  | zero => unfold β a; rw [pow_zero, div_one, Real.arctan_one]; linarith
  | succ i => exact a_half i

theorem a_le_pi (i : ℕ) : a i ≤ Real.pi / 4 := by
  unfold a
  rw [← Real.arctan_one]
  refine Real.arctan_mono ?_
  rw [div_le_one (by positivity)]
  exact one_le_pow₀ (by norm_num)

theorem β_le (i : ℕ) : β i ≤ Real.pi / 2 := by
  have := Real.pi_pos
  cases i with
  | zero => exact le_rfl
  | succ i => exact le_trans (a_le_pi i) (by linarith)

/-! ## Small changes of a vector -/

open Complex in
theorem perturb {r φ κ : ℝ} {e : ℂ} (he : ‖e‖ ≤ κ) (hr : κ < r) :
    ∃ r' φ' : ℝ, (r : ℂ) * exp (φ * I) + e = r' * exp (φ' * I) ∧ r - κ ≤ r' ∧ r' ≤ r + κ ∧ |φ' - φ| ≤ κ / (r - κ) := by
  set w : ℂ := r + e * exp (-(φ * I)) with hw
  have hκ : 0 ≤ κ := le_trans (norm_nonneg _) he
  have hn : ‖e * exp (-(φ * I))‖ ≤ κ := by
    rw [norm_mul]
    have : ‖exp (-((φ : ℂ) * I))‖ = 1 := by
      rw [show -((φ : ℂ) * I) = ((-φ : ℝ) : ℂ) * I by push_cast; ring]; exact norm_exp_ofReal_mul_I _
    rw [this, mul_one]; exact he
  have hre : r - κ ≤ w.re := by
    have := abs_le.1 (le_trans (abs_re_le_norm (e * exp (-(φ * I)))) hn)
    rw [hw, add_re, ofReal_re]; linarith [this.1]
  have him : |w.im| ≤ κ := by
    have := le_trans (abs_im_le_norm (e * exp (-(φ * I)))) hn
    rw [hw, add_im, ofReal_im, zero_add]; exact this
  have hpos : 0 < w.re := by linarith
  refine ⟨‖w‖, φ + arg w, ?_, le_trans hre (re_le_norm w), ?_, ?_⟩
  · have h1 : (‖w‖ : ℂ) * exp (arg w * I) = w := norm_mul_exp_arg_mul_I w
    rw [ofReal_add, add_mul, exp_add]
    calc (r : ℂ) * exp (φ * I) + e = w * exp (φ * I) := by
          rw [hw, add_mul, mul_assoc e, ← exp_add]; simp
      _ = ((‖w‖ : ℂ) * exp (arg w * I)) * exp (φ * I) := by rw [h1]
      _ = _ := by ring
  · refine le_trans (norm_add_le _ _) ?_
    rw [Complex.norm_real, Real.norm_of_nonneg (by linarith)]
    linarith
  · rw [add_sub_cancel_left]
    have h1 : |arg w| < Real.pi / 2 := Complex.abs_arg_lt_pi_div_two_iff.2 (Or.inl hpos)
    have h2 : |arg w| ≤ |Real.tan (arg w)| := by
      rw [abs_lt] at h1
      rcases lt_trichotomy (arg w) 0 with h | h | h
      · have := (Real.lt_tan (x := -arg w) (by linarith) (by linarith)).le
        rw [Real.tan_neg] at this
        have : Real.tan (arg w) ≤ arg w := by linarith
        rw [abs_of_neg h, abs_of_neg (by linarith)]; linarith
      · rw [h]; simp
      · have := (Real.lt_tan h h1.2).le
        rw [abs_of_pos h, abs_of_pos (by linarith)]; exact this
    refine le_trans h2 ?_
    rw [Complex.tan_arg, abs_div, abs_of_pos hpos]
    exact div_le_div₀ hκ him (by linarith) hre

open Complex in
theorem turn (σ : ℝ) (hσ : σ = 1 ∨ σ = -1) (i : ℕ) (r φ : ℝ) :
    (r : ℂ) * exp (φ * I) * (1 - σ * (1 / 2 ^ i : ℝ) * I) =
      ((r * Real.sqrt (1 + 1 / 4 ^ i) : ℝ) : ℂ) * exp ((φ - σ * a i : ℝ) * I) := by
  have h := rot (-σ) (by rcases hσ with h | h <;> simp [h]) i φ
  rw [G_succ] at h
  have hG : (G i : ℂ) ≠ 0 := by exact_mod_cast (G_pos i).ne'
  have h' : exp (φ * I) * (1 - σ * (1 / 2 ^ i : ℝ) * I) = (Real.sqrt (1 + 1 / 4 ^ i) : ℂ) * exp ((φ - σ * a i : ℝ) * I) := by
    apply mul_left_cancel₀ hG
    rw [ofReal_mul] at h
    have e : φ + -σ * Real.arctan (1 / 2 ^ i) = φ - σ * a i := by unfold a; ring
    rw [e] at h
    rw [← mul_assoc, ← mul_assoc, ← h]
    push_cast
    ring
  rw [mul_assoc, h', ofReal_mul]; ring

/-! ## The loop on integers -/

/-- The vector of the integers `X` and `Y`. -/
noncomputable def vec (X Y : ℤ) : ℂ := (X : ℝ) + (Y : ℝ) * Complex.I

/-- Before step `i` of `N`: `ρ` is the length of the argument in units, `θ` its angle, `s` the sum of the angles. -/
def J (N : ℕ) (ρ θ : ℝ) (i : ℕ) (X Y : ℤ) (s : ℝ) : Prop :=
  ∃ r φ : ℝ, vec X Y = r * Complex.exp (φ * Complex.I) ∧ G i * (ρ - Real.sqrt 2 * (i + 1)) ≤ r ∧ r ≤ G i * (ρ + Real.sqrt 2 * (i + 1)) ∧
    |φ| ≤ β i + i * (Real.sqrt 2 / (ρ - Real.sqrt 2 * (N + 1))) ∧
    |θ - s - φ| ≤ (i + 1) * (Real.sqrt 2 / (ρ - Real.sqrt 2 * (N + 1)))

theorem shift_err (Y : ℤ) (i : ℕ) : |((Y / 2 ^ i : ℤ) : ℝ) - (Y : ℝ) * (1 / 2 ^ i)| ≤ 1 := by
  have hp : (0 : ℤ) < 2 ^ i := by positivity
  have d1 := Int.mul_ediv_add_emod Y (2 ^ i)
  have d2 := Int.emod_lt_of_pos Y hp
  have d3 := Int.emod_nonneg Y hp.ne'
  have hpr : (0 : ℝ) < 2 ^ i := by positivity
  have d1' : (2 : ℝ) ^ i * ((Y / 2 ^ i : ℤ) : ℝ) + ((Y % 2 ^ i : ℤ) : ℝ) = Y := by exact_mod_cast d1
  have d2' : ((Y % 2 ^ i : ℤ) : ℝ) ≤ 2 ^ i := by exact_mod_cast d2.le
  have d3' : (0 : ℝ) ≤ ((Y % 2 ^ i : ℤ) : ℝ) := by exact_mod_cast d3
  rw [← d1']
  have : ((Y / 2 ^ i : ℤ) : ℝ) - (2 ^ i * ((Y / 2 ^ i : ℤ) : ℝ) + ((Y % 2 ^ i : ℤ) : ℝ)) * (1 / 2 ^ i) =
      -(((Y % 2 ^ i : ℤ) : ℝ) / 2 ^ i) := by field_simp; ring
  rw [this, abs_neg, abs_of_nonneg (by positivity)]
  exact (div_le_one hpr).2 d2'

theorem sqrt2 : (1 : ℝ) ≤ Real.sqrt 2 ∧ Real.sqrt 2 ≤ 142 / 100 := by
  constructor
  · rw [Real.one_le_sqrt]; norm_num
  · rw [Real.sqrt_le_left (by norm_num)]; norm_num

theorem G_one (i : ℕ) : 1 ≤ G i := by rw [← G_zero]; exact G_mono (Nat.zero_le i)

/-- What the hypothesis on the length gives. -/
theorem room {N : ℕ} {ρ : ℝ} (hρ : 32 * (N + 1 : ℝ) ≤ ρ) :
    0 < ρ - Real.sqrt 2 * (N + 1) ∧ 95 / 100 * ρ ≤ ρ - Real.sqrt 2 * (N + 1) ∧
    (N + 1) * (Real.sqrt 2 / (ρ - Real.sqrt 2 * (N + 1))) ≤ 3 / 2 * (N + 1) / ρ ∧ 3 / 2 * (N + 1) / ρ ≤ 1 / 20 := by
  have h2 := sqrt2
  have hN : (0 : ℝ) < N + 1 := by positivity
  have hp : 0 < ρ := by linarith
  have h1 : 95 / 100 * ρ ≤ ρ - Real.sqrt 2 * (N + 1) := by nlinarith
  have h0 : 0 < ρ - Real.sqrt 2 * (N + 1) := by linarith
  refine ⟨h0, h1, ?_, ?_⟩
  · rw [← mul_div_assoc, div_le_div_iff₀ h0 hp]
    have e1 : (N + 1) * Real.sqrt 2 * ρ ≤ (N + 1) * (142 / 100) * ρ := by
      refine mul_le_mul_of_nonneg_right (mul_le_mul_of_nonneg_left h2.2 hN.le) hp.le
    have e2 : 3 / 2 * ((N : ℝ) + 1) * (95 / 100 * ρ) ≤ 3 / 2 * (N + 1) * (ρ - Real.sqrt 2 * (N + 1)) :=
      mul_le_mul_of_nonneg_left h1 (by positivity)
    nlinarith [mul_pos hN hp]
  · rw [div_le_iff₀ hp]; linarith

theorem sign_of {r φ : ℝ} {X Y : ℤ} (hr : 0 < r) (hφ : |φ| < Real.pi) (h : vec X Y = r * Complex.exp (φ * Complex.I)) :
    (Y < 0 → φ < 0) ∧ (0 ≤ Y → 0 ≤ φ) := by
  have him := congrArg Complex.im h
  rw [Complex.exp_mul_I, ← Complex.ofReal_cos, ← Complex.ofReal_sin] at him
  simp only [vec, Complex.add_im, Complex.ofReal_im, Complex.mul_im, Complex.ofReal_re, Complex.I_im, Complex.I_re, Complex.add_re,
    Complex.mul_re, mul_one, mul_zero, zero_mul, add_zero, zero_add, sub_zero] at him
  rw [abs_lt] at hφ
  constructor
  · intro hY
    by_contra hc
    push Not at hc
    have := Real.sin_nonneg_of_nonneg_of_le_pi hc hφ.2.le
    have h1 : (Y : ℝ) < 0 := by exact_mod_cast hY
    have := mul_nonneg hr.le this
    linarith
  · intro hY
    by_contra hc
    push Not at hc
    have := Real.sin_neg_of_neg_of_neg_pi_lt hc hφ.1
    have h1 : (0 : ℝ) ≤ Y := by exact_mod_cast hY
    have := mul_neg_of_pos_of_neg hr this
    linarith

set_option maxHeartbeats 1000000 in
theorem J_step {N : ℕ} {ρ θ : ℝ} (hρ : 32 * (N + 1 : ℝ) ≤ ρ) {i : ℕ} (hi : i < N) {X Y : ℤ} {s : ℝ} (h : J N ρ θ i X Y s) :
    J N ρ θ (i + 1) (if Y < 0 then X - Y / 2 ^ i else X + Y / 2 ^ i) (if Y < 0 then Y + X / 2 ^ i else Y - X / 2 ^ i)
      (if Y < 0 then s - a i else s + a i) := by
  obtain ⟨r, φ, hz, r1, r2, hφ, hθ⟩ := h
  obtain ⟨q0, q1, q2, q3⟩ := room hρ
  obtain ⟨s1, s2⟩ := sqrt2
  set δ := Real.sqrt 2 / (ρ - Real.sqrt 2 * (N + 1)) with hδ
  have hδ0 : 0 < δ := div_pos (by linarith) q0
  have hiN : (i : ℝ) + 1 ≤ N := by exact_mod_cast hi
  have hi0 : (0 : ℝ) ≤ i := Nat.cast_nonneg i
  have hG := G_one i
  have hG1 := G_one (i + 1)
  have hlow : ρ - Real.sqrt 2 * (N + 1) ≤ ρ - Real.sqrt 2 * (i + 2) := by nlinarith
  have hlow2 : ρ - Real.sqrt 2 * (i + 2) ≤ ρ - Real.sqrt 2 * (i + 1) := by nlinarith
  have hr : 0 < r := lt_of_lt_of_le (mul_pos (by linarith) (by linarith)) r1
  have hpi := Real.pi_gt_three
  have hφπ : |φ| < Real.pi := by
    have : (i : ℝ) * δ ≤ (N + 1) * δ := mul_le_mul_of_nonneg_right (by linarith) hδ0.le
    have := β_le i
    linarith
  obtain ⟨sg1, sg2⟩ := sign_of hr hφπ hz
  obtain ⟨σ, hσ, hσφ, e1, e2, e3⟩ : ∃ σ : ℝ, (σ = 1 ∨ σ = -1) ∧ |φ| = σ * φ ∧
      (((if Y < 0 then X - Y / 2 ^ i else X + Y / 2 ^ i : ℤ)) : ℝ) = X + σ * ((Y / 2 ^ i : ℤ) : ℝ) ∧
      (((if Y < 0 then Y + X / 2 ^ i else Y - X / 2 ^ i : ℤ)) : ℝ) = Y - σ * ((X / 2 ^ i : ℤ) : ℝ) ∧
      (if Y < 0 then s - a i else s + a i) = s + σ * a i := by
    by_cases hY : Y < 0
    · refine ⟨-1, Or.inr rfl, by rw [abs_of_neg (sg1 hY)]; ring, ?_, ?_, ?_⟩
      · rw [if_pos hY, Int.cast_sub]; ring
      · rw [if_pos hY, Int.cast_add]; ring
      · rw [if_pos hY]; ring
    · refine ⟨1, Or.inl rfl, by rw [abs_of_nonneg (sg2 (by omega))]; ring, ?_, ?_, ?_⟩
      · rw [if_neg hY, Int.cast_add]; ring
      · rw [if_neg hY, Int.cast_sub]; ring
      · rw [if_neg hY]; ring
  rw [e3]
  set X' := (if Y < 0 then X - Y / 2 ^ i else X + Y / 2 ^ i : ℤ)
  set Y' := (if Y < 0 then Y + X / 2 ^ i else Y - X / 2 ^ i : ℤ)
  have hσa : |σ| = 1 := by rcases hσ with h | h <;> rw [h] <;> norm_num
  have hv : vec X' Y' = vec X Y * (1 - σ * (1 / 2 ^ i : ℝ) * Complex.I) +
      (((σ * (((Y / 2 ^ i : ℤ) : ℝ) - Y * (1 / 2 ^ i)) : ℝ) : ℂ) + ((-σ * (((X / 2 ^ i : ℤ) : ℝ) - X * (1 / 2 ^ i)) : ℝ) : ℂ) * Complex.I) := by
    unfold vec
    rw [e1, e2]
    generalize (1 / 2 ^ i : ℝ) = v
    generalize ((Y / 2 ^ i : ℤ) : ℝ) = y
    generalize ((X / 2 ^ i : ℤ) : ℝ) = x
    apply Complex.ext <;> simp <;> ring
  have he : ‖(((σ * (((Y / 2 ^ i : ℤ) : ℝ) - Y * (1 / 2 ^ i)) : ℝ) : ℂ) +
      ((-σ * (((X / 2 ^ i : ℤ) : ℝ) - X * (1 / 2 ^ i)) : ℝ) : ℂ) * Complex.I)‖ ≤ Real.sqrt 2 * 1 := by
    refine norm_le_of_comp zero_le_one ?_ ?_
    · rw [abs_mul, hσa, one_mul]; exact shift_err Y i
    · rw [abs_mul, abs_neg, hσa, one_mul]; exact shift_err X i
  rw [mul_one] at he
  rw [hz, turn σ hσ] at hv
  have hg : G i * Real.sqrt (1 + 1 / 4 ^ i) = G (i + 1) := (G_succ i).symm
  have hgp : 0 < Real.sqrt (1 + 1 / 4 ^ i) := Real.sqrt_pos.2 (by positivity)
  have b1 : G (i + 1) * (ρ - Real.sqrt 2 * (i + 1)) ≤ r * Real.sqrt (1 + 1 / 4 ^ i) := by
    rw [← hg]
    have := mul_le_mul_of_nonneg_right r1 hgp.le
    linarith
  have b2 : r * Real.sqrt (1 + 1 / 4 ^ i) ≤ G (i + 1) * (ρ + Real.sqrt 2 * (i + 1)) := by
    rw [← hg]
    have := mul_le_mul_of_nonneg_right r2 hgp.le
    linarith
  have b0 : Real.sqrt 2 ≤ G (i + 1) * Real.sqrt 2 := le_mul_of_one_le_left (by linarith) hG1
  have b3 : G (i + 1) * (ρ - Real.sqrt 2 * (i + 2)) ≤ r * Real.sqrt (1 + 1 / 4 ^ i) - Real.sqrt 2 := by
    have e : G (i + 1) * (ρ - Real.sqrt 2 * (i + 2)) = G (i + 1) * (ρ - Real.sqrt 2 * (i + 1)) - G (i + 1) * Real.sqrt 2 := by ring
    rw [e]; linarith
  have b4 : ρ - Real.sqrt 2 * (N + 1) ≤ r * Real.sqrt (1 + 1 / 4 ^ i) - Real.sqrt 2 := by
    have : ρ - Real.sqrt 2 * (i + 2) ≤ G (i + 1) * (ρ - Real.sqrt 2 * (i + 2)) := le_mul_of_one_le_left (by linarith) hG1
    linarith
  obtain ⟨r', φ', hz', c1, c2, c3⟩ := perturb (φ := φ - σ * a i) he (show Real.sqrt 2 < r * Real.sqrt (1 + 1 / 4 ^ i) by linarith)
  have c4 : |φ' - (φ - σ * a i)| ≤ δ := le_trans c3 (div_le_div_of_nonneg_left (by linarith) q0 b4)
  refine ⟨r', φ', by rw [hv, hz'], ?_, ?_, ?_, ?_⟩
  · push_cast
    rw [show (i : ℝ) + 1 + 1 = i + 2 by ring]
    linarith
  · push_cast
    have e : G (i + 1) * (ρ + Real.sqrt 2 * (i + 1 + 1)) = G (i + 1) * (ρ + Real.sqrt 2 * (i + 1)) + G (i + 1) * Real.sqrt 2 := by ring
    rw [e]; linarith
  · have h1 : |φ - σ * a i| ≤ a i + i * δ := by
      have e : |φ - σ * a i| = |(|φ| - a i)| := by
        rw [hσφ]
        rcases hσ with h | h
        · rw [h]; simp
        · rw [h, abs_sub_comm]; congr 1; ring
      rw [e, abs_le]
      have := β_step i
      have := a_nonneg i
      have := abs_nonneg φ
      have : 0 ≤ (i : ℝ) * δ := by positivity
      constructor <;> linarith
    have h2 : |φ'| ≤ |φ' - (φ - σ * a i)| + |φ - σ * a i| := by
      have := abs_add_le (φ' - (φ - σ * a i)) (φ - σ * a i)
      rwa [sub_add_cancel] at this
    unfold β
    push_cast
    linarith
  · have e : θ - (s + σ * a i) - φ' = (θ - s - φ) + -(φ' - (φ - σ * a i)) := by ring
    rw [e]
    refine le_trans (abs_add_le _ _) ?_
    rw [abs_neg]
    push_cast
    linarith

end Proof.Atan2
