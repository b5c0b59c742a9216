import Verif.Model.Activations
import Verif.Spec.Activations
import Verif.Proof.PowPwl

/-! # Lemmas for C45: ELU and SELU -/

namespace Proof.Elu
open Ac Model.Pwl Model.PwlFixed Model.Activations Proof.Pwl Proof.PwlFixed Proof.PowPwl

/-- Integer width of the type of the exponential. -/
def N (f : Fmt) : ℕ := (f.I.natAbs + 2) * (f.I.natAbs + 1)

theorem outPow_eq (f : Fmt) : outPow f = ⟨N f + 20, (N f : ℕ), false, .TRN, .WRAP⟩ := by
  obtain ⟨k, hk⟩ : ∃ k : ℕ, |f.I| = k := ⟨f.I.natAbs, (Int.natCast_natAbs f.I).symm⟩
  have hk' : f.I.natAbs = k := by have := Int.natCast_natAbs f.I; omega
  have hsc : ∀ w : ℤ, 10 ≤ w → scBits 10 w = 10 := by
    intro w hw; unfold scBits; push_cast; omega
  unfold outPow N
  simp only [hk, hk']
  have hi : (piiExp 12 ⟨f.W, (k : ℤ), f.S, .TRN, .WRAP⟩).I = k + 1 := rfl
  have hw : ((piiExp 12 ⟨f.W, (k : ℤ), f.S, .TRN, .WRAP⟩).W : ℤ) - (k + 1) ≥ 12 := by
    unfold piiExp; simp only; split_ifs <;> push_cast <;> omega
  rw [hi, hsc _ (by omega)]
  have e : ((k : ℤ) + 1 + 1) * (k + 1) = (((k + 2) * (k + 1) : ℕ) : ℤ) := by push_cast; ring
  rw [e]
  congr 1

/-- The value of the exponential. -/
def ep (f : Fmt) (x : ℚ) : ℚ := trunc 20 (core (ex 12 f x))

theorem exp_some (f out : Fmt) (x : ℚ) : ∃ y, exp 12 .TRN f out x = some y := by unfold exp; exact pow2_some _ _ _ _

theorem exp_out {f : Fmt} (hW : 1 ≤ f.W) {x : ℚ} (hx : f.Rep x) (h : core (ex 12 f x) < 2 ^ N f) :
    exp 12 .TRN f (outPow f) x = some (ep f x) := by
  rw [outPow_eq, exp_eq 12 .TRN hW (by simp only; omega) rfl hx, cvt_trunc (core_pos _).le h]
  rfl

theorem ex_neg {f : Fmt} {x : ℚ} (h : x < 0) : ex 12 f x < 0 := by
  have h1 := (ex_bounds 12 f x).2
  have h2 : x * log2e < 0 := mul_neg_of_neg_of_pos h (by rw [log2e_val]; norm_num)
  linarith

theorem core_lt {y : ℚ} {k : ℤ} (h : y < k) : core y ≤ 511 / 512 * 2 ^ k := by
  unfold core
  have h1 : ⌊y⌋ + 1 ≤ k := by have := Int.floor_lt.2 h; omega
  have h2 := (g_bounds (Int.fract_nonneg y) (Int.fract_lt_one y)).2
  have h3 : (2 : ℚ) ^ k = 2 * 2 ^ (k - 1) := by rw [← Fmt.z_succ]; congr 1; ring
  have h4 : (2 : ℚ) ^ ⌊y⌋ ≤ 2 ^ (k - 1) := Fmt.z_le (by omega)
  rw [h3]
  calc g (Int.fract y) * 2 ^ ⌊y⌋ ≤ 511 / 256 * 2 ^ (k - 1) := mul_le_mul h2 h4 (Fmt.z_pos _).le (by norm_num)
    _ = _ := by ring

theorem core_neg {f : Fmt} {x : ℚ} (h : x < 0) : core (ex 12 f x) ≤ 511 / 512 := by
  have := core_lt (y := ex 12 f x) (k := 0) (by exact_mod_cast ex_neg h)
  simpa using this

theorem ep_mono (f : Fmt) {x y : ℚ} (h : x ≤ y) : ep f x ≤ ep f y := trunc_mono _ (core_mono (ex_mono h))

theorem ep_nonneg (f : Fmt) (x : ℚ) : 0 ≤ ep f x := trunc_nonneg _ (core_pos _).le

theorem ep_lt {f : Fmt} {x : ℚ} (h : x < 0) : ep f x < 1 := by
  have := trunc_le 20 (core (ex 12 f x))
  have := core_neg (f := f) h
  unfold ep; linarith

/-- Error of the exponential; inputs below -64 give zero. -/
theorem ep_err {f : Fmt} (hW : 1 ≤ f.W) {x : ℚ} (hx : f.Rep x) (h : x ≤ 64) :
    |(ep f x : ℝ) - Real.exp x| ≤ Real.exp x / 256 + 1 / 2 ^ 20 := by
  by_cases h64 : -64 ≤ x
  · have h1 := exp_err (n := 12) le_rfl hW hx (abs_le.2 ⟨h64, h⟩)
    have h2 := Rat.cast_le (K := ℝ) |>.2 (trunc_le 20 (core (ex 12 f x)))
    have h3 := Rat.cast_lt (K := ℝ) |>.2 (lt_trunc 20 (core (ex 12 f x)))
    push_cast at h3
    unfold ep
    rw [abs_le] at h1 ⊢
    constructor <;> linarith [h1.1, h1.2]
  · push Not at h64
    have e1 : ex 12 f x < (-90 : ℤ) := by
      have h1 := (ex_bounds 12 f x).2
      rw [log2e_val] at h1
      push_cast; linarith
    have c1 := core_lt e1
    have z : trunc 20 (core (ex 12 f x)) = 0 := by
      unfold trunc
      have : ⌊core (ex 12 f x) * 2 ^ 20⌋ = 0 := by
        rw [Int.floor_eq_zero_iff]
        refine ⟨mul_nonneg (core_pos _).le (by norm_num), ?_⟩
        have : (511 / 512 : ℚ) * 2 ^ (-90 : ℤ) * 2 ^ 20 < 1 := by norm_num
        have := mul_le_mul_of_nonneg_right c1 (by norm_num : (0 : ℚ) ≤ 2 ^ 20)
        linarith
      rw [this]; norm_num
    unfold ep
    rw [z]
    have h2 : (x : ℝ) < -64 := by exact_mod_cast Rat.cast_lt (K := ℝ) |>.2 h64
    have h3 : Real.exp x ≤ Real.exp (-64) := Real.exp_le_exp.2 h2.le
    have h4 : Real.exp (-64) ≤ 1 / 2 ^ 20 := by
      rw [Real.exp_neg, ← one_div]
      apply one_div_le_one_div_of_le (by norm_num)
      have : Real.exp 64 = Real.exp 1 ^ 64 := by rw [← Real.exp_nat_mul]; norm_num
      rw [this]
      have h2 : (2 : ℝ) ≤ Real.exp 1 := by have := Real.exp_one_gt_d9; linarith
      calc (2 : ℝ) ^ 20 ≤ 2 ^ 64 := by norm_num
        _ ≤ _ := pow_le_pow_left₀ (by norm_num) h2 64
    have h5 := Real.exp_pos (x : ℝ)
    rw [Rat.cast_zero, zero_sub, abs_neg, abs_of_pos h5]
    linarith

theorem elu_pos (f out : Fmt) (a : ℚ) {x : ℚ} (h : 0 ≤ x) : elu f out a x = some (out.cvt x) := by
  obtain ⟨y, hy⟩ := exp_some f (outPow f) x
  unfold elu
  simp only [hy, Option.bind_eq_bind, Option.bind_some, h, if_true]

theorem elu_neg {f : Fmt} (out : Fmt) (a : ℚ) (hW : 1 ≤ f.W) {x : ℚ} (hx : f.Rep x) (h : x < 0) :
    elu f out a x = some (out.cvt (a * (ep f x - 1))) := by
  unfold elu
  rw [exp_out hW hx (lt_of_le_of_lt (core_neg h) (by have : (1 : ℚ) ≤ 2 ^ N f := one_le_pow₀ (by norm_num); linarith))]
  simp only [Option.bind_eq_bind, Option.bind_some, h.not_ge, if_false]

/-- The number that is converted to the output. -/
def er (f : Fmt) (a x : ℚ) : ℚ := if 0 ≤ x then x else a * (ep f x - 1)

theorem elu_eq {f : Fmt} (out : Fmt) (a : ℚ) (hW : 1 ≤ f.W) {x : ℚ} (hx : f.Rep x) : elu f out a x = some (out.cvt (er f a x)) := by
  unfold er
  split_ifs with h
  · exact elu_pos f out a h
  · exact elu_neg out a hW hx (not_le.1 h)

theorem er_err {f : Fmt} (a : ℚ) (hW : 1 ≤ f.W) {x : ℚ} (hx : f.Rep x) :
    |(er f a x : ℝ) - Spec.Activations.elu a x| ≤ |(a : ℝ)| * (Real.exp x / 256 + 1 / 2 ^ 20) := by
  have hp := Real.exp_pos (x : ℝ)
  unfold er Spec.Activations.elu
  by_cases h : 0 ≤ x
  · have h' : (0 : ℝ) ≤ x := by exact_mod_cast h
    rw [if_pos h, if_pos h', sub_self, abs_zero]
    exact mul_nonneg (abs_nonneg _) (by positivity)
  · have h' : ¬ (0 : ℝ) ≤ x := by exact_mod_cast h
    rw [if_neg h, if_neg h']
    push_cast
    rw [show (a : ℝ) * ((ep f x : ℝ) - 1) - a * (Real.exp x - 1) = a * ((ep f x : ℝ) - Real.exp x) by ring, abs_mul]
    exact mul_le_mul_of_nonneg_left (ep_err hW hx (by linarith)) (abs_nonneg _)

theorem er_mono {f : Fmt} {a : ℚ} (ha : 0 ≤ a) {x y : ℚ} (h : x ≤ y) : er f a x ≤ er f a y := by
  unfold er
  split_ifs with h1 h2 h2
  · exact h
  · linarith
  · have := ep_lt (f := f) (not_le.1 h1)
    have : a * (ep f x - 1) ≤ 0 := mul_nonpos_of_nonneg_of_nonpos ha (by linarith)
    linarith
  · exact mul_le_mul_of_nonneg_left (by have := ep_mono f h; linarith) ha

theorem er_range {f : Fmt} {a : ℚ} (ha : 0 ≤ a) {x : ℚ} (h : x < 0) : -a ≤ er f a x ∧ er f a x ≤ 0 := by
  unfold er
  rw [if_neg h.not_ge]
  have h1 := ep_lt (f := f) h
  have h2 := ep_nonneg f x
  have : 0 ≤ a * ep f x := mul_nonneg ha h2
  exact ⟨by linarith, mul_nonpos_of_nonneg_of_nonpos ha (by linarith)⟩

theorem lambda_val : lambda = 1101739 / 1048576 := by decide +kernel
theorem alpha_val : alpha = 1754543 / 1048576 := by decide +kernel

theorem low {out : Fmt} (ho : 1 ≤ out.W) (hS : out.S = true) (hI : 2 ≤ out.I) (hF : 4 ≤ out.F) {r : ℚ} (h0 : -31 / 16 ≤ r) (h1 : r ≤ 0) :
    |out.cvt r - r| < 2 ^ (-out.F) := by
  have hz := Fmt.z_pos out.F
  have h16 : (16 : ℚ) ≤ 2 ^ out.F := le_trans (by norm_num) (Fmt.z_le hF)
  have hlo : ((loRaw out.W out.S out.O : ℤ) : ℚ) ≤ r * 2 ^ out.F := by
    have a1 : loRaw out.W out.S out.O ≤ -2 ^ (out.W - 1) + 1 := by
      unfold loRaw
      rw [hS]
      cases out.O <;> simp [minRaw, maxRaw]
    have a2 : (2 : ℚ) * 2 ^ out.F ≤ ((2 ^ (out.W - 1) : ℤ) : ℚ) := by
      push_cast
      rw [← Fmt.z_succ, ← zpow_natCast]
      apply Fmt.z_le
      unfold Fmt.F
      omega
    have a3 : ((loRaw out.W out.S out.O : ℤ) : ℚ) ≤ -((2 ^ (out.W - 1) : ℤ) : ℚ) + 1 := by exact_mod_cast a1
    have a4 := mul_le_mul_of_nonneg_right h0 hz.le
    linarith
  have hhi : r * 2 ^ out.F ≤ ((maxRaw out.W out.S : ℤ) : ℚ) := by
    have : ((0 : ℤ) : ℚ) ≤ ((maxRaw out.W out.S : ℤ) : ℚ) := by exact_mod_cast maxRaw_nonneg _ _
    have : r * 2 ^ out.F ≤ 0 := mul_nonpos_of_nonpos_of_nonneg h1 hz.le
    push_cast at *
    linarith
  simpa using Fmt.cvt_err ho hlo hhi

/-- SELU of a negative input. -/
theorem selu_neg {f out : Fmt} (hW : 1 ≤ f.W) (ho : 1 ≤ out.W) (hS : out.S = true) (hI : 2 ≤ out.I) (hF : 4 ≤ out.F) {x : ℚ}
    (hx : f.Rep x) (h : x < 0) :
    ∃ y : ℚ, selu f out x = some y ∧
      |(y : ℝ) - Spec.Activations.selu x| ≤ Real.exp x / 140 + 1 / 100000 + 21 / 10 * 2 ^ (-out.F) := by
  have e1 : selu f out x = some (out.cvt (lambda * out.cvt (er f alpha x))) := by
    unfold selu
    rw [if_neg h.not_ge, elu_eq out alpha hW hx]
    simp only [Option.bind_eq_bind, Option.bind_some]
    rw [Fmt.cvt_idem ho]
  refine ⟨_, e1, ?_⟩
  obtain ⟨r0, r1⟩ := er_range (f := f) (a := alpha) (by rw [alpha_val]; norm_num) h
  have er := er_err (f := f) alpha hW hx
  generalize Proof.Elu.er f alpha x = r at *
  have hz := Fmt.z_pos (-out.F)
  have hz16 : (2 : ℚ) ^ (-out.F) ≤ 1 / 16 := le_trans (Fmt.z_le (show -out.F ≤ -4 by omega)) (by norm_num)
  rw [alpha_val] at r0
  have c1 := low (r := r) ho hS hI hF (by linarith) r1
  have q0 : out.cvt r ≤ 0 := by
    have : out.cvt r = out.val (out.cvtRaw r) := rfl
    rw [this]
    unfold Fmt.val
    refine mul_nonpos_of_nonpos_of_nonneg ?_ hz.le
    have h1 : quant out.Q (r * 2 ^ out.F) ≤ 0 := quant_le (by simpa using mul_nonpos_of_nonpos_of_nonneg r1 (Fmt.z_pos _).le)
    have h2 : out.cvt r < out.val 1 := by
      have := (abs_lt.1 c1).2
      have : out.val 1 = 2 ^ (-out.F) := by unfold Fmt.val; simp
      linarith
    rw [this, Fmt.val_lt] at h2
    exact_mod_cast (by omega : out.cvtRaw r ≤ 0)
  generalize out.cvt r = s at *
  obtain ⟨c2, c3⟩ := abs_lt.1 c1
  have d1 := low (r := lambda * s) ho hS hI hF (by rw [lambda_val]; linarith)
    (mul_nonpos_of_nonneg_of_nonpos (by rw [lambda_val]; norm_num) q0)
  generalize out.cvt (lambda * s) = y at *
  obtain ⟨d2, d3⟩ := abs_lt.1 d1
  rw [lambda_val] at d2 d3
  have C2 := Rat.cast_lt (K := ℝ) |>.2 c2
  have C3 := Rat.cast_lt (K := ℝ) |>.2 c3
  have D2 := Rat.cast_lt (K := ℝ) |>.2 d2
  have D3 := Rat.cast_lt (K := ℝ) |>.2 d3
  push_cast at C2 C3 D2 D3
  have h' : ¬ (0 : ℝ) ≤ x := by exact_mod_cast h.not_ge
  unfold Spec.Activations.selu
  unfold Spec.Activations.elu at er ⊢
  rw [if_neg h'] at er ⊢
  rw [alpha_val] at er
  have hE := Real.exp_pos (x : ℝ)
  have hE1 : Real.exp (x : ℝ) < 1 := by rw [Real.exp_lt_one_iff]; exact not_le.1 h'
  push_cast at er
  rw [abs_of_pos (by norm_num : (0 : ℝ) < 1754543 / 1048576)] at er
  obtain ⟨f1, f2⟩ := abs_le.1 er
  have hzR : (0 : ℝ) < 2 ^ (-out.F) := by positivity
  generalize Real.exp (x : ℝ) = E at *
  generalize (2 : ℝ) ^ (-out.F) = z at *
  rw [abs_le]
  constructor <;> norm_num at f1 f2 ⊢ <;> linarith

end Proof.Elu
