import Verif.Proof.FloatHcordic

/-! # ac_exp_cordic with temporaries of any width -/

namespace Proof.Hcordic
open Ac Model.Hcordic

/-- The power of two, also with rounded temporaries if the argument has no more fraction bits than they. -/
theorem exp2_any {tf : Option ℕ} {tq : QMode} {f out : Fmt} (ho : 1 ≤ out.W) (hSo : out.S = false) {x : ℚ} (hx : f.Rep x)
    (hf : (f.W : ℤ) - f.I ≤ 45) {t : ℕ} (ht : fbits tf out.F.toNat = t) (h44 : t ≤ 44)
    (hq : down tq = true ∨ (2 : ℝ) ^ ((Int.fract x : ℚ) : ℝ) ≤ 2 - 3 / 2 ^ t ∨ (f.W : ℤ) - f.I ≤ t) :
    ∃ (r : ℚ) (c : ℝ), exp2 tf tq f out x = some (out.cvt r) ∧ 0 ≤ r ∧ 0 ≤ c ∧ c ≤ 13 / 2 / 2 ^ t ∧ c ≤ 1 ∧
      |(r : ℝ) - 2 ^ (x : ℝ)| ≤ c * 2 ^ (x : ℝ) := by
  refine exp2_gen ho hSo hx hf ht h44 fun h3 => ?_
  rcases hq with h | h | h
  · exact Or.inl h
  · exact Or.inr (Or.inl h)
  right
  obtain ⟨X, hX, hXe⟩ := frac_nat hx h
  rcases Proof.FloatHcordic.no_wrap h3 h44 hX with h' | h'
  · left; rw [hXe]; push_cast; exact h'
  · right
    refine ⟨h, fun Y hY => ?_⟩
    rw [hXe, pow_succ', div_eq_div_iff (by positivity) (by positivity)] at hY
    have : Y = 2 * X := by
      have hp : (0 : ℚ) < 2 ^ t := by positivity
      have h2 : (Y : ℚ) * 2 ^ t = (2 * X : ℕ) * 2 ^ t := by push_cast; linarith
      exact_mod_cast mul_right_cancel₀ hp.ne' h2
    rw [this]; exact h'

theorem exp_gen {tf : Option ℕ} {tq : QMode} {f out : Fmt} (hW : 1 ≤ f.W) (ho : 1 ≤ out.W) (hSo : out.S = false) {x : ℚ} (hx : f.Rep x)
    {t : ℕ} (ht : fbits tf out.F.toNat = t) (h44 : t ≤ 44) (hI : 2 ≤ t + f.I) :
    ∃ r : ℚ, exp tf tq f out x = some (out.cvt r) ∧ 0 ≤ r ∧
      |(r : ℝ) - Real.exp x| ≤ (Real.exp (0.7 * ((|(x : ℝ)| + 1) / 2 ^ t)) * (1 + 13 / 2 / 2 ^ t) - 1) * Real.exp x := by
  have fit := expFmt_fit (tq := tq) ht (by omega) hI hW hx
  have hWv : ((expFmt tf tq f out).W : ℤ) = t + f.I + 1 := by unfold expFmt; rw [ht]; simp only []; omega
  have hF : (expFmt tf tq f out).F = t := by unfold expFmt; rw [ht]; unfold Fmt.F; simp only []; omega
  obtain ⟨r, c, r1, r0, c0, c1, c2, c3⟩ := exp2_any (tf := tf) (tq := tq) (f := expFmt tf tq f out) ho hSo
    (Fmt.rep_cvt (f := expFmt tf tq f out) (by omega) (x * ((il t : ℚ) / 2 ^ t))) (by unfold Fmt.F at hF; omega) ht h44 (Or.inr (Or.inr (by unfold Fmt.F at hF; omega)))
  refine ⟨r, ?_, r0, ?_⟩
  · unfold exp
    simp only [ht]
    rw [invLn2_eq (by omega)]
    exact r1
  generalize (expFmt tf tq f out).cvt (x * ((il t : ℚ) / 2 ^ t)) = v at *
  have hd := Proof.FloatHcordic.exp_delta (x := x) (v := v) h44 (by
    have := Rat.cast_le (K := ℝ) |>.2 fit.le
    push_cast at this ⊢
    exact this)
  have hlg0 : 0 < Real.log 2 := Real.log_pos (by norm_num)
  have hE : (2 : ℝ) ^ (v : ℝ) = Real.exp x * 2 ^ (((v : ℝ) * Real.log 2 - x) / Real.log 2) := by
    rw [← exp_two_pow, ← exp_two_pow, ← Real.exp_add, div_mul_cancel₀ _ hlg0.ne']; congr 1; ring
  have hd' : |((v : ℝ) * Real.log 2 - x) / Real.log 2| ≤ 0.7 * ((|(x : ℝ)| + 1) / 2 ^ t) / Real.log 2 := by
    rw [abs_div, abs_of_pos hlg0]; exact div_le_div_of_nonneg_right hd hlg0.le
  rw [hE] at c3
  have k := pow_rel (Real.exp_pos (x : ℝ)).le hd' c0 c2 c3
  rw [← exp_two_pow, div_mul_cancel₀ _ hlg0.ne'] at k
  refine k.trans (mul_le_mul_of_nonneg_right ?_ (Real.exp_pos _).le)
  refine sub_le_sub_right (mul_le_mul_of_nonneg_left ?_ (Real.exp_pos _).le) 1
  linarith

/-- The relative error, linear in the argument. -/
theorem exp_err_lin {T : ℕ} (h4 : 4 ≤ T) {a : ℝ} (ha : 0 ≤ a) (hx' : a + 1 ≤ 2 ^ T) :
    Real.exp (0.7 * ((a + 1) / 2 ^ T)) * (1 + 13 / 2 / 2 ^ T) - 1 ≤ (8 + 3 / 2 * a) / 2 ^ T := by
  have hD1 : (a + 1) / 2 ^ T ≤ 1 := by rw [div_le_one (by positivity)]; exact hx'
  have hD0 : 0 ≤ (a + 1) / 2 ^ T := by positivity
  have hl := Proof.FloatHcordic.exp_lin hD0 hD1
  refine le_trans (sub_le_sub_right (mul_le_mul_of_nonneg_right hl (show (0 : ℝ) ≤ 1 + 13 / 2 / 2 ^ T by positivity)) 1) ?_
  have hu1 : (1 : ℝ) / 2 ^ T ≤ 1 / 16 := by
    rw [show (16 : ℝ) = 2 ^ 4 by norm_num]
    exact one_div_le_one_div_of_le (by positivity) (pow_le_pow_right₀ (by norm_num) (by omega))
  have hu0 : (0 : ℝ) < 1 / 2 ^ T := by positivity
  rw [show (a + 1) / 2 ^ T = (a + 1) * (1 / 2 ^ T) by ring, show (13 : ℝ) / 2 / 2 ^ T = 13 / 2 * (1 / 2 ^ T) by ring,
    show (8 + 3 / 2 * a) / 2 ^ T = (8 + 3 / 2 * a) * (1 / 2 ^ T) by ring]
  generalize (1 : ℝ) / 2 ^ T = u at *
  have hau : 0 ≤ (a + 1) * u := by positivity
  have := mul_le_mul_of_nonneg_left hu1 hau
  nlinarith

end Proof.Hcordic
