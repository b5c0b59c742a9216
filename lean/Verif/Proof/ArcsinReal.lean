import Verif.Proof.ArcsinTable
import Mathlib.Analysis.SpecialFunctions.Trigonometric.Bounds

/-! # The double rotation -/

namespace Proof.Arcsin
open Ac
open Proof.Cordic (G G_sq G_pos G_succ rot rot_norm norm_le_of_comp P_le)
open Proof.Atan2 (vec shift_err sqrt2)

/-- The stretching of the first `i` steps. -/
noncomputable def S (i : ℕ) : ℝ := G i ^ 2

theorem S_pos (i : ℕ) : 0 < S i := pow_pos (G_pos i) 2

theorem S_succ (i : ℕ) : S (i + 1) = S i * (1 + 1 / 4 ^ i) := by
  unfold S
  rw [G_succ, mul_pow, Real.sq_sqrt (by positivity)]

theorem S_one : S 1 = 2 := by
  rw [S_succ]
  unfold S; rw [Proof.Cordic.G_zero]; norm_num

theorem S_mono (i : ℕ) : S i ≤ S (i + 1) := by
  rw [S_succ]
  have : (0 : ℝ) < 1 / 4 ^ i := by positivity
  exact le_mul_of_one_le_right (S_pos i).le (by linarith)

theorem S_ge {i : ℕ} (hi : 1 ≤ i) : 5 / 2 ≤ S (i + 1) := by
  induction i with
  | zero => omega
  | succ i ih =>
    by_cases h : i = 0
    · subst h
      rw [S_succ, S_one]; norm_num
    · exact le_trans (ih (by omega)) (S_mono _)

theorem S_le (i : ℕ) : S i ≤ 30 / 11 := by
  unfold S
  rw [G_sq]
  have := Rat.cast_le (K := ℝ) |>.2 (P_le i)
  push_cast at this
  exact this

open Complex in
theorem rot2 (σ : ℝ) (hσ : σ = 1 ∨ σ = -1) (i : ℕ) (φ : ℝ) :
    (S i : ℂ) * exp (φ * I) * ((1 - 1 / 4 ^ i : ℝ) + σ * (2 * (1 / 2 ^ i) : ℝ) * I) = (S (i + 1) : ℂ) * exp ((φ + σ * a i : ℝ) * I) := by
  have h := rot σ hσ i (φ / 2)
  have h2 := congrArg (· ^ 2) h
  simp only [mul_pow, ← exp_nat_mul] at h2
  have e1 : ((2 : ℕ) : ℂ) * (((φ / 2 : ℝ) : ℂ) * I) = φ * I := by push_cast; ring
  have e2 : ((2 : ℕ) : ℂ) * (((φ / 2 + σ * Real.arctan (1 / 2 ^ i) : ℝ) : ℂ) * I) = ((φ + σ * a i : ℝ) : ℂ) * I := by
    unfold a; push_cast; ring
  have e3 : ((1 : ℂ) + σ * (1 / 2 ^ i : ℝ) * I) ^ 2 = ((1 - 1 / 4 ^ i : ℝ) : ℂ) + σ * (2 * (1 / 2 ^ i) : ℝ) * I := by
    have hs : (σ : ℂ) ^ 2 = 1 := by
      rcases hσ with rfl | rfl <;> norm_num
    have h4 : (1 : ℝ) / 4 ^ i = (1 / 2 ^ i) ^ 2 := by
      rw [show (4 : ℝ) = 2 ^ 2 by norm_num, ← pow_mul, mul_comm 2 i, pow_mul]; field_simp
    rw [h4]
    generalize (1 / 2 ^ i : ℝ) = v
    push_cast
    linear_combination (v : ℂ) ^ 2 * I ^ 2 * hs + (v : ℂ) ^ 2 * I_sq
  rw [e1, e2, e3] at h2
  unfold S
  push_cast at h2 ⊢
  exact h2

open Complex in
theorem rot2_norm (σ : ℝ) (hσ : σ = 1 ∨ σ = -1) (i : ℕ) :
    ‖((1 - 1 / 4 ^ i : ℝ) : ℂ) + σ * (2 * (1 / 2 ^ i) : ℝ) * I‖ = 1 + 1 / 4 ^ i := by
  have := rot2 σ hσ i 0
  have h2 := congrArg norm this
  rw [norm_mul, norm_mul, norm_mul, norm_exp_ofReal_mul_I, norm_exp_ofReal_mul_I, Complex.norm_real, Complex.norm_real,
    Real.norm_of_nonneg (S_pos _).le, Real.norm_of_nonneg (S_pos _).le, S_succ, mul_one, mul_one] at h2
  exact mul_left_cancel₀ (S_pos i).ne' h2

/-- The integers `C` and `D` are the cosine and sine of `φ` in units of `2^-F`, stretched, up to `E` units. -/
def Near (F i : ℕ) (C D : ℤ) (φ E : ℝ) : Prop :=
  ‖vec C D - (S i : ℂ) * (2 ^ F : ℝ) * Complex.exp (φ * Complex.I)‖ ≤ S i * E

theorem Near.cos {F i : ℕ} {C D : ℤ} {φ E : ℝ} (h : Near F i C D φ E) : |(C : ℝ) - S i * (2 ^ F * Real.cos φ)| ≤ S i * E := by
  refine le_trans (le_of_eq ?_) (le_trans (Complex.abs_re_le_norm _) h)
  rw [Complex.exp_mul_I, ← Complex.ofReal_cos, ← Complex.ofReal_sin]
  congr 1
  simp only [vec, Complex.sub_re, Complex.add_re, Complex.mul_re, Complex.ofReal_re, Complex.ofReal_im, Complex.I_re, Complex.I_im,
    Complex.add_im, Complex.mul_im]
  ring

theorem Near.sin {F i : ℕ} {C D : ℤ} {φ E : ℝ} (h : Near F i C D φ E) : |(D : ℝ) - S i * (2 ^ F * Real.sin φ)| ≤ S i * E := by
  refine le_trans (le_of_eq ?_) (le_trans (Complex.abs_im_le_norm _) h)
  rw [Complex.exp_mul_I, ← Complex.ofReal_cos, ← Complex.ofReal_sin]
  congr 1
  simp only [vec, Complex.sub_im, Complex.add_re, Complex.mul_re, Complex.ofReal_re, Complex.ofReal_im, Complex.I_re, Complex.I_im,
    Complex.add_im, Complex.mul_im]
  ring

theorem div4 (i : ℕ) : (4 : ℤ) ^ i = 2 ^ (2 * i) := by rw [pow_mul]; norm_num

theorem near_step {F i : ℕ} (hi : 1 ≤ i) {C D : ℤ} {φ E : ℝ} (h : Near F i C D φ E) {σ : ℤ} (hσ : σ = 1 ∨ σ = -1) :
    Near F (i + 1) (C - C / 2 ^ (2 * i) - σ * (D / 2 ^ (i - 1))) (D - D / 2 ^ (2 * i) + σ * (C / 2 ^ (i - 1))) (φ + σ * a i) (E + 6 / 5) := by
  have hσr : ((σ : ℤ) : ℝ) = 1 ∨ ((σ : ℤ) : ℝ) = -1 := by
    rcases hσ with rfl | rfl <;> norm_num
  have hσa : |((σ : ℤ) : ℝ)| = 1 := by rcases hσr with h | h <;> rw [h] <;> norm_num
  unfold Near at h ⊢
  have e := rot2 σ hσr i φ
  set m : ℂ := ((1 - 1 / 4 ^ i : ℝ) : ℂ) + ((σ : ℤ) : ℝ) * (2 * (1 / 2 ^ i) : ℝ) * Complex.I with hm
  have hmn : ‖m‖ = 1 + 1 / 4 ^ i := rot2_norm σ hσr i
  have h4 : (1 : ℝ) / 4 ^ i = 1 / 2 ^ (2 * i) := by rw [pow_mul]; norm_num
  have h2 : 2 * ((1 : ℝ) / 2 ^ i) = 1 / 2 ^ (i - 1) := by
    obtain ⟨j, rfl⟩ : ∃ j, i = j + 1 := ⟨i - 1, by omega⟩
    rw [Nat.add_sub_cancel, pow_succ]; field_simp
  set x1 : ℝ := ((C / 2 ^ (2 * i) : ℤ) : ℝ) - C * (1 / 2 ^ (2 * i)) with hx1
  set x2 : ℝ := ((D / 2 ^ (2 * i) : ℤ) : ℝ) - D * (1 / 2 ^ (2 * i)) with hx2
  set x3 : ℝ := ((C / 2 ^ (i - 1) : ℤ) : ℝ) - C * (1 / 2 ^ (i - 1)) with hx3
  set x4 : ℝ := ((D / 2 ^ (i - 1) : ℤ) : ℝ) - D * (1 / 2 ^ (i - 1)) with hx4
  have b1 : |x1| ≤ 1 := shift_err _ _
  have b2 : |x2| ≤ 1 := shift_err _ _
  have b3 : |x3| ≤ 1 := shift_err _ _
  have b4 : |x4| ≤ 1 := shift_err _ _
  have key : vec (C - C / 2 ^ (2 * i) - σ * (D / 2 ^ (i - 1))) (D - D / 2 ^ (2 * i) + σ * (C / 2 ^ (i - 1))) -
      (S (i + 1) : ℂ) * (2 ^ F : ℝ) * Complex.exp ((φ + σ * a i : ℝ) * Complex.I) =
      (vec C D - (S i : ℂ) * (2 ^ F : ℝ) * Complex.exp (φ * Complex.I)) * m +
        (((-x1 - σ * x4 : ℝ) : ℂ) + ((-x2 + σ * x3 : ℝ) : ℂ) * Complex.I) := by
    have e' : (S (i + 1) : ℂ) * (2 ^ F : ℝ) * Complex.exp ((φ + σ * a i : ℝ) * Complex.I) =
        (S i : ℂ) * (2 ^ F : ℝ) * Complex.exp (φ * Complex.I) * m := by
      calc _ = ((S (i + 1) : ℂ) * Complex.exp ((φ + σ * a i : ℝ) * Complex.I)) * (2 ^ F : ℝ) := by ring
        _ = _ := by rw [← e]; ring
    rw [e', hx1, hx2, hx3, hx4, hm, h4, h2]
    unfold vec
    push_cast
    generalize (1 : ℂ) / 2 ^ (2 * i) = u
    generalize (1 : ℂ) / 2 ^ (i - 1) = v
    linear_combination (-(σ : ℂ) * D * v) * Complex.I_sq
  have he := norm_le_of_comp (a := -x1 - σ * x4) (b := -x2 + σ * x3) (u := 2) (by norm_num) (by
      have := abs_sub (-x1) (σ * x4)
      rw [abs_neg, abs_mul, hσa, one_mul] at this
      linarith) (by
      have := abs_add_le (-x2) (σ * x3)
      rw [abs_neg, abs_mul, hσa, one_mul] at this
      linarith)
  rw [key]
  refine le_trans (norm_add_le _ _) ?_
  rw [norm_mul, hmn]
  have m1 := mul_le_mul_of_nonneg_right h (show (0 : ℝ) ≤ 1 + 1 / 4 ^ i by positivity)
  have e2 : S i * E * (1 + 1 / 4 ^ i) = S (i + 1) * E := by rw [S_succ]; ring
  rw [e2] at m1
  have hs := S_ge hi
  have := sqrt2.2
  linarith

/-- The argument is stretched in the same way. -/
theorem tn_step {i : ℕ} (hi : 1 ≤ i) {N : ℤ} {τ e : ℝ} (h : |(N : ℝ) - S i * τ| ≤ S i * e) :
    |((N + N / 2 ^ (2 * i) : ℤ) : ℝ) - S (i + 1) * τ| ≤ S (i + 1) * (e + 2 / 5) := by
  have b := shift_err N (2 * i)
  have h4 : (1 : ℝ) / 4 ^ i = 1 / 2 ^ (2 * i) := by rw [pow_mul]; norm_num
  have hs := S_ge hi
  have e1 : ((N + N / 2 ^ (2 * i) : ℤ) : ℝ) - S (i + 1) * τ = ((N : ℝ) - S i * τ) * (1 + 1 / 4 ^ i) +
      (((N / 2 ^ (2 * i) : ℤ) : ℝ) - N * (1 / 2 ^ (2 * i))) := by
    rw [S_succ, h4]; push_cast; ring
  rw [e1]
  refine le_trans (abs_add_le _ _) ?_
  rw [abs_mul, abs_of_nonneg (show (0 : ℝ) ≤ 1 + 1 / 4 ^ i by positivity)]
  have m1 := mul_le_mul_of_nonneg_right h (show (0 : ℝ) ≤ 1 + 1 / 4 ^ i by positivity)
  have e2 : S i * e * (1 + 1 / 4 ^ i) = S (i + 1) * e := by rw [S_succ]; ring
  rw [e2] at m1
  linarith

/-- Angles whose cosines are close. -/
theorem cos_gap {ψ β ε : ℝ} (h0 : 0 ≤ β) (h1 : β ≤ Real.pi) (g0 : 0 ≤ ψ) (g1 : ψ ≤ Real.pi) (hε : 0 ≤ ε)
    (h : Real.cos β - ε ≤ Real.cos ψ) : ψ ≤ β + Real.pi * Real.sqrt (ε / 2) := by
  have hpi := Real.pi_pos
  by_contra hc
  push Not at hc
  have hs := Real.sqrt_nonneg (ε / 2)
  set w := Real.pi * Real.sqrt (ε / 2) with hw
  have hw0 : 0 ≤ w := mul_nonneg hpi.le hs
  have hd : 0 < ψ - β := by linarith
  have e : Real.cos β - Real.cos ψ = 2 * Real.sin ((ψ + β) / 2) * Real.sin ((ψ - β) / 2) := by
    rw [Real.cos_sub_cos, add_comm β ψ, show (β - ψ) / 2 = -((ψ - β) / 2) by ring, Real.sin_neg]; ring
  have s1 : 2 / Real.pi * ((ψ - β) / 2) ≤ Real.sin ((ψ - β) / 2) := Real.mul_le_sin (by linarith) (by linarith)
  have s2 : Real.sin ((ψ - β) / 2) ≤ Real.sin ((ψ + β) / 2) := by
    rcases le_total ((ψ + β) / 2) (Real.pi / 2) with hle | hge
    · exact Real.sin_le_sin_of_le_of_le_pi_div_two (by linarith) hle (by linarith)
    · rw [← Real.sin_pi_sub ((ψ + β) / 2)]
      exact Real.sin_le_sin_of_le_of_le_pi_div_two (by linarith) (by linarith) (by linarith)
  have e3 : 2 / Real.pi * ((ψ - β) / 2) = (ψ - β) / Real.pi := by field_simp
  rw [e3] at s1
  have p1 : 0 < (ψ - β) / Real.pi := div_pos hd hpi
  have hq : Real.sqrt (ε / 2) < (ψ - β) / Real.pi := by
    rw [lt_div_iff₀ hpi]
    have : Real.sqrt (ε / 2) * Real.pi = w := by rw [hw]; ring
    linarith
  have hsq : ε / 2 < ((ψ - β) / Real.pi) ^ 2 := by
    rw [← Real.sqrt_lt_sqrt_iff (by positivity), Real.sqrt_sq p1.le]; exact hq
  have m1 : ((ψ - β) / Real.pi) ^ 2 ≤ Real.sin ((ψ + β) / 2) * Real.sin ((ψ - β) / 2) := by
    rw [sq]
    exact mul_le_mul (le_trans s1 s2) s1 p1.le (by linarith)
  linarith

/-- One step of the angle when the direction was chosen by the sign of the sine and by comparing cosines: `grow` says that the
absolute value of the angle was to grow. -/
theorem angle_step {φ β a w w' η : ℝ} (ha : 0 ≤ a) (hβ : 0 ≤ β) (hη : 0 ≤ η) (hw : w ≤ w') (h : |(|φ| - β)| ≤ 2 * a + w') {pos grow : Bool}
    (hg : grow = true → |φ| ≤ β + w) (hs : grow = false → β ≤ |φ| + w)
    (hp : (pos = true → -η ≤ φ) ∧ (pos = false → φ ≤ η)) :
    |(|φ + (if pos = grow then a else -a)| - β)| ≤ a + w' + 2 * η := by
  have key : ∀ x, 0 ≤ x → |x - β| ≤ 2 * a + w' → (grow = true → x ≤ β + w) → (grow = false → β ≤ x + w) →
      |(|x + (if grow then a else -a)| - β)| ≤ a + w' := by
    intro x hx h hg hs
    rw [abs_le] at h ⊢
    cases grow with
    | true =>
      have := hg rfl
      rw [if_pos rfl, abs_of_nonneg (by linarith)]
      constructor <;> linarith
    | false =>
      have := hs rfl
      rw [if_neg (by decide)]
      rcases abs_cases (x + -a) with ⟨e, c⟩ | ⟨e, c⟩ <;> rw [e] <;> constructor <;> linarith
  have hk := key |φ| (abs_nonneg φ) h hg hs
  have hd : |(|φ + (if pos = grow then a else -a)| - |(|φ| + (if grow then a else -a))|)| ≤ 2 * η := by
    obtain ⟨p1, p2⟩ := hp
    cases pos <;> cases grow
    · have := p2 rfl
      simp only [if_true, Bool.false_eq_true, if_false]
      rcases abs_cases φ with ⟨e, c⟩ | ⟨e, c⟩
      · rw [e, abs_of_nonneg (by linarith : 0 ≤ φ + a)]
        rcases abs_cases (φ + -a) with ⟨e', c'⟩ | ⟨e', c'⟩ <;> rw [e', abs_le] <;> constructor <;> linarith
      · rw [e, show φ + a = -(-φ + -a) by ring, abs_neg, sub_self, abs_zero]; linarith
    · have := p2 rfl
      simp only [if_true, Bool.false_eq_true, if_false]
      rcases abs_cases φ with ⟨e, c⟩ | ⟨e, c⟩
      · rw [e, abs_of_nonneg (by linarith : 0 ≤ φ + a)]
        rcases abs_cases (φ + -a) with ⟨e', c'⟩ | ⟨e', c'⟩ <;> rw [e', abs_le] <;> constructor <;> linarith
      · rw [e, show φ + -a = -(-φ + a) by ring, abs_neg, sub_self, abs_zero]; linarith
    · have := p1 rfl
      simp only [if_true, Bool.true_eq_false, Bool.false_eq_true, if_false]
      rcases abs_cases φ with ⟨e, c⟩ | ⟨e, c⟩
      · rw [e, sub_self, abs_zero]; linarith
      · rw [e, show φ + -a = -(-φ + a) by ring, abs_neg, abs_of_nonneg (by linarith : 0 ≤ -φ + a)]
        rcases abs_cases (-φ + -a) with ⟨e', c'⟩ | ⟨e', c'⟩ <;> rw [e', abs_le] <;> constructor <;> linarith
    · have := p1 rfl
      simp only [if_true]
      rcases abs_cases φ with ⟨e, c⟩ | ⟨e, c⟩
      · rw [e, sub_self, abs_zero]; linarith
      · rw [e, show φ + a = -(-φ + -a) by ring, abs_neg, abs_of_nonneg (by linarith : 0 ≤ -φ + a)]
        rcases abs_cases (-φ + -a) with ⟨e', c'⟩ | ⟨e', c'⟩ <;> rw [e', abs_le] <;> constructor <;> linarith
  rw [abs_le] at hk hd ⊢
  constructor <;> linarith

end Proof.Arcsin
