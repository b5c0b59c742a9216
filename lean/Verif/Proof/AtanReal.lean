import Verif.Proof.Pwl
import Mathlib.Analysis.SpecialFunctions.Trigonometric.ArctanDeriv
import Mathlib.Analysis.SpecialFunctions.Trigonometric.Complex
import Mathlib.Analysis.Convex.Deriv

/-! # The real arctangent: rational bounds on a grid of 1/128, concavity, and the error of a piecewise linear table -/

namespace Proof.Atan
open Real

theorem deriv_aux (p : ℝ → ℝ) (p' : ℝ → ℝ) (hp : ∀ x, HasDerivAt p (p' x) x) (x : ℝ) :
    HasDerivAt (fun x => arctan x - p x) (1 / (1 + x ^ 2) - p' x) x := (hasDerivAt_arctan x).sub (hp x)

theorem arctan_lower {z : ℝ} (h : 0 ≤ z) : z - z ^ 3 / 3 ≤ arctan z := by
  have hp : ∀ x : ℝ, HasDerivAt (fun x : ℝ => x - x ^ 3 / 3) (1 - x ^ 2) x := by
    intro x
    exact HasDerivAt.congr_deriv (f := fun x : ℝ => x - x ^ 3 / 3)
      ((hasDerivAt_id x).sub ((hasDerivAt_pow 3 x).div_const 3)) (by push_cast; ring)
  have hd := deriv_aux _ _ hp
  have hm : Monotone (fun x => arctan x - (x - x ^ 3 / 3)) := by
    apply monotone_of_deriv_nonneg (fun x => (hd x).differentiableAt)
    intro x
    rw [(hd x).deriv]
    have : (0 : ℝ) < 1 + x ^ 2 := by positivity
    have e : 1 / (1 + x ^ 2) - (1 - x ^ 2) = x ^ 4 / (1 + x ^ 2) := by field_simp; ring
    rw [e]; positivity
  have := hm h
  norm_num at this
  linarith

theorem arctan_upper {z : ℝ} (h : 0 ≤ z) : arctan z ≤ z - z ^ 3 / 3 + z ^ 5 / 5 := by
  have hp : ∀ x : ℝ, HasDerivAt (fun x : ℝ => x - x ^ 3 / 3 + x ^ 5 / 5) (1 - x ^ 2 + x ^ 4) x := by
    intro x
    exact HasDerivAt.congr_deriv (f := fun x : ℝ => x - x ^ 3 / 3 + x ^ 5 / 5)
      (((hasDerivAt_id x).sub ((hasDerivAt_pow 3 x).div_const 3)).add ((hasDerivAt_pow 5 x).div_const 5)) (by push_cast; ring)
  have hd := deriv_aux _ _ hp
  have hm : Antitone (fun x => arctan x - (x - x ^ 3 / 3 + x ^ 5 / 5)) := by
    apply antitone_of_deriv_nonpos (fun x => (hd x).differentiableAt)
    intro x
    rw [(hd x).deriv]
    have : (0 : ℝ) < 1 + x ^ 2 := by positivity
    have e : 1 / (1 + x ^ 2) - (1 - x ^ 2 + x ^ 4) = -(x ^ 6 / (1 + x ^ 2)) := by field_simp; ring
    rw [e]
    have : 0 ≤ x ^ 6 / (1 + x ^ 2) := by positivity
    linarith
  have := hm h
  norm_num at this
  linarith

/-- The step of the grid: `arctan ((k+1)/128) - arctan (k/128) = arctan (z k)`. -/
def z (k : ℕ) : ℚ := 128 / (16384 + k * (k + 1))

/-- Lower bound of `arctan (k/128)`, times 2^40. -/
def lo : ℕ → ℤ
  | 0 => 0
  | k + 1 => lo k + ⌊(z k - z k ^ 3 / 3) * 2 ^ 40⌋

/-- Upper bound of `arctan (k/128)`, times 2^40. -/
def up : ℕ → ℤ
  | 0 => 0
  | k + 1 => up k + (⌊(z k - z k ^ 3 / 3 + z k ^ 5 / 5) * 2 ^ 40⌋ + 1)

theorem arctan_step (k : ℕ) : arctan ((k + 1 : ℕ) / 128) = arctan (k / 128) + arctan (z k : ℚ) := by
  have hk : (0 : ℝ) ≤ k := by positivity
  have hlt : (k : ℝ) / 128 * ((z k : ℚ) : ℝ) < 1 := by
    unfold z
    push_cast
    rw [div_mul_div_comm, div_lt_one (by positivity)]
    nlinarith
  rw [arctan_add hlt]
  congr 1
  unfold z
  push_cast
  have h1 : (16384 : ℝ) + k * (k + 1) ≠ 0 := by positivity
  have h2 : (1 : ℝ) - k / 128 * (128 / (16384 + k * (k + 1))) ≠ 0 := by
    unfold z at hlt
    push_cast at hlt
    linarith
  rw [eq_div_iff h2]
  field_simp
  ring

theorem grid (k : ℕ) : ((lo k / 2 ^ 40 : ℚ) : ℝ) ≤ arctan (k / 128) ∧ arctan (k / 128) ≤ ((up k / 2 ^ 40 : ℚ) : ℝ) := by
  induction k with
  | zero => simp [lo, up]
  | succ k ih =>
    have hz : 0 ≤ z k := by unfold z; positivity
    have hz' : (0 : ℝ) ≤ ((z k : ℚ) : ℝ) := by exact_mod_cast hz
    rw [arctan_step]
    have a := arctan_lower hz'
    have b := arctan_upper hz'
    have f1 := Int.floor_le ((z k - z k ^ 3 / 3) * 2 ^ 40)
    have f2 := (Int.lt_floor_add_one ((z k - z k ^ 3 / 3 + z k ^ 5 / 5) * 2 ^ 40)).le
    have g1 : ((⌊(z k - z k ^ 3 / 3) * 2 ^ 40⌋ / 2 ^ 40 : ℚ) : ℝ) ≤ ((z k - z k ^ 3 / 3 : ℚ) : ℝ) := by
      apply Rat.cast_le.2; rw [div_le_iff₀ (by positivity)]; exact f1
    have g2 : ((z k - z k ^ 3 / 3 + z k ^ 5 / 5 : ℚ) : ℝ) ≤
        (((⌊(z k - z k ^ 3 / 3 + z k ^ 5 / 5) * 2 ^ 40⌋ + 1 : ℤ) / 2 ^ 40 : ℚ) : ℝ) := by
      apply Rat.cast_le.2; rw [le_div_iff₀ (by positivity)]; push_cast; exact f2
    constructor
    · have e : ((lo (k + 1) / 2 ^ 40 : ℚ)) = lo k / 2 ^ 40 + ⌊(z k - z k ^ 3 / 3) * 2 ^ 40⌋ / 2 ^ 40 := by
        rw [lo]; push_cast; ring
      rw [e, Rat.cast_add]
      refine add_le_add ih.1 (le_trans g1 ?_)
      push_cast; exact a
    · have e : ((up (k + 1) / 2 ^ 40 : ℚ)) =
          up k / 2 ^ 40 + ((⌊(z k - z k ^ 3 / 3 + z k ^ 5 / 5) * 2 ^ 40⌋ + 1 : ℤ) : ℚ) / 2 ^ 40 := by
        rw [up]; push_cast; ring
      rw [e, Rat.cast_add]
      refine add_le_add ih.2 (le_trans ?_ g2)
      push_cast; exact b

theorem concave : ConcaveOn ℝ (Set.Ici (0 : ℝ)) arctan := by
  apply AntitoneOn.concaveOn_of_deriv (convex_Ici 0) differentiable_arctan.continuous.continuousOn
    differentiable_arctan.differentiableOn
  intro x hx y hy hxy
  rw [interior_Ici, Set.mem_Ioi] at hx
  simp only [Real.deriv_arctan]
  apply one_div_le_one_div_of_le (by positivity)
  have := pow_le_pow_left₀ hx.le hxy 2
  linarith

/-- Tangent. -/
theorem tangent {u v : ℝ} (hu : 0 ≤ u) (hv : 0 ≤ v) : arctan u ≤ arctan v + (u - v) * (1 / (1 + v ^ 2)) := by
  rcases lt_trichotomy u v with h | h | h
  · have := concave.le_slope_of_hasDerivAt hu hv h (hasDerivAt_arctan v)
    rw [slope_def_field, le_div_iff₀ (by linarith)] at this
    linarith
  · subst h; simp
  · have := concave.slope_le_of_hasDerivAt hv hu h (hasDerivAt_arctan v)
    rw [slope_def_field, div_le_iff₀ (by linarith)] at this
    linarith

/-- Chord. -/
theorem chord {a b t : ℝ} (ha : 0 ≤ a) (hb : 0 ≤ b) (t0 : 0 ≤ t) (t1 : t ≤ 1) :
    (1 - t) * arctan a + t * arctan b ≤ arctan ((1 - t) * a + t * b) :=
  concave.2 ha hb (by linarith) t0 (by ring)

theorem lipschitz (x y : ℝ) : |arctan x - arctan y| ≤ |x - y| := by
  have key : ∀ x y : ℝ, x ≤ y → arctan y - arctan x ≤ y - x := by
    intro x y h
    have hm : Antitone (fun x => arctan x - x) := by
      have hd := deriv_aux (fun x => x) (fun _ => 1) (fun x => hasDerivAt_id x)
      apply antitone_of_deriv_nonpos (fun x => (hd x).differentiableAt)
      intro x
      rw [(hd x).deriv]
      have : 1 / (1 + x ^ 2) ≤ 1 := by
        rw [div_le_one (by positivity)]; nlinarith [sq_nonneg x]
      linarith
    have := hm h
    simp only at this
    linarith
  rcases le_total x y with h | h
  · rw [abs_sub_comm, abs_sub_comm x y, abs_of_nonneg (sub_nonneg.2 (arctan_mono h)), abs_of_nonneg (sub_nonneg.2 h)]
    exact key x y h
  · rw [abs_of_nonneg (sub_nonneg.2 (arctan_mono h)), abs_of_nonneg (sub_nonneg.2 h)]
    exact key y x h

/-- A linear piece over one cell of the grid of 1/64. -/
theorem cell_err {j : ℕ} {P0 P1 e : ℚ} (h1 : P0 ≤ lo (2 * j) / 2 ^ 40 + e) (h2 : P1 ≤ lo (2 * j + 2) / 2 ^ 40 + e)
    (h3 : up (2 * j + 1) / 2 ^ 40 - 1 / 128 * (1 / (1 + ((2 * j + 1 : ℚ) / 128) ^ 2)) ≤ P0 + e)
    (h4 : up (2 * j + 1) / 2 ^ 40 + 1 / 128 * (1 / (1 + ((2 * j + 1 : ℚ) / 128) ^ 2)) ≤ P1 + e) {t : ℝ} (t0 : 0 ≤ t)
    (t1 : t ≤ 1) : |((1 - t) * P0 + t * P1) - arctan ((j + t) / 64)| ≤ e := by
  have c1 : (P0 : ℝ) ≤ arctan (j / 64) + e := by
    have a := Rat.cast_le (K := ℝ) |>.2 h1
    have b := (grid (2 * j)).1
    rw [Rat.cast_add] at a
    have : ((2 * j : ℕ) : ℝ) / 128 = j / 64 := by push_cast; ring
    rw [this] at b
    linarith
  have c2 : (P1 : ℝ) ≤ arctan ((j + 1) / 64) + e := by
    have a := Rat.cast_le (K := ℝ) |>.2 h2
    have b := (grid (2 * j + 2)).1
    rw [Rat.cast_add] at a
    have : ((2 * j + 2 : ℕ) : ℝ) / 128 = (j + 1) / 64 := by push_cast; ring
    rw [this] at b
    linarith
  have b := (grid (2 * j + 1)).2
  have hm : (((2 * j + 1 : ℕ) : ℝ) / 128) = (2 * j + 1) / 128 := by push_cast; ring
  rw [hm] at b
  have c3 := Rat.cast_le (K := ℝ) |>.2 h3
  have c4 := Rat.cast_le (K := ℝ) |>.2 h4
  rw [Rat.cast_sub, Rat.cast_add] at c3
  rw [Rat.cast_add, Rat.cast_add] at c4
  have es : (((1 / 128 * (1 / (1 + ((2 * j + 1 : ℚ) / 128) ^ 2))) : ℚ) : ℝ) = 1 / 128 * (1 / (1 + ((2 * j + 1 : ℝ) / 128) ^ 2)) := by
    push_cast; rfl
  rw [es] at c3 c4
  have tg := tangent (u := (j + t) / 64) (v := (2 * j + 1) / 128) (by positivity) (by positivity)
  have ch := chord (a := j / 64) (b := (j + 1) / 64) (by positivity) (by positivity) t0 t1
  have e1 : (1 - t) * ((j : ℝ) / 64) + t * ((j + 1) / 64) = (j + t) / 64 := by ring
  rw [e1] at ch
  have e2 : ((j + t) / 64 - (2 * j + 1) / 128 : ℝ) = (2 * t - 1) * (1 / 128) := by ring
  rw [e2] at tg
  set s := (1 / (1 + ((2 * j + 1 : ℝ) / 128) ^ 2))
  set A := arctan ((j + t) / 64)
  rw [abs_le]
  have k1 := mul_le_mul_of_nonneg_left c1 (by linarith : 0 ≤ 1 - t)
  have k2 := mul_le_mul_of_nonneg_left c2 t0
  have k3 := mul_le_mul_of_nonneg_left c3 (by linarith : 0 ≤ 1 - t)
  have k4 := mul_le_mul_of_nonneg_left c4 t0
  constructor <;> nlinarith

end Proof.Atan
