import Verif.Proof.CordicReal
import Verif.Ac.Arith
import Mathlib.Analysis.SpecialFunctions.Trigonometric.Bounds

/-! # The loop of the CORDIC -/

namespace Proof.Cordic
open Ac Model.Cordic

theorem atanPi_eq {i : ℕ} (hi : i < 70) : atanPi i = some ((T i : ℚ) / 2 ^ 71) := by
  unfold atanPi T
  rw [if_neg (by omega)]
  have hl : i < atanTable.length := by have : atanTable.length = 70 := by decide
                                       omega
  rw [List.getD_eq_getElem?_getD, List.getElem?_eq_getElem hl]
  simp only [Option.map_some, Option.getD_some, Fmt.val, tableFmt, Fmt.F, Option.some.injEq]
  norm_num; ring

theorem kOf_eq {n : ℕ} (hi : n < 70) : kOf n = some ((KT n : ℚ) / 2 ^ 71) := by
  unfold kOf KT
  rw [if_neg (by omega)]
  have hl : n < kTable.length := by have : kTable.length = 70 := by decide
                                    omega
  rw [List.getD_eq_getElem?_getD, List.getElem?_eq_getElem hl]
  simp only [Option.map_some, Option.getD_some, Fmt.val, tableFmt, Fmt.F, Option.some.injEq]
  norm_num; ring

/-! ## Conversions that fit -/

theorem half_pow {g : Fmt} (hW : 1 ≤ g.W) : (2 : ℚ) ^ (g.I - 1) * 2 ^ g.F = ((2 ^ (g.W - 1) : ℤ) : ℚ) := by
  rw [← zpow_add₀ (by norm_num : (2 : ℚ) ≠ 0)]
  have : g.I - 1 + g.F = ((g.W - 1 : ℕ) : ℤ) := by
    have : g.F = g.W - g.I := rfl
    omega
  rw [this, zpow_natCast]; push_cast; rfl

/-- A wrapping, truncating signed type holds the floor of the numbers in its range. -/
theorem trn_fit {g : Fmt} (hW : 1 ≤ g.W) (hS : g.S = true) (hQ : g.Q = .TRN) (hO : g.O = .WRAP) {v : ℚ}
    (h0 : -(2 : ℚ) ^ (g.I - 1) ≤ v) (h1 : v < 2 ^ (g.I - 1)) : g.cvt v = g.val ⌊v * 2 ^ g.F⌋ := by
  have hz := Fmt.z_pos g.F
  have hp := half_pow hW
  have a1 : v * 2 ^ g.F < ((2 ^ (g.W - 1) : ℤ) : ℚ) := by rw [← hp]; exact mul_lt_mul_of_pos_right h1 hz
  have a0 : ((-2 ^ (g.W - 1) : ℤ) : ℚ) ≤ v * 2 ^ g.F := by
    rw [Int.cast_neg, ← hp, ← neg_mul]; exact mul_le_mul_of_nonneg_right h0 hz.le
  have b1 := Int.floor_lt.2 a1
  have b0 := Int.le_floor.2 a0
  unfold Fmt.cvt Fmt.cvtRaw
  rw [hQ, hS, hO]
  simp only [quant]
  rw [ovf_of_range hW (by simpa [loRaw, minRaw] using b0) (by simp only [maxRaw, if_true]; omega)]

theorem val_fit {g : Fmt} (hW : 1 ≤ g.W) (hS : g.S = true) (hQ : g.Q = .TRN) (hO : g.O = .WRAP) {r : ℤ}
    (h : |g.val r| < 2 ^ (g.I - 1)) : g.cvt (g.val r) = g.val r := by
  have h' := abs_lt.1 h
  rw [trn_fit hW hS hQ hO (by linarith [h'.1]) h'.2, Fmt.val_mul_pow, Int.floor_intCast]

theorem floor_near {g : Fmt} (v : ℚ) : g.val ⌊v * 2 ^ g.F⌋ ≤ v ∧ v < g.val ⌊v * 2 ^ g.F⌋ + 2 ^ (-g.F) := by
  have hz := Fmt.z_pos (-g.F)
  have hy : v = v * 2 ^ g.F * 2 ^ (-g.F) := by
    rw [mul_assoc, ← zpow_add₀ (by norm_num : (2 : ℚ) ≠ 0)]; simp
  unfold Fmt.val
  have h1 := Int.floor_le (v * 2 ^ g.F)
  have h2 := Int.lt_floor_add_one (v * 2 ^ g.F)
  constructor
  · conv_rhs => rw [hy]
    exact mul_le_mul_of_nonneg_right h1 hz.le
  · have := mul_lt_mul_of_pos_right h2 hz
    rw [add_mul, one_mul, ← hy] at this
    exact this

theorem val_add (g : Fmt) (a b : ℤ) : g.val a + g.val b = g.val (a + b) := by unfold Fmt.val; push_cast; ring
theorem val_sub (g : Fmt) (a b : ℤ) : g.val a - g.val b = g.val (a - b) := by unfold Fmt.val; push_cast; ring

/-- `x >> i` for a value in range. -/
theorem shr_val {g : Fmt} (hW : 1 ≤ g.W) (hS : g.S = true) {r : ℤ} (i : ℕ) (h : |g.val r| < 2 ^ (g.I - 1)) :
    g.shr (g.val r) i = g.val (r / 2 ^ i) ∧ |g.val (r / 2 ^ i)| ≤ |g.val r| + 2 ^ (-g.F) ∧
      minRaw g.W true ≤ r / 2 ^ i ∧ r / 2 ^ i ≤ maxRaw g.W true := by
  have hz := Fmt.z_pos (-g.F)
  have hz' := Fmt.z_pos g.F
  have hp := half_pow hW
  have h' := abs_lt.1 h
  have hv : g.val r * 2 ^ g.F = r := Fmt.val_mul_pow g r
  have a1 : (r : ℚ) < ((2 ^ (g.W - 1) : ℤ) : ℚ) := by
    rw [← hp, ← hv]; exact mul_lt_mul_of_pos_right h'.2 hz'
  have a0 : ((-2 ^ (g.W - 1) : ℤ) : ℚ) < r := by
    rw [← hv, Int.cast_neg, ← hp, ← neg_mul]; exact mul_lt_mul_of_pos_right h'.1 hz'
  have b1 : r < 2 ^ (g.W - 1) := by exact_mod_cast a1
  have b0 : -2 ^ (g.W - 1) < r := by exact_mod_cast a0
  have hpi : (0 : ℤ) < 2 ^ i := by positivity
  have d1 : r / 2 ^ i < 2 ^ (g.W - 1) := by
    refine Int.ediv_lt_of_lt_mul hpi (lt_of_lt_of_le b1 ?_)
    exact le_mul_of_one_le_right (by positivity) (one_le_pow₀ (by norm_num))
  have d0 : -2 ^ (g.W - 1) ≤ r / 2 ^ i := by
    refine Int.le_ediv_of_mul_le hpi (le_trans ?_ b0.le)
    rw [neg_mul]
    have : (2 : ℤ) ^ (g.W - 1) ≤ 2 ^ (g.W - 1) * 2 ^ i := le_mul_of_one_le_right (by positivity) (one_le_pow₀ (by norm_num))
    linarith
  refine ⟨?_, ?_, by simpa [minRaw] using d0, by simp only [maxRaw, if_true]; omega⟩
  · unfold Fmt.shr
    rw [Fmt.raw_val]
    have : ⌊(r : ℚ) * 2 ^ (-(i : ℤ))⌋ = r / 2 ^ i := by
      rw [zpow_neg, zpow_natCast, ← div_eq_mul_inv]
      have := Rat.floor_intCast_div_natCast r (2 ^ i)
      push_cast at this
      exact this
    rw [this, hS, wrap_of_range hW (by simpa [minRaw] using d0) (by simp only [maxRaw, if_true]; omega)]
  · unfold Fmt.val
    rw [abs_mul, abs_mul, abs_of_pos hz, ← add_one_mul]
    refine mul_le_mul_of_nonneg_right ?_ hz.le
    have : |r / 2 ^ i| ≤ |r| + 1 := by
      have e1 : (1 : ℤ) ≤ 2 ^ i := one_le_pow₀ (by norm_num)
      rw [abs_le]
      constructor
      · refine Int.le_ediv_of_mul_le hpi ?_
        have := neg_abs_le r
        have := abs_nonneg r
        nlinarith
      · have : r / 2 ^ i ≤ |r| := by
          refine Int.ediv_le_of_le_mul hpi ?_
          have := le_abs_self r
          have := abs_nonneg r
          nlinarith
        omega
    exact_mod_cast this

/-! ## The angles -/

variable {t : Fmt}

/-- Units of the angle accumulator, `D i` of them is the angle of iteration `i`. -/
def D (t : Fmt) (i : ℕ) : ℤ := ⌊(T i : ℚ) / 2 ^ 71 * 2 ^ icw t⌋

/-- How much an angle can exceed twice the next. -/
def δ (t : Fmt) : ℤ := 2 ^ (icw t - 71)

theorem icw_facts (h1 : 1 ≤ t.W) (h68 : t.W ≤ 68) :
    icw t = t.W + 1 + logIter (t.W + 1) ∧ 4 ≤ logIter (t.W + 1) ∧ logIter (t.W + 1) ≤ 7 ∧ t.W + 2 ≤ 2 ^ logIter (t.W + 1) ∧
      (t.W + 1 < 64 → icw t ≤ 69) := by
  unfold icw numIter logIter
  split_ifs <;> norm_num <;> omega

theorem da_eq (h1 : 1 ≤ t.W) {i : ℕ} (hi : i < 70) :
    (daFmt t).cvt ((T i : ℚ) / 2 ^ 71) = (accFmt t).val (D t i) := by
  have hT := T_pos hi
  have hT2 := T_le hi
  have hTq : (0 : ℚ) < T i := by exact_mod_cast hT
  have hT3 : (T i : ℚ) ≤ 3 * 2 ^ 68 := by
    have : T i ≤ T i * 2 ^ i := le_mul_of_one_le_right hT.le (one_le_pow₀ (by norm_num))
    have : T i ≤ 3 * 2 ^ 68 := le_trans this hT2
    exact_mod_cast this
  rw [trn_fit (g := daFmt t) (by simp [daFmt]) rfl rfl rfl]
  · have e1 : (daFmt t).F = icw t := by simp [daFmt, Fmt.F]
    have e2 : (accFmt t).F = icw t := by simp [accFmt, Fmt.F]
    unfold Fmt.val
    rw [e1, e2]
    simp only [D, zpow_natCast]
  · simp only [daFmt, sub_self, zpow_zero]
    have : (0 : ℚ) < (T i : ℚ) / 2 ^ 71 := by positivity
    linarith
  · simp only [daFmt, sub_self, zpow_zero]
    rw [div_lt_one (by positivity)]
    refine lt_of_le_of_lt hT3 (by norm_num)

theorem D_zero (h1 : 1 ≤ t.W) (h68 : t.W ≤ 68) : D t 0 = 2 ^ (icw t - 2) := by
  have h := (icw_facts h1 h68).1
  have h4 := (icw_facts h1 h68).2.1
  unfold D
  rw [show T 0 = 2 ^ 69 by decide +kernel]
  obtain ⟨m, hm⟩ : ∃ m, icw t = m + 2 := ⟨icw t - 2, by omega⟩
  rw [hm, show m + 2 - 2 = m by omega]
  have : (((2 ^ 69 : ℤ) : ℚ)) / 2 ^ 71 * 2 ^ (m + 2) = ((2 ^ m : ℤ) : ℚ) := by
    rw [pow_add]; push_cast; ring
  rw [this, Int.floor_intCast]

theorem D_nonneg {i : ℕ} (hi : i < 70) : 0 ≤ D t i := by
  have hT : (0 : ℚ) < T i := by exact_mod_cast T_pos hi
  exact Int.floor_nonneg.2 (by positivity)

theorem δ_pos : 1 ≤ δ t := one_le_pow₀ (by norm_num)

theorem D_step {i : ℕ} (hi : i < 69) : D t i ≤ 2 * D t (i + 1) + δ t := by
  have hs := T_step hi
  unfold D δ
  by_cases hw : icw t ≤ 71
  · rw [show icw t - 71 = 0 by omega, pow_zero]
    obtain ⟨s, hsq⟩ : ∃ s, icw t + s = 71 := ⟨71 - icw t, by omega⟩
    have e : ∀ n : ℤ, ⌊(n : ℚ) / 2 ^ 71 * 2 ^ icw t⌋ = n / 2 ^ s := by
      intro n
      have : (n : ℚ) / 2 ^ 71 * 2 ^ icw t = n / ((2 ^ s : ℕ) : ℚ) := by
        rw [← hsq, pow_add]; push_cast; field_simp
      rw [this, Rat.floor_intCast_div_natCast]; push_cast; rfl
    rw [e, e]
    have hp : (0 : ℤ) < 2 ^ s := by positivity
    have d1 := Int.mul_ediv_add_emod (T (i + 1)) (2 ^ s)
    have d2 := Int.emod_lt_of_pos (T (i + 1)) hp
    have : T i / 2 ^ s < 2 * (T (i + 1) / 2 ^ s) + 2 := by
      refine Int.ediv_lt_of_lt_mul hp ?_
      linarith
    omega
  · obtain ⟨s, hsq⟩ : ∃ s, icw t = 71 + s := ⟨icw t - 71, by omega⟩
    have e : ∀ n : ℤ, ⌊(n : ℚ) / 2 ^ 71 * 2 ^ icw t⌋ = n * 2 ^ s := by
      intro n
      have : (n : ℚ) / 2 ^ 71 * 2 ^ icw t = ((n * 2 ^ s : ℤ) : ℚ) := by
        rw [hsq, pow_add]; push_cast; field_simp
      rw [this, Int.floor_intCast]
    rw [e, e, hsq, show 71 + s - 71 = s by omega]
    have hp : (0 : ℤ) < 2 ^ s := by positivity
    nlinarith

theorem D_err {i : ℕ} (hi : i < 70) :
    |Real.pi * ((accFmt t).val (D t i) : ℚ) - Real.arctan (1 / 2 ^ i)| ≤ Real.pi / 2 ^ icw t + ((ae i : ℚ) : ℝ) := by
  have h := atan_err hi
  have e : (((accFmt t).val (D t i) : ℚ) : ℝ) = (D t i : ℝ) / 2 ^ icw t := by
    have e2 : (accFmt t).F = icw t := by simp [accFmt, Fmt.F]
    unfold Fmt.val
    rw [e2, zpow_neg, zpow_natCast]; push_cast; rfl
  have f1 := Int.floor_le ((T i : ℚ) / 2 ^ 71 * 2 ^ icw t)
  have f2 := Int.lt_floor_add_one ((T i : ℚ) / 2 ^ 71 * 2 ^ icw t)
  have f1' : (D t i : ℝ) ≤ (T i : ℝ) / 2 ^ 71 * 2 ^ icw t := by
    have := Rat.cast_le (K := ℝ) |>.2 f1
    rw [Rat.cast_mul, Rat.cast_div, Rat.cast_pow, Rat.cast_pow, Rat.cast_intCast, Rat.cast_intCast, Rat.cast_ofNat] at this
    exact this
  have f2' : (T i : ℝ) / 2 ^ 71 * 2 ^ icw t < (D t i : ℝ) + 1 := by
    have := Rat.cast_lt (K := ℝ) |>.2 f2
    rw [Rat.cast_mul, Rat.cast_div, Rat.cast_pow, Rat.cast_pow, Rat.cast_intCast, Rat.cast_add, Rat.cast_intCast, Rat.cast_ofNat,
      Rat.cast_one] at this
    exact this
  have hw : (0 : ℝ) < 2 ^ icw t := by positivity
  have hpi := Real.pi_pos
  have h2 : |Real.pi * ((D t i : ℝ) / 2 ^ icw t) - (T i : ℝ) / 2 ^ 71 * Real.pi| ≤ Real.pi / 2 ^ icw t := by
    have : Real.pi * ((D t i : ℝ) / 2 ^ icw t) - (T i : ℝ) / 2 ^ 71 * Real.pi =
        Real.pi / 2 ^ icw t * ((D t i : ℝ) - (T i : ℝ) / 2 ^ 71 * 2 ^ icw t) := by field_simp
    rw [this, abs_mul, abs_of_pos (show 0 < Real.pi / 2 ^ icw t by positivity)]
    refine mul_le_of_le_one_right (by positivity) ?_
    rw [abs_le]; constructor <;> linarith
  rw [e]
  exact le_trans (abs_sub_le _ _ _) (add_le_add h2 h)

/-! ## The rotation -/

open Complex in
/-- One iteration turns by the arc tangent and stretches. -/
theorem rot (σ : ℝ) (hσ : σ = 1 ∨ σ = -1) (i : ℕ) (φ : ℝ) :
    (G i : ℂ) * exp (φ * I) * (1 + σ * (1 / 2 ^ i : ℝ) * I) = (G (i + 1) : ℂ) * exp ((φ + σ * Real.arctan (1 / 2 ^ i) : ℝ) * I) := by
  rw [G_succ]
  have hsq : (1 : ℝ) + 1 / 4 ^ i = 1 + (1 / 2 ^ i) ^ 2 := by
    rw [show (4 : ℝ) = 2 ^ 2 by norm_num, ← pow_mul, mul_comm 2 i, pow_mul]; field_simp
  have hs : (0 : ℝ) < Real.sqrt (1 + (1 / 2 ^ i) ^ 2) := Real.sqrt_pos.2 (by positivity)
  have hc := Real.cos_arctan (1 / 2 ^ i)
  have hn := Real.sin_arctan (1 / 2 ^ i)
  have e : (1 : ℂ) + σ * (1 / 2 ^ i : ℝ) * I = (Real.sqrt (1 + 1 / 4 ^ i) : ℂ) * exp ((σ * Real.arctan (1 / 2 ^ i) : ℝ) * I) := by
    rw [exp_mul_I, ← ofReal_cos, ← ofReal_sin, hsq]
    have c1 : Real.cos (σ * Real.arctan (1 / 2 ^ i)) = 1 / Real.sqrt (1 + (1 / 2 ^ i) ^ 2) := by
      rcases hσ with rfl | rfl
      · rw [one_mul, hc]
      · rw [neg_one_mul, Real.cos_neg, hc]
    have s1 : Real.sin (σ * Real.arctan (1 / 2 ^ i)) = σ * (1 / 2 ^ i) / Real.sqrt (1 + (1 / 2 ^ i) ^ 2) := by
      rcases hσ with rfl | rfl
      · rw [one_mul, hn, one_mul]
      · rw [neg_one_mul, Real.sin_neg, hn, neg_one_mul, neg_div]
    rw [c1, s1]
    have hs' : ((Real.sqrt (1 + (1 / 2 ^ i) ^ 2) : ℝ) : ℂ) ≠ 0 := by exact_mod_cast hs.ne'
    generalize Real.sqrt (1 + (1 / 2 ^ i) ^ 2) = q at *
    generalize (1 / 2 ^ i : ℝ) = v at *
    push_cast
    field_simp
  rw [e, ofReal_mul (G i), ofReal_add, add_mul, exp_add]
  ring

open Complex in
theorem rot_norm (σ : ℝ) (hσ : σ = 1 ∨ σ = -1) (i : ℕ) :
    ‖(1 : ℂ) + σ * (1 / 2 ^ i : ℝ) * I‖ = Real.sqrt (1 + 1 / 4 ^ i) := by
  have := rot σ hσ i 0
  have h2 := congrArg norm this
  rw [norm_mul, norm_mul, norm_mul, norm_exp_ofReal_mul_I, norm_exp_ofReal_mul_I, Complex.norm_real, Complex.norm_real,
    Real.norm_of_nonneg (G_pos _).le, Real.norm_of_nonneg (G_pos _).le, G_succ, mul_one, mul_one] at h2
  exact mul_left_cancel₀ (G_pos i).ne' h2

theorem norm_le_of_comp {a b u : ℝ} (hu : 0 ≤ u) (ha : |a| ≤ u) (hb : |b| ≤ u) : ‖(a : ℂ) + b * Complex.I‖ ≤ Real.sqrt 2 * u := by
  rw [Complex.norm_add_mul_I]
  rw [Real.sqrt_le_left (by positivity), mul_pow, Real.sq_sqrt (by norm_num)]
  have h1 := abs_le.1 ha
  have h2 := abs_le.1 hb
  have := sq_le_sq' h1.1 h1.2
  have := sq_le_sq' h2.1 h2.2
  linarith

/-! ## The invariant of the loop -/

/-- Bound of the angle that is left, in units of the accumulator. -/
def B (t : Fmt) (i : ℕ) : ℤ := if i = 0 then 2 ^ (icw t - 1) else D t (i - 1) + (i - 1 : ℕ) * δ t

/-- The unit of `x` and `y`. -/
noncomputable def u (t : Fmt) : ℝ := 2 ^ (-(xyFmt t).F)

theorem u_pos : 0 < u t := zpow_pos (by norm_num) _

theorem u_cast : (((2 : ℚ) ^ (-(xyFmt t).F) : ℚ) : ℝ) = u t := by unfold u; push_cast; rfl

/-- The vector of a state. -/
noncomputable def vec (t : Fmt) (X Y : ℤ) : ℂ :=
  ((((xyFmt t).val X : ℚ) : ℝ) : ℂ) + ((((xyFmt t).val Y : ℚ) : ℝ) : ℂ) * Complex.I

/-- State before iteration `i`: `c` is the scaled factor, `E` the error of the start. -/
def Inv (t : Fmt) (target : ℚ) (c E : ℝ) (i : ℕ) (s : St) : Prop :=
  ∃ (X Y A : ℤ) (φ : ℝ), s = ⟨(xyFmt t).val X, (xyFmt t).val Y, (accFmt t).val A⟩ ∧
    |φ - Real.pi * ((accFmt t).val A : ℚ)| ≤ i * (Real.pi / 2 ^ icw t) + ((aeSum i : ℚ) : ℝ) ∧
    ‖vec t X Y - c * (G i * Complex.exp (φ * Complex.I))‖ ≤ G i * (E + i * u t) ∧
    |target * 2 ^ icw t - A| ≤ B t i

theorem norm_main (i : ℕ) (c φ : ℝ) : ‖(c : ℂ) * (G i * Complex.exp (φ * Complex.I))‖ = |c| * G i := by
  rw [norm_mul, norm_mul, Complex.norm_exp_ofReal_mul_I, Complex.norm_real, Complex.norm_real, mul_one,
    Real.norm_of_nonneg (G_pos _).le, Real.norm_eq_abs]

theorem vec_bound {c E : ℝ} (hE : 0 ≤ E) {N i : ℕ} (hi : i ≤ N) {X Y : ℤ} {φ : ℝ}
    (h : ‖vec t X Y - c * (G i * Complex.exp (φ * Complex.I))‖ ≤ G i * (E + i * u t)) :
    |(((xyFmt t).val X : ℚ) : ℝ)| ≤ |c| * G N + G N * (E + N * u t) ∧
    |(((xyFmt t).val Y : ℚ) : ℝ)| ≤ |c| * G N + G N * (E + N * u t) := by
  have hu := u_pos (t := t)
  have h1 : ‖vec t X Y‖ ≤ |c| * G i + G i * (E + i * u t) := by
    calc ‖vec t X Y‖ = ‖c * (G i * Complex.exp (φ * Complex.I)) + (vec t X Y - c * (G i * Complex.exp (φ * Complex.I)))‖ := by
          congr 1; ring
      _ ≤ _ := norm_add_le _ _
      _ ≤ _ := by rw [norm_main]; linarith
  have hG := G_mono hi
  have hGp := G_pos i
  have hN : (i : ℝ) ≤ N := by exact_mod_cast hi
  have h2 : |c| * G i + G i * (E + i * u t) ≤ |c| * G N + G N * (E + N * u t) := by
    refine add_le_add (mul_le_mul_of_nonneg_left hG (abs_nonneg c)) ?_
    refine mul_le_mul hG ?_ (by positivity) (by linarith)
    have := mul_le_mul_of_nonneg_right hN hu.le
    linarith
  have re : (vec t X Y).re = (((xyFmt t).val X : ℚ) : ℝ) := by simp [vec]
  have im : (vec t X Y).im = (((xyFmt t).val Y : ℚ) : ℝ) := by simp [vec]
  constructor
  · rw [← re]; exact le_trans (Complex.abs_re_le_norm _) (le_trans h1 h2)
  · rw [← im]; exact le_trans (Complex.abs_im_le_norm _) (le_trans h1 h2)

theorem lt_cast {q : ℚ} {I : ℤ} (h : |((q : ℚ) : ℝ)| < 2 ^ (I - 1)) : |q| < 2 ^ (I - 1) := by
  have : (((|q| : ℚ)) : ℝ) < (((2 : ℚ) ^ (I - 1) : ℚ) : ℝ) := by push_cast; exact h
  exact_mod_cast this

/-- The error of one shift. -/
theorem shift_err (Y : ℤ) (i : ℕ) :
    |(((xyFmt t).val (Y / 2 ^ i) : ℚ) : ℝ) - (((xyFmt t).val Y : ℚ) : ℝ) * (1 / 2 ^ i)| ≤ u t := by
  have hp : (0 : ℤ) < 2 ^ i := by positivity
  have d1 := Int.mul_ediv_add_emod Y (2 ^ i)
  have d2 := Int.emod_lt_of_pos Y hp
  have d3 := Int.emod_nonneg Y hp.ne'
  have hpr : (0 : ℝ) < 2 ^ i := by positivity
  have d1' : (2 : ℝ) ^ i * ((Y / 2 ^ i : ℤ) : ℝ) + ((Y % 2 ^ i : ℤ) : ℝ) = Y := by exact_mod_cast d1
  have d2' : ((Y % 2 ^ i : ℤ) : ℝ) ≤ 2 ^ i := by exact_mod_cast d2.le
  have d3' : (0 : ℝ) ≤ ((Y % 2 ^ i : ℤ) : ℝ) := by exact_mod_cast d3
  have hu := u_pos (t := t)
  have e : ∀ Z : ℤ, (((xyFmt t).val Z : ℚ) : ℝ) = Z * u t := by
    intro Z; unfold Fmt.val u; push_cast; rfl
  rw [e, e, ← d1']
  have : ((Y / 2 ^ i : ℤ) : ℝ) * u t - (2 ^ i * ((Y / 2 ^ i : ℤ) : ℝ) + ((Y % 2 ^ i : ℤ) : ℝ)) * u t * (1 / 2 ^ i) =
      -(((Y % 2 ^ i : ℤ) : ℝ) / 2 ^ i * u t) := by field_simp; ring
  rw [this, abs_neg, abs_of_nonneg (by positivity)]
  exact mul_le_of_le_one_left hu.le ((div_le_one hpr).2 d2')

theorem B_step (h1 : 1 ≤ t.W) (h68 : t.W ≤ 68) {i : ℕ} (hi : i < t.W + 1) {z : ℚ} (hz : |z| ≤ B t i) :
    (z < 0 → |z + D t i| ≤ B t (i + 1)) ∧ (0 ≤ z → |z - D t i| ≤ B t (i + 1)) := by
  have hD := D_nonneg (t := t) (show i < 70 by omega)
  have hδ := δ_pos (t := t)
  have hB : B t (i + 1) = D t i + i * δ t := by simp [B]
  have hle : B t i - D t i ≤ B t (i + 1) := by
    rw [hB]
    unfold B
    split_ifs with h0
    · subst h0
      rw [D_zero h1 h68]
      have := (icw_facts h1 h68).1
      rw [show icw t - 1 = icw t - 2 + 1 by omega, pow_succ]
      simp; ring_nf; rfl
    · obtain ⟨j, rfl⟩ : ∃ j, i = j + 1 := ⟨i - 1, by omega⟩
      have := D_step (t := t) (i := j) (by omega)
      simp only [Nat.add_sub_cancel]
      push_cast
      linarith
  have hle2 : D t i ≤ B t (i + 1) := by
    rw [hB]
    have : (0 : ℤ) ≤ i * δ t := by positivity
    linarith
  have a1 : (B t i : ℚ) - D t i ≤ B t (i + 1) := by exact_mod_cast hle
  have a2 : (D t i : ℚ) ≤ B t (i + 1) := by exact_mod_cast hle2
  have a3 : (0 : ℚ) ≤ D t i := by exact_mod_cast hD
  obtain ⟨z0, z1⟩ := abs_le.1 hz
  constructor
  · intro h; rw [abs_le]; constructor <;> linarith
  · intro h; rw [abs_le]; constructor <;> linarith

theorem B_le (h1 : 1 ≤ t.W) (h68 : t.W ≤ 68) {i : ℕ} (hi : i ≤ t.W + 1) : (B t i : ℚ) ≤ 2 ^ icw t - 1 := by
  obtain ⟨f1, f2, f3, f4, f5⟩ := icw_facts h1 h68
  have : B t i ≤ 2 ^ (icw t - 1) := by
    unfold B
    split_ifs with h
    · exact le_rfl
    · have hD : D t (i - 1) ≤ 2 ^ (icw t - 2) := by
        have hd : ∀ j, j < 70 → D t j ≤ 2 ^ (icw t - 2) := by
          intro j hj
          have hT : T j ≤ 2 ^ 69 := by
            by_cases h0 : j = 0
            · subst h0; decide +kernel
            · have h2 := T_le hj
              have h3 := T_pos hj
              have : (2 : ℤ) ≤ 2 ^ j := by
                calc (2 : ℤ) = 2 ^ 1 := by norm_num
                  _ ≤ 2 ^ j := pow_le_pow_right₀ (by norm_num) (by omega)
              nlinarith
          rw [← D_zero h1 h68]
          unfold D
          refine Int.floor_le_floor ?_
          have hT' : (T j : ℚ) ≤ T 0 := by
            rw [show T 0 = 2 ^ 69 by decide +kernel]; exact_mod_cast hT
          have : (T j : ℚ) / 2 ^ 71 ≤ (T 0 : ℚ) / 2 ^ 71 := div_le_div_of_nonneg_right hT' (by positivity)
          exact mul_le_mul_of_nonneg_right this (by positivity)
        exact hd _ (by omega)
      have hδ : ((i - 1 : ℕ) : ℤ) * δ t ≤ 2 ^ (icw t - 2) := by
        unfold δ
        by_cases hw : icw t ≤ 71
        · rw [show icw t - 71 = 0 by omega, pow_zero, mul_one]
          have : i - 1 ≤ 2 ^ logIter (t.W + 1) := by omega
          have h2 : (2 : ℕ) ^ logIter (t.W + 1) ≤ 2 ^ (icw t - 2) := Nat.pow_le_pow_right (by norm_num) (by omega)
          have h3 : i - 1 ≤ 2 ^ (icw t - 2) := by omega
          exact_mod_cast h3
        · have : ((i - 1 : ℕ) : ℤ) ≤ 2 ^ 7 := by
            have : i - 1 ≤ 69 := by omega
            have : ((i - 1 : ℕ) : ℤ) ≤ 69 := by exact_mod_cast this
            linarith
          calc _ ≤ (2 : ℤ) ^ 7 * 2 ^ (icw t - 71) := mul_le_mul_of_nonneg_right this (by positivity)
            _ = 2 ^ (7 + (icw t - 71)) := (pow_add _ _ _).symm
            _ ≤ _ := pow_le_pow_right₀ (by norm_num) (by omega)
      have : (2 : ℤ) ^ (icw t - 1) = 2 ^ (icw t - 2) + 2 ^ (icw t - 2) := by
        rw [show icw t - 1 = icw t - 2 + 1 by omega, pow_succ]; ring
      linarith
  have h2 : (B t i : ℚ) ≤ 2 ^ (icw t - 1) := by exact_mod_cast this
  have e : (2 : ℚ) ^ icw t = 2 ^ (icw t - 1) * 2 := by rw [← pow_succ]; congr 1; omega
  have : (1 : ℚ) ≤ 2 ^ (icw t - 1) := one_le_pow₀ (by norm_num)
  linarith

/-- The accumulator does not wrap. -/
theorem acc_fit (h1 : 1 ≤ t.W) (h68 : t.W ≤ 68) {target : ℚ} (t0 : -1 ≤ target) (t1 : target < 1) {i : ℕ} (hi : i ≤ t.W + 1) {A : ℤ}
    (h : |target * 2 ^ icw t - A| ≤ B t i) : (accFmt t).cvt ((accFmt t).val A) = (accFmt t).val A := by
  have hB := B_le h1 h68 hi
  refine val_fit (by simp [accFmt]) rfl rfl rfl ?_
  have e2 : (accFmt t).F = icw t := by simp [accFmt, Fmt.F]
  unfold Fmt.val
  rw [e2, zpow_neg, zpow_natCast]
  simp only [accFmt, show (2 : ℤ) - 1 = 1 by norm_num, zpow_one]
  have hw : (0 : ℚ) < 2 ^ icw t := by positivity
  obtain ⟨b0, b1⟩ := abs_le.1 h
  rw [← div_eq_mul_inv, abs_div, abs_of_pos hw, div_lt_iff₀ hw, abs_lt]
  have c0 := mul_le_mul_of_nonneg_right t0 hw.le
  have c1 := mul_lt_mul_of_pos_right t1 hw
  constructor <;> linarith

/-- One iteration keeps the invariant. -/
theorem step_inv (h1 : 1 ≤ t.W) (h68 : t.W ≤ 68) {target : ℚ} (t0 : -1 ≤ target) (t1 : target < 1) {c E : ℝ} (hE : 0 ≤ E)
    (hR : |c| * G (t.W + 1) + G (t.W + 1) * (E + (t.W + 1 : ℕ) * u t) < 2 ^ (t.I - 1)) {i : ℕ} (hi : i < t.W + 1) {s : St}
    (h : Inv t target c E i s) : ∃ s', step t target i s = some s' ∧ Inv t target c E (i + 1) s' := by
  obtain ⟨X, Y, A, φ, rfl, ha, hv, hb⟩ := h
  have hW : 1 ≤ (xyFmt t).W := by have := (icw_facts h1 h68).1; simp [xyFmt]; omega
  obtain ⟨bX, bY⟩ := vec_bound hE (show i ≤ t.W + 1 by omega) hv
  have bX' : |(xyFmt t).val X| < 2 ^ ((xyFmt t).I - 1) := lt_cast (lt_of_le_of_lt bX hR)
  have bY' : |(xyFmt t).val Y| < 2 ^ ((xyFmt t).I - 1) := lt_cast (lt_of_le_of_lt bY hR)
  obtain ⟨sX, -, lX, mX⟩ := shr_val hW rfl i bX'
  obtain ⟨sY, -, lY, mY⟩ := shr_val hW rfl i bY'
  have cX : (xyFmt t).cvt ((xyFmt t).val (X / 2 ^ i)) = (xyFmt t).val (X / 2 ^ i) := Fmt.cvt_val hW
    (show loRaw (xyFmt t).W true .WRAP ≤ _ by simpa [loRaw] using lX) mX
  have cY : (xyFmt t).cvt ((xyFmt t).val (Y / 2 ^ i)) = (xyFmt t).val (Y / 2 ^ i) := Fmt.cvt_val hW
    (show loRaw (xyFmt t).W true .WRAP ≤ _ by simpa [loRaw] using lY) mY
  unfold step
  simp only [atanPi_eq (show i < 70 by omega), Option.bind_eq_bind, Option.bind_some, da_eq h1 (show i < 70 by omega), sX, sY, cX, cY]
  have hw : (0 : ℚ) < 2 ^ icw t := by positivity
  have e2 : (accFmt t).F = icw t := by simp [accFmt, Fmt.F]
  have hcmp : (target < (accFmt t).val A) ↔ target * 2 ^ icw t - A < 0 := by
    unfold Fmt.val
    rw [e2, zpow_neg, zpow_natCast, ← div_eq_mul_inv, lt_div_iff₀ hw, sub_neg]
  obtain ⟨st1, st2⟩ := B_step h1 h68 hi hb
  have hDe := D_err (t := t) (show i < 70 by omega)
  -- both branches, with the sign of the turn
  have main : ∀ (σ : ℝ) (X' Y' A' : ℤ), (σ = 1 ∨ σ = -1) →
      ((((xyFmt t).val X' : ℚ) : ℝ) = ((xyFmt t).val X : ℚ) - σ * ((xyFmt t).val (Y / 2 ^ i) : ℚ)) →
      ((((xyFmt t).val Y' : ℚ) : ℝ) = ((xyFmt t).val Y : ℚ) + σ * ((xyFmt t).val (X / 2 ^ i) : ℚ)) →
      ((((accFmt t).val A' : ℚ) : ℝ) = ((accFmt t).val A : ℚ) + σ * ((accFmt t).val (D t i) : ℚ)) →
      |target * 2 ^ icw t - A'| ≤ B t (i + 1) →
      ∃ s', some (⟨(xyFmt t).cvt ((xyFmt t).val X'), (xyFmt t).cvt ((xyFmt t).val Y'), (accFmt t).cvt ((accFmt t).val A')⟩ : St) = some s' ∧
        Inv t target c E (i + 1) s' := by
    intro σ X' Y' A' hσ eX eY eA hb'
    have ha' : |φ + σ * Real.arctan (1 / 2 ^ i) - Real.pi * ((accFmt t).val A' : ℚ)| ≤
        (i + 1 : ℕ) * (Real.pi / 2 ^ icw t) + ((aeSum (i + 1) : ℚ) : ℝ) := by
      have e : φ + σ * Real.arctan (1 / 2 ^ i) - Real.pi * ((accFmt t).val A' : ℚ) =
          (φ - Real.pi * ((accFmt t).val A : ℚ)) - σ * (Real.pi * ((accFmt t).val (D t i) : ℚ) - Real.arctan (1 / 2 ^ i)) := by
        rw [eA]; ring
      have hσ1 : |σ| = 1 := by rcases hσ with rfl | rfl <;> simp
      have : aeSum (i + 1) = aeSum i + ae i := rfl
      rw [e, this]
      refine le_trans (abs_sub _ _) ?_
      rw [abs_mul, hσ1, one_mul]
      push_cast
      linarith
    have hv' : ‖vec t X' Y' - c * (G (i + 1) * Complex.exp ((φ + σ * Real.arctan (1 / 2 ^ i) : ℝ) * Complex.I))‖ ≤
        G (i + 1) * (E + (i + 1 : ℕ) * u t) := by
      rw [← rot σ hσ i φ]
      set p : ℝ := (((xyFmt t).val (Y / 2 ^ i) : ℚ) : ℝ) - (((xyFmt t).val Y : ℚ) : ℝ) * (1 / 2 ^ i) with hp
      set q : ℝ := (((xyFmt t).val (X / 2 ^ i) : ℚ) : ℝ) - (((xyFmt t).val X : ℚ) : ℝ) * (1 / 2 ^ i) with hq
      have hpu : |-(σ * p)| ≤ u t := by
        rw [abs_neg, abs_mul, show |σ| = 1 by rcases hσ with rfl | rfl <;> simp, one_mul]; exact shift_err Y i
      have hqu : |σ * q| ≤ u t := by
        rw [abs_mul, show |σ| = 1 by rcases hσ with rfl | rfl <;> simp, one_mul]; exact shift_err X i
      have e : vec t X' Y' - c * (G i * Complex.exp (φ * Complex.I) * (1 + σ * (1 / 2 ^ i : ℝ) * Complex.I)) =
          (vec t X Y - c * (G i * Complex.exp (φ * Complex.I))) * (1 + σ * (1 / 2 ^ i : ℝ) * Complex.I) +
            (((-(σ * p) : ℝ) : ℂ) + ((σ * q : ℝ) : ℂ) * Complex.I) := by
        unfold vec
        rw [eX, eY, hp, hq]
        generalize (1 / 2 ^ i : ℝ) = v
        have hI : Complex.I * Complex.I = -1 := Complex.I_mul_I
        push_cast
        linear_combination (-(((xyFmt t).val Y : ℂ)) * σ * v) * hI
      rw [e]
      refine le_trans (norm_add_le _ _) ?_
      rw [norm_mul, rot_norm σ hσ]
      have n2 := norm_le_of_comp (u_pos (t := t)).le hpu hqu
      have n1 := mul_le_mul_of_nonneg_right hv (Real.sqrt_nonneg (1 + 1 / 4 ^ i))
      have n3 := mul_le_mul_of_nonneg_right (G_ge (n := i)) (u_pos (t := t)).le
      have e3 : G i * (E + i * u t) * Real.sqrt (1 + 1 / 4 ^ i) = G (i + 1) * (E + i * u t) := by rw [G_succ]; ring
      rw [e3] at n1
      refine le_trans (add_le_add n1 n2) ?_
      rw [show G (i + 1) * (E + (i + 1 : ℕ) * u t) = G (i + 1) * (E + i * u t) + G (i + 1) * u t by push_cast; ring]
      exact add_le_add le_rfl n3
    obtain ⟨b1, b2⟩ := vec_bound hE (show i + 1 ≤ t.W + 1 by omega) hv'
    have f1 : (xyFmt t).cvt ((xyFmt t).val X') = (xyFmt t).val X' := val_fit hW rfl rfl rfl (lt_cast (lt_of_le_of_lt b1 hR))
    have f2 : (xyFmt t).cvt ((xyFmt t).val Y') = (xyFmt t).val Y' := val_fit hW rfl rfl rfl (lt_cast (lt_of_le_of_lt b2 hR))
    have f3 := acc_fit h1 h68 t0 t1 (show i + 1 ≤ t.W + 1 by omega) hb'
    rw [f1, f2, f3]
    exact ⟨_, rfl, X', Y', A', _, rfl, ha', hv', hb'⟩
  by_cases hc : target < (accFmt t).val A
  · rw [if_pos hc, val_add, val_sub, val_sub]
    refine main (-1) _ _ _ (Or.inr rfl) ?_ ?_ ?_ ?_
    · rw [← val_add]; push_cast; ring
    · rw [← val_sub]; push_cast; ring
    · rw [← val_sub]; push_cast; ring
    · have := st1 (hcmp.1 hc)
      push_cast
      rw [show target * 2 ^ icw t - ((A : ℚ) - D t i) = target * 2 ^ icw t - A + D t i by ring]
      exact this
  · rw [if_neg hc, val_add, val_sub, val_add]
    refine main 1 _ _ _ (Or.inl rfl) ?_ ?_ ?_ ?_
    · rw [← val_sub]; push_cast; ring
    · rw [← val_add]; push_cast; ring
    · rw [← val_add]; push_cast; ring
    · have := st2 (by rw [hcmp] at hc; linarith)
      push_cast
      rw [show target * 2 ^ icw t - ((A : ℚ) + D t i) = target * 2 ^ icw t - A - D t i by ring]
      exact this

end Proof.Cordic
