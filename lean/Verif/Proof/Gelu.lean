import Verif.Model.Activations
import Verif.Spec.Activations
import Verif.Proof.TanhErr
import Mathlib.Analysis.Calculus.MeanValue
import Mathlib.Analysis.Real.Pi.Bounds

/-! # Lemmas for C48: GELU -/

namespace Proof.Gelu
open Ac Model.Pwl Model.PwlFixed Model.Activations Proof.Pwl

theorem A_val : geluA = 418321 / 524288 := by decide +kernel
theorem B_val : geluB = 23443 / 524288 := by decide +kernel

/-- The argument of the hyperbolic tangent before it is converted to its type. -/
def t0 (x : ℚ) : ℚ := geluA * (x + geluB * x * x * x)

theorem t0_neg (x : ℚ) : t0 (-x) = -t0 x := by unfold t0; ring

theorem t0_mono {x y : ℚ} (h0 : 0 ≤ x) (h : x ≤ y) : t0 x ≤ t0 y := by
  unfold t0
  rw [A_val, B_val]
  have h3 : x ^ 3 ≤ y ^ 3 := pow_le_pow_left₀ h0 h 3
  have e : ∀ z : ℚ, 418321 / 524288 * (z + 23443 / 524288 * z * z * z) = 418321 / 524288 * (z + 23443 / 524288 * z ^ 3) := by intro z; ring
  rw [e, e]
  linarith

theorem t0_nonneg {x : ℚ} (h : 0 ≤ x) : 0 ≤ t0 x := by
  have := t0_mono le_rfl h
  have e : t0 0 = 0 := by unfold t0; ring
  rwa [e] at this

theorem t0_abs (x : ℚ) : |t0 x| = t0 |x| := by
  rcases le_total 0 x with h | h
  · rw [abs_of_nonneg h, abs_of_nonneg (t0_nonneg h)]
  · have := t0_nonneg (neg_nonneg.2 h)
    rw [abs_of_nonpos h, ← abs_neg, ← t0_neg, abs_of_nonneg this]

/-- The types whose argument of the hyperbolic tangent fits the type the function declares for it. -/
def Fits (f out : Fmt) : Prop :=
  ¬ (f.W = 1 ∧ f.I = 1) ∧ 6 ≤ f.W + 2 * f.I + 10 ∧ (f.S = out.S ∨ (f.S = false ∧ out.S = true ∧ 3 ≤ f.I))

theorem cube (y : ℚ) (k : ℤ) (hy : y = 2 ^ k) : y ^ 3 = 2 ^ (3 * k) := by
  rw [hy, ← zpow_natCast, ← zpow_mul]; congr 1; push_cast; ring

theorem t0_X {X c : ℚ} (h : c = X ^ 3) : t0 X = 418321 / 524288 * (X + 23443 / 524288 * c) := by
  unfold t0; rw [A_val, B_val, h]; ring

/-- The argument stays below the range of its type. -/
theorem t0_fit {f out : Fmt} (hW : 1 ≤ f.W) (hf : Fits f out) {x : ℚ} (hx : f.Rep x) :
    |t0 x| ≤ 31 / 32 * 2 ^ ((tanhInp f out).I - if out.S then 1 else 0) := by
  obtain ⟨h11, -, hS⟩ := hf
  have hb := ((Fmt.rep_iff hW x).1 hx).1
  obtain ⟨s, hs1, hs2⟩ : ∃ s : ℤ, (s = if f.S then 1 else 0) ∧ |x| ≤ 2 ^ (f.I - s) := by
    refine ⟨_, rfl, ?_⟩
    unfold Fmt.Bnd at hb
    split_ifs at hb ⊢
    · exact abs_le.2 ⟨hb.1, hb.2.le⟩
    · rw [abs_of_nonneg hb.1, sub_zero]; exact hb.2.le
  rw [t0_abs]
  refine le_trans (t0_mono (abs_nonneg _) hs2) ?_
  have hI : (tanhInp f out).I = if f.I = 1 then 1 else if f.I ≤ 0 then f.I else 3 * f.I - 3 := by
    unfold tanhInp
    simp only
    by_cases h1 : f.I = 1
    · rw [if_pos ⟨by omega, h1⟩, if_pos h1]
    · rw [if_neg (by omega), if_neg h1]
      by_cases h0 : f.I = 0
      · rw [if_pos ⟨by omega, h0⟩, if_pos (by omega), h0]
      · rw [if_neg (by omega)]
        split_ifs <;> omega
  rw [hI]
  -- small integer widths
  have small : ∀ k : ℤ, k ≤ 0 → t0 (2 ^ k) ≤ 31 / 32 * 2 ^ k := by
    intro k hk
    have h1 : (2 : ℚ) ^ (3 * k) ≤ 2 ^ k := Fmt.z_le (by omega)
    have h2 := Fmt.z_pos k
    rw [t0_X (cube _ k rfl).symm]
    linarith
  have wide : ∀ a k : ℤ, 0 ≤ k → t0 (2 ^ (k + a)) ≤ 418321 / 524288 * (2 ^ a + 23443 / 524288 * 2 ^ (3 * a)) * 2 ^ (3 * k) := by
    intro a k hk
    rw [t0_X (cube _ (k + a) rfl).symm, show 3 * (k + a) = 3 * k + 3 * a by ring, ← Fmt.z_add, ← Fmt.z_add]
    have h1 : (2 : ℚ) ^ k ≤ 2 ^ (3 * k) := Fmt.z_le (by omega)
    have h2 := mul_le_mul_of_nonneg_right h1 (Fmt.z_pos a).le
    linarith
  rcases hS with hS | ⟨hS, hS', hI3⟩
  · rw [← hS, ← hs1]
    by_cases h1 : f.I = 1
    · rw [if_pos h1, h1]
      cases hfs : f.S
      · rw [hfs] at hs1; simp only [Bool.false_eq_true, if_false] at hs1
        subst hs1
        unfold t0; rw [A_val, B_val]; norm_num
      · rw [hfs] at hs1; simp only [if_true] at hs1
        subst hs1
        exact small _ (by norm_num)
    · rw [if_neg h1]
      by_cases h0 : f.I ≤ 0
      · rw [if_pos h0]
        exact small _ (by split_ifs at hs1 <;> omega)
      · rw [if_neg h0]
        obtain ⟨k, hk0, hk⟩ : ∃ k : ℤ, 0 ≤ k ∧ f.I = k + 2 := ⟨f.I - 2, by omega, by ring⟩
        rw [hk]
        have hp := Fmt.z_pos (3 * k)
        cases hfs : f.S
        · rw [hfs] at hs1; simp only [Bool.false_eq_true, if_false] at hs1
          subst hs1
          rw [show 3 * (k + 2) - 3 - 0 = 3 * k + 3 by ring, show k + 2 - 0 = k + 2 by ring]
          refine le_trans (wide 2 k hk0) ?_
          rw [← Fmt.z_add]
          norm_num
          linarith
        · rw [hfs] at hs1; simp only [if_true] at hs1
          subst hs1
          rw [show 3 * (k + 2) - 3 - 1 = 3 * k + 2 by ring, show k + 2 - 1 = k + 1 by ring]
          refine le_trans (wide 1 k hk0) ?_
          rw [← Fmt.z_add]
          norm_num
          linarith
  · rw [if_neg (by omega), if_neg (by omega), hS']
    rw [hS] at hs1; simp only [Bool.false_eq_true, if_false] at hs1
    subst hs1
    simp only [if_true]
    obtain ⟨k, hk0, hk⟩ : ∃ k : ℤ, 0 ≤ k ∧ f.I = k + 3 := ⟨f.I - 3, by omega, by ring⟩
    rw [hk]
    have hp := Fmt.z_pos (3 * k)
    rw [show 3 * (k + 3) - 3 - 1 = 3 * k + 5 by ring, show k + 3 - 0 = k + 3 by ring]
    refine le_trans (wide 3 k hk0) ?_
    rw [← Fmt.z_add]
    norm_num
    linarith

/-- The argument of the hyperbolic tangent. -/
def t (f out : Fmt) (x : ℚ) : ℚ := (tanhInp f out).cvt (t0 x)

theorem ti_W {f out : Fmt} (hf : Fits f out) : 6 ≤ (tanhInp f out).W := by
  have := hf.2.1
  unfold tanhInp; simp only; omega

theorem t_err {f out : Fmt} (hW : 1 ≤ f.W) (hf : Fits f out) {x : ℚ} (hx : f.Rep x) :
    |t f out x - t0 x| < 2 ^ (-(tanhInp f out).F) := by
  have hw := ti_W hf
  have h1 := t0_fit hW hf hx
  have hSo : (tanhInp f out).S = out.S := rfl
  set g := tanhInp f out with hg
  have hz := Fmt.z_pos g.F
  have h2 := mul_le_mul_of_nonneg_right h1 hz.le
  have h0 : out.S = false → 0 ≤ t0 x := by
    intro h
    have hfs : f.S = false := by
      rcases hf.2.2 with h' | ⟨h', h'', -⟩
      · rw [h', h]
      · rw [h] at h''; cases h''
    have hb := ((Fmt.rep_iff hW x).1 hx).1
    unfold Fmt.Bnd at hb
    rw [hfs] at hb
    exact t0_nonneg hb.1
  have e : |t0 x * 2 ^ g.F| = |t0 x| * 2 ^ g.F := by rw [abs_mul, abs_of_pos hz]
  have hlo : ((loRaw g.W g.S g.O : ℤ) : ℚ) ≤ t0 x * 2 ^ g.F := by
    cases hs : out.S
    · have h1 : ((loRaw g.W g.S g.O : ℤ) : ℚ) ≤ 0 := by exact_mod_cast loRaw_nonpos _ _ _
      have h2 := mul_nonneg (h0 hs) hz.le
      linarith
    · rw [hs] at h2
      simp only [if_true] at h2
      rw [mul_assoc, Fmt.z_add, show g.I - 1 + g.F = ((g.W - 1 : ℕ) : ℤ) by unfold Fmt.F; omega, zpow_natCast] at h2
      have a1 : loRaw g.W g.S g.O ≤ -2 ^ (g.W - 1) + 1 := by
        unfold loRaw
        rw [hSo, hs]
        cases g.O <;> simp [minRaw, maxRaw]
      have a3 : ((loRaw g.W g.S g.O : ℤ) : ℚ) ≤ -2 ^ (g.W - 1) + 1 := by exact_mod_cast a1
      have a4 : (2 : ℚ) ^ 5 ≤ 2 ^ (g.W - 1) := pow_le_pow_right₀ (by norm_num) (by omega)
      rw [← e] at h2
      have := (abs_le.1 h2).1
      norm_num at a4
      linarith
  have hhi : t0 x * 2 ^ g.F ≤ ((maxRaw g.W g.S : ℤ) : ℚ) := by
    rw [← e] at h2
    have h3 := (abs_le.1 h2).2
    cases hs : out.S
    · rw [hs] at h3
      simp only [Bool.false_eq_true, if_false, sub_zero] at h3
      rw [mul_assoc, Fmt.z_add, show g.I + g.F = (g.W : ℤ) by unfold Fmt.F; omega, zpow_natCast] at h3
      have a4 : (2 : ℚ) ^ 5 ≤ 2 ^ g.W := pow_le_pow_right₀ (by norm_num) (by omega)
      unfold maxRaw
      rw [hSo, hs]
      push_cast
      norm_num at a4 ⊢
      linarith
    · rw [hs] at h3
      simp only [if_true] at h3
      rw [mul_assoc, Fmt.z_add, show g.I - 1 + g.F = ((g.W - 1 : ℕ) : ℤ) by unfold Fmt.F; omega, zpow_natCast] at h3
      have a4 : (2 : ℚ) ^ 5 ≤ 2 ^ (g.W - 1) := pow_le_pow_right₀ (by norm_num) (by omega)
      unfold maxRaw
      rw [hSo, hs]
      push_cast
      norm_num at a4 ⊢
      linarith
  have := Fmt.cvt_err (by omega : 1 ≤ g.W) hlo hhi
  simpa [t, ← hg] using this

/-- The hyperbolic tangent, as the function computes it. -/
def y (f out : Fmt) (x : ℚ) : ℚ := if t f out x < 0 then -Proof.Tanh.mag |t f out x| else Proof.Tanh.mag |t f out x|

theorem y_range (f out : Fmt) (x : ℚ) : -1 < y f out x ∧ y f out x < 1 ∧ ∃ k : ℤ, -2 ^ 20 ≤ k ∧ k < 2 ^ 20 ∧ y f out x = k / 2 ^ 20 := by
  obtain ⟨k, k0, k1, hk⟩ := Proof.Tanh.mag_raw (abs_nonneg (t f out x))
  have h1 : (0 : ℚ) < k / 2 ^ 20 := div_pos (by exact_mod_cast (by omega : 0 < k)) (by norm_num)
  have h2 : (k : ℚ) / 2 ^ 20 < 1 := by rw [div_lt_one (by norm_num)]; exact_mod_cast k1
  unfold y
  rw [hk]
  split_ifs
  · exact ⟨by linarith, by linarith, -k, by omega, by omega, by push_cast; ring⟩
  · exact ⟨by linarith, by linarith, k, by omega, k1, rfl⟩

theorem y_cvt (q : QMode) (f out : Fmt) (x : ℚ) : (⟨21, 1, true, q, .WRAP⟩ : Fmt).cvt (y f out x) = y f out x := by
  obtain ⟨-, -, k, k0, k1, hk⟩ := y_range f out x
  have e : y f out x = (⟨21, 1, true, q, .WRAP⟩ : Fmt).val k := by
    rw [hk]; unfold Fmt.val Fmt.F; norm_num; ring
  rw [e]
  refine Fmt.cvt_val (by norm_num) ?_ ?_
  · show minRaw 21 true ≤ k
    unfold minRaw; simpa using k0
  · show k ≤ maxRaw 21 true
    unfold maxRaw; simp; omega

theorem gelu_eq (g : ℕ → ℤ × ℤ) (q : QMode) {f out : Fmt} (hf : Fits f out) (x : ℚ) :
    gelu (fun i => some (g i)) q f out x = some (out.cvt (1 / 2 * x * (1 + y f out x))) := by
  have hw := ti_W hf
  unfold gelu tanh
  have hr : (tanhInp f out).Rep ((tanhInp f out).cvt (geluA * (x + geluB * x * x * x))) := Fmt.rep_cvt (by omega) _
  simp only [Proof.Tanh.tanhPwl_some g q (by omega) hr, Option.map_some, Option.bind_eq_bind, Option.bind_some]
  have := y_cvt q f out x
  unfold y t t0 at this
  rw [this]
  rfl

theorem gelu_in (q : QMode) {f out : Fmt} (hf : Fits f out) {x : ℚ} (h : |t f out x| < 3) :
    gelu (fun _ => none) q f out x = some (out.cvt (1 / 2 * x * (1 + y f out x))) := by
  have hw := ti_W hf
  unfold gelu tanh
  have hr : (tanhInp f out).Rep ((tanhInp f out).cvt (geluA * (x + geluB * x * x * x))) := Fmt.rep_cvt (by omega) _
  simp only [Proof.Tanh.tanhPwl_in (fun _ => none) q (by omega) hr h, Option.map_some, Option.bind_eq_bind, Option.bind_some]
  have := y_cvt q f out x
  unfold y t t0 at this
  rw [this]
  rfl

theorem gelu_oob (q : QMode) {f out : Fmt} (hf : Fits f out) {x : ℚ} (h3 : 3 ≤ |t f out x|) (h4 : |t f out x| < 4) :
    gelu (fun _ => none) q f out x = none := by
  have hw := ti_W hf
  unfold gelu tanh
  have hr : (tanhInp f out).Rep ((tanhInp f out).cvt (geluA * (x + geluB * x * x * x))) := Fmt.rep_cvt (by omega) _
  simp only [Proof.Tanh.tanhPwl_oob q (by omega) hr h3 h4, Option.map_none, Option.bind_eq_bind, Option.bind_none]

theorem y_err (f out : Fmt) (x : ℚ) : |(y f out x : ℝ) - Real.tanh (t f out x)| ≤ 1 / 200 := by
  have h := Proof.Tanh.mag_err (abs_nonneg (t f out x))
  unfold y
  split_ifs with hx0
  · rw [abs_of_neg hx0] at h ⊢
    push_cast at h ⊢
    rw [Real.tanh_neg] at h
    rw [show -(Proof.Tanh.mag (-t f out x) : ℝ) - Real.tanh (t f out x) = -((Proof.Tanh.mag (-t f out x) : ℝ) - -Real.tanh (t f out x)) by ring, abs_neg]
    exact h
  · rwa [abs_of_nonneg (not_lt.1 hx0)] at h ⊢

theorem hasDerivAt_tanh (x : ℝ) : HasDerivAt Real.tanh (1 / Real.cosh x ^ 2) x := by
  have h := (Real.hasDerivAt_sinh x).div (Real.hasDerivAt_cosh x) (Real.cosh_pos x).ne'
  have e : Real.tanh = fun y => Real.sinh y / Real.cosh y := by funext y; exact Real.tanh_eq_sinh_div_cosh y
  rw [e]
  refine h.congr_deriv ?_
  congr 1
  have := Real.cosh_sq x
  rw [← sq, ← sq, this]; ring

/-- A bound of the derivative bounds the difference. -/
theorem tanh_sub {a b C : ℝ} (h : b ≤ a) (hC : ∀ z, b ≤ z → 1 / Real.cosh z ^ 2 ≤ C) : Real.tanh a - Real.tanh b ≤ C * (a - b) := by
  refine (convex_Icc b a).image_sub_le_mul_sub_of_deriv_le (f := Real.tanh) ?_ ?_ ?_ b (Set.left_mem_Icc.2 h) a (Set.right_mem_Icc.2 h) h
  · exact fun x _ => (hasDerivAt_tanh x).continuousAt.continuousWithinAt
  · exact fun x _ => (hasDerivAt_tanh x).differentiableAt.differentiableWithinAt
  · intro x hx
    rw [(hasDerivAt_tanh x).deriv]
    exact hC x (interior_subset hx).1

theorem sech_le_one (z : ℝ) : 1 / Real.cosh z ^ 2 ≤ 1 := by
  rw [div_le_one (by have := Real.cosh_pos z; positivity)]
  exact one_le_pow₀ (Real.one_le_cosh z)

theorem tanh_lip (a b : ℝ) : |Real.tanh a - Real.tanh b| ≤ |a - b| := by
  rcases le_total b a with h | h
  · have := tanh_sub h (C := 1) (fun z _ => sech_le_one z)
    rw [abs_of_nonneg (by linarith : 0 ≤ a - b), abs_of_nonneg (by have := Proof.Tanh.tanh_mono h; linarith)]
    linarith
  · have := tanh_sub h (C := 1) (fun z _ => sech_le_one z)
    rw [abs_of_nonpos (by linarith : a - b ≤ 0), abs_of_nonpos (by have := Proof.Tanh.tanh_mono h; linarith)]
    linarith

/-- A relative error of the argument. -/
theorem tanh_rel {a b ε : ℝ} (hb : 0 ≤ b) (h : b ≤ a) (h' : a ≤ b + ε * b) (hε : 0 ≤ ε) : Real.tanh a - Real.tanh b ≤ ε / 2 := by
  have hC : ∀ z, b ≤ z → 1 / Real.cosh z ^ 2 ≤ 1 / (1 + b ^ 2) := by
    intro z hz
    apply one_div_le_one_div_of_le (by positivity)
    have h1 := Real.cosh_sq z
    have h2 : z ≤ Real.sinh z := Real.self_le_sinh_iff.2 (by linarith)
    have h3 : b ^ 2 ≤ Real.sinh z ^ 2 := pow_le_pow_left₀ hb (by linarith) 2
    linarith
  have h1 := tanh_sub h hC
  have hp : (0 : ℝ) < 1 + b ^ 2 := by positivity
  have h2 : 1 / (1 + b ^ 2) * (a - b) ≤ ε / 2 := by
    rw [one_div, inv_mul_le_iff₀ hp]
    have : 2 * b ≤ 1 + b ^ 2 := by nlinarith [sq_nonneg (b - 1)]
    have := mul_le_mul_of_nonneg_left this hε
    linarith
  linarith

theorem const_bounds : (418321 / 524288 : ℝ) ≤ Real.sqrt (2 / Real.pi) ∧ Real.sqrt (2 / Real.pi) ≤ 418321 / 524288 * (1 + 1 / 10 ^ 6) := by
  have a1 := Real.pi_gt_d6
  have a2 := Real.pi_lt_d6
  constructor
  · apply Real.le_sqrt_of_sq_le
    rw [le_div_iff₀ Real.pi_pos]
    norm_num at a2 ⊢
    nlinarith
  · rw [Real.sqrt_le_left (by norm_num), div_le_iff₀ Real.pi_pos]
    norm_num at a1 ⊢
    nlinarith

theorem arg_err (x : ℚ) : |Real.tanh (t0 x) - Real.tanh (Real.sqrt (2 / Real.pi) * (x + 0.044715 * (x : ℝ) ^ 3))| ≤ 12 / 10 ^ 6 := by
  obtain ⟨c1, c2⟩ := const_bounds
  have key : ∀ z : ℝ, 0 ≤ z → |Real.tanh (418321 / 524288 * (z + 23443 / 524288 * z ^ 3)) -
      Real.tanh (Real.sqrt (2 / Real.pi) * (z + 0.044715 * z ^ 3))| ≤ 12 / 10 ^ 6 := by
    intro z hz
    generalize Real.sqrt (2 / Real.pi) = S at *
    have hz3 : 0 ≤ z ^ 3 := by positivity
    have h1 : 418321 / 524288 * (z + 23443 / 524288 * z ^ 3) ≤ S * (z + 0.044715 * z ^ 3) := by
      refine mul_le_mul c1 ?_ (by positivity) (by linarith)
      norm_num; linarith
    have h2 : S * (z + 0.044715 * z ^ 3) ≤ 418321 / 524288 * (z + 23443 / 524288 * z ^ 3) + 24 / 10 ^ 6 * (418321 / 524288 * (z + 23443 / 524288 * z ^ 3)) := by
      have := mul_le_mul_of_nonneg_right c2 (by positivity : 0 ≤ z + 0.044715 * z ^ 3)
      refine le_trans this ?_
      norm_num
      linarith
    have h3 := tanh_rel (by positivity) h1 h2 (by norm_num)
    rw [abs_sub_comm, abs_of_nonneg (by have := Proof.Tanh.tanh_mono h1; linarith)]
    norm_num at h3 ⊢
    linarith
  have e : (t0 x : ℝ) = 418321 / 524288 * ((x : ℝ) + 23443 / 524288 * (x : ℝ) ^ 3) := by
    unfold t0; rw [A_val, B_val]; push_cast; ring
  rw [e]
  rcases le_total 0 (x : ℝ) with h | h
  · exact key _ h
  · have := key (-x) (by linarith)
    rw [show (418321 / 524288 : ℝ) * (-(x : ℝ) + 23443 / 524288 * (-(x : ℝ)) ^ 3) = -(418321 / 524288 * ((x : ℝ) + 23443 / 524288 * (x : ℝ) ^ 3)) by ring,
      show Real.sqrt (2 / Real.pi) * (-(x : ℝ) + 0.044715 * (-(x : ℝ)) ^ 3) = -(Real.sqrt (2 / Real.pi) * ((x : ℝ) + 0.044715 * (x : ℝ) ^ 3)) by ring,
      Real.tanh_neg, Real.tanh_neg, show ∀ u v : ℝ, -u - -v = -(u - v) by intros; ring, abs_neg] at this
    exact this

/-- The number that is converted to the output. -/
def r (f out : Fmt) (x : ℚ) : ℚ := 1 / 2 * x * (1 + y f out x)

theorem r_err {f out : Fmt} (hW : 1 ≤ f.W) (hf : Fits f out) {x : ℚ} (hx : f.Rep x) :
    |(r f out x : ℝ) - Spec.Activations.gelu x| ≤ |(x : ℝ)| * (1 / 398 + 2 ^ (-(tanhInp f out).F) / 2) := by
  have h1 := y_err f out x
  have h2 := Rat.cast_lt (K := ℝ) |>.2 (t_err hW hf hx)
  rw [Rat.cast_abs, Rat.cast_sub] at h2
  push_cast at h2
  have h3 := tanh_lip (t f out x) (t0 x)
  have h4 := arg_err x
  unfold r Spec.Activations.gelu
  push_cast
  generalize Real.sqrt (2 / Real.pi) * ((x : ℝ) + 0.044715 * (x : ℝ) ^ 3) = T at *
  rw [show 1 / 2 * (x : ℝ) * (1 + (y f out x : ℝ)) - (x : ℝ) / 2 * (1 + Real.tanh T) = (x : ℝ) * (((y f out x : ℝ) - Real.tanh T) / 2) by ring, abs_mul]
  refine mul_le_mul_of_nonneg_left ?_ (abs_nonneg _)
  rw [abs_div, abs_of_pos (by norm_num : (0 : ℝ) < 2)]
  have e := abs_add_le ((y f out x : ℝ) - Real.tanh (t f out x)) (Real.tanh (t f out x) - Real.tanh T)
  have e' := abs_add_le (Real.tanh (t f out x) - Real.tanh (t0 x)) (Real.tanh (t0 x) - Real.tanh T)
  rw [sub_add_sub_cancel] at e e'
  norm_num at h4
  linarith

theorem r_range (f out : Fmt) (x : ℚ) : (0 ≤ x → 0 ≤ r f out x ∧ r f out x ≤ x) ∧ (x ≤ 0 → x ≤ r f out x ∧ r f out x ≤ 0) := by
  obtain ⟨a1, a2, -⟩ := y_range f out x
  unfold r
  generalize y f out x = u at *
  constructor <;> intro h
  · have := mul_nonneg h (by linarith : 0 ≤ 1 + u)
    have := mul_nonneg h (by linarith : 0 ≤ 1 - u)
    constructor <;> linarith
  · have := mul_nonneg (neg_nonneg.2 h) (by linarith : 0 ≤ 1 + u)
    have := mul_nonneg (neg_nonneg.2 h) (by linarith : 0 ≤ 1 - u)
    constructor <;> linarith

/-- Fraction bits of the argument. -/
theorem ti_F {f out : Fmt} (hf : Fits f out) (hIW : f.I ≤ f.W) : 10 ≤ (tanhInp f out).F ∨ f.I < 0 ∧ 6 ≤ (tanhInp f out).F := by
  obtain ⟨h1, h2, -⟩ := hf
  unfold tanhInp Fmt.F
  simp only
  split_ifs <;> omega

theorem t_near {f out : Fmt} (hW : 1 ≤ f.W) (hf : Fits f out) (hIW : f.I ≤ f.W) {x : ℚ} (hx : f.Rep x) : |t f out x - t0 x| < 1 / 64 := by
  have h := t_err hW hf hx
  have hF : 6 ≤ (tanhInp f out).F := by rcases ti_F hf hIW with h | h <;> omega
  have : (2 : ℚ) ^ (-(tanhInp f out).F) ≤ 2 ^ (-6 : ℤ) := Fmt.z_le (by omega)
  rw [show (2 : ℚ) ^ (-6 : ℤ) = 1 / 64 by norm_num] at this
  linarith

theorem t_abs {f out : Fmt} (hW : 1 ≤ f.W) (hf : Fits f out) (hIW : f.I ≤ f.W) {x a b : ℚ} (hx : f.Rep x) (ha : 0 ≤ a) (h0 : a ≤ |x|) (h1 : |x| ≤ b) :
    t0 a - 1 / 64 < |t f out x| ∧ |t f out x| < t0 b + 1 / 64 := by
  have h := t_near hW hf hIW hx
  have e1 := t0_mono ha h0
  have e2 := t0_mono (abs_nonneg x) h1
  rw [← t0_abs] at e1 e2
  have u1 := abs_sub_abs_le_abs_sub (t f out x) (t0 x)
  have u2 := abs_sub_abs_le_abs_sub (t0 x) (t f out x)
  rw [abs_sub_comm (t0 x)] at u2
  constructor <;> linarith

/-- Large inputs: the hyperbolic tangent is at its bound. -/
theorem r_large {f out : Fmt} (hW : 1 ≤ f.W) (hf : Fits f out) (hIW : f.I ≤ f.W) {x : ℚ} (hx : f.Rep x) (h : 3 ≤ |x|) :
    r f out x = if 0 ≤ x then x * (1 - 1 / 2 ^ 21) else x / 2 ^ 21 := by
  have h1 := (t_abs hW hf hIW hx (a := 3) (by norm_num) h le_rfl).1
  have v : (13 / 4 : ℚ) ≤ t0 3 := by decide +kernel
  have hn := t_near hW hf hIW hx
  have hm : Proof.Tanh.mag |t f out x| = 1 - 1 / 2 ^ 20 := by
    unfold Proof.Tanh.mag; rw [if_pos (by linarith)]
  have hlt := abs_lt.1 hn
  unfold r y
  rw [hm]
  by_cases hx0 : 0 ≤ x
  · have e2 := t0_mono (by norm_num) (by rwa [abs_of_nonneg hx0] at h : 3 ≤ x)
    rw [if_neg (by linarith [hlt.1]), if_pos hx0]; ring
  · have hx0' : 0 ≤ -x := by linarith [not_le.1 hx0]
    have e2 := t0_mono (x := 3) (y := -x) (by norm_num) (by rwa [abs_of_neg (not_le.1 hx0)] at h)
    rw [t0_neg] at e2
    rw [if_pos (by linarith [hlt.2]), if_neg hx0]; ring

end Proof.Gelu
