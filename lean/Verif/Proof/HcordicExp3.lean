import Verif.Proof.HcordicExp2

/-! # The error of the reduced exponential with at least 14 bits -/

namespace Proof.Hcordic
open Ac Model.Hcordic

theorem real_bound {u T A K κ xx yc k o : ℝ} (hu : 0 < u) (hu1 : u ≤ 1 / 16384) (hT0 : 0 ≤ Real.exp T) (hT : Real.exp T ≤ 2)
    (hA0 : -(277 / 100 * u) ≤ A - T) (hA1 : A - T ≤ 77 / 100 * u) (hxx : |xx - K * Real.exp A| ≤ 52 / 100 * u)
    (hx0 : 0 ≤ xx) (hK : 0 ≤ K)
    (hKκ : |K * κ - 1| ≤ u / 1000) (hκ0 : 12 / 10 ≤ κ) (hκ1 : κ ≤ 121 / 100) (hy0 : xx - u ≤ yc) (hy1 : yc ≤ xx) (hy : 0 ≤ yc)
    (hk0 : κ - u ≤ k) (hk1 : k ≤ κ) (ho0 : yc * k - u ≤ o) (ho1 : o ≤ yc * k) :
    -(11 * u) ≤ o - Real.exp T ∧ o - Real.exp T ≤ 5 / 2 * u := by
  have hA : Real.exp A = Real.exp T * Real.exp (A - T) := by rw [← Real.exp_add]; congr 1; ring
  have e0 : 1 - 277 / 100 * u ≤ Real.exp (A - T) := by
    have := Real.add_one_le_exp (A - T); linarith
  have e1 : Real.exp (A - T) ≤ 1 + 78 / 100 * u := by
    have h1 := Real.add_one_le_exp (-(A - T))
    have h2 : 1 - 77 / 100 * u ≤ Real.exp (-(A - T)) := by linarith
    have h3 : Real.exp (A - T) * Real.exp (-(A - T)) = 1 := by rw [← Real.exp_add]; simp
    have h4 := mul_le_mul_of_nonneg_left h2 (Real.exp_pos (A - T)).le
    rw [h3] at h4
    by_contra hc
    push Not at hc
    have h5 : (1 + 78 / 100 * u) * (1 - 77 / 100 * u) ≤ Real.exp (A - T) * (1 - 77 / 100 * u) :=
      mul_le_mul_of_nonneg_right hc.le (by linarith)
    nlinarith
  have a0 : Real.exp T * (1 - 277 / 100 * u) ≤ Real.exp A := by rw [hA]; exact mul_le_mul_of_nonneg_left e0 hT0
  have a1 : Real.exp A ≤ Real.exp T * (1 + 78 / 100 * u) := by rw [hA]; exact mul_le_mul_of_nonneg_left e1 hT0
  have a2 : Real.exp A ≤ 2.001 := by
    have : Real.exp T * (1 + 78 / 100 * u) ≤ 2 * (1 + 78 / 100 * u) := mul_le_mul_of_nonneg_right hT (by linarith)
    linarith
  have ap := (Real.exp_pos A).le
  obtain ⟨x0, x1⟩ := abs_le.1 hxx
  obtain ⟨c0, c1⟩ := abs_le.1 hKκ
  set E := Real.exp A
  set G := Real.exp T
  have m1 : K * E * κ ≤ (1 + u / 1000) * E := by
    have := mul_le_mul_of_nonneg_right (show K * κ ≤ 1 + u / 1000 by linarith) ap
    linarith
  have m0 : (1 - u / 1000) * E ≤ K * E * κ := by
    have := mul_le_mul_of_nonneg_right (show 1 - u / 1000 ≤ K * κ by linarith) ap
    linarith
  have ue : u * E ≤ 2.001 * u := by nlinarith
  have uG : u * G ≤ 2 * u := by nlinarith
  have κp : 0 ≤ κ := by linarith
  have xk1 : xx * κ ≤ K * E * κ + 52 / 100 * u * (121 / 100) := by
    have h1 := mul_le_mul_of_nonneg_right (show xx ≤ K * E + 52 / 100 * u by linarith) κp
    have h2 : 52 / 100 * u * κ ≤ 52 / 100 * u * (121 / 100) := mul_le_mul_of_nonneg_left hκ1 (by linarith)
    linarith
  have xk0 : K * E * κ - 52 / 100 * u * (121 / 100) ≤ xx * κ := by
    have h1 := mul_le_mul_of_nonneg_right (show K * E - 52 / 100 * u ≤ xx by linarith) κp
    have h2 : 52 / 100 * u * κ ≤ 52 / 100 * u * (121 / 100) := mul_le_mul_of_nonneg_left hκ1 (by linarith)
    linarith
  have xx1 : xx ≤ 1.7 := by
    have h1 : xx * (12 / 10) ≤ xx * κ := mul_le_mul_of_nonneg_left hκ0 hx0
    linarith
  have up : yc * k ≤ xx * κ := mul_le_mul hy1 hk1 (by linarith) hx0
  have lo : xx * κ - (121 / 100) * u - 1.7 * u ≤ yc * k := by
    have h1 : yc * (κ - u) ≤ yc * k := mul_le_mul_of_nonneg_left hk0 hy
    have h2 : (xx - u) * (κ - u) ≤ yc * (κ - u) := mul_le_mul_of_nonneg_right hy0 (by linarith)
    have h3 : u * κ ≤ u * (121 / 100) := mul_le_mul_of_nonneg_left hκ1 hu.le
    have h4 : u * xx ≤ u * 1.7 := mul_le_mul_of_nonneg_left xx1 hu.le
    nlinarith
  constructor <;> linarith

theorem fine_all : Proof.Pwl.allLt 46 (fun f => decide (f < 14) || decide (
    51200 * cz f + 51300 * (iters f : ℤ) ≤ 76 * 512 * 2 ^ (fz f - f) ∧ 100 * (iters f + 2) ≤ 52 * 2 ^ (fz f - f) ∧
    |kp (iters f) * ((invKRaw : ℚ) / 2 ^ 158) ^ 2 - 1| ≤ 1 / 2 ^ f / 1000)) = true := by decide +kernel

theorem fine {f : ℕ} (h : 14 ≤ f) (h45 : f ≤ 45) : 51200 * cz f + 51300 * (iters f : ℤ) ≤ 76 * 512 * 2 ^ (fz f - f) ∧
    100 * (iters f + 2) ≤ 52 * 2 ^ (fz f - f) ∧ |kp (iters f) * ((invKRaw : ℚ) / 2 ^ 158) ^ 2 - 1| ≤ 1 / 2 ^ f / 1000 := by
  have := Proof.Pwl.allLt_iff.1 fine_all f (by omega)
  rw [Bool.or_eq_true] at this
  rcases this with h | h
  · exact absurd (of_decide_eq_true h) (by omega)
  · exact of_decide_eq_true h

theorem kappa : (12 : ℝ) / 10 ≤ (invKRaw : ℝ) / 2 ^ 158 ∧ (invKRaw : ℝ) / 2 ^ 158 ≤ 121 / 100 := by
  have h : (12 : ℚ) / 10 ≤ (invKRaw : ℚ) / 2 ^ 158 ∧ (invKRaw : ℚ) / 2 ^ 158 ≤ 121 / 100 := by decide +kernel
  have h1 := Rat.cast_le (K := ℝ) |>.2 h.1
  have h2 := Rat.cast_le (K := ℝ) |>.2 h.2
  rw [Rat.cast_div, Rat.cast_div, Rat.cast_pow, Rat.cast_intCast, Rat.cast_ofNat, Rat.cast_ofNat, Rat.cast_ofNat] at h1 h2
  exact ⟨h1, h2⟩

theorem eo_err {f : ℕ} (h14 : 14 ≤ f) (h45 : f ≤ 45) {Z : ℤ} (hZ : |Z| ≤ 2 ^ f) {T : ℝ} (hT : Real.exp T ≤ 2)
    (hT0 : -(1 / 2) ≤ T)
    (hz0 : T - 2.01 * (1 / 2 ^ f) ≤ (Z : ℝ) * (1 / 2 ^ f)) (hz1 : (Z : ℝ) * (1 / 2 ^ f) ≤ T + 0.01 * (1 / 2 ^ f)) :
    -(11 * (1 / 2 ^ f)) ≤ (eo f Z : ℝ) * (1 / 2 ^ f) - Real.exp T ∧ (eo f Z : ℝ) * (1 / 2 ^ f) - Real.exp T ≤ 5 / 2 * (1 / 2 ^ f) := by
  obtain ⟨a, b, c, d, -⟩ := z_facts (show 3 ≤ f by omega) h45
  obtain ⟨f1, f2, f3⟩ := fine h14 h45
  obtain ⟨A, hA⟩ := zrun_inv (by omega) h45 hZ (le_refl (iters f))
  obtain ⟨k0, k1, u1, u2, e0, e1⟩ := bounds (show iters f ≤ 60 by omega)
  obtain ⟨κ0, κ1⟩ := kappa
  have hFf : (2 : ℝ) ^ fz f = 2 ^ f * 2 ^ (fz f - f) := by rw [← pow_add]; congr 1; omega
  have hG : (0 : ℝ) < 2 ^ (fz f - f) := by positivity
  have hpf : (0 : ℝ) < 2 ^ f := by positivity
  set u : ℝ := 1 / 2 ^ f with hu
  have hu0 : 0 < u := by positivity
  have hu1 : u ≤ 1 / 16384 := by
    rw [hu, show (16384 : ℝ) = 2 ^ 14 by norm_num]
    exact one_div_le_one_div_of_le (by positivity) (pow_le_pow_right₀ (by norm_num) h14)
  have huf : u * 2 ^ f = 1 := by rw [hu]; field_simp
  set s := zrun f Z (iters f) with hs
  set w : ℝ := 1 / 2 ^ fz f with hw
  have hw0 : 0 < w := by positivity
  have hwF : w * 2 ^ fz f = 1 := by rw [hw]; field_simp
  have hwu : w * 2 ^ (fz f - f) = u := by rw [hw, hu, hFf]; field_simp
  -- the angle
  have zb : |(s.z : ℝ)| ≤ (cz f : ℝ) := by
    have := hA.z
    simp only [rz, sub_self, add_zero] at this
    have h2 := Int.cast_le (R := ℝ) |>.2 this
    rwa [Int.cast_abs] at h2
  have zA := hA.zA
  have tot : |(Z : ℝ) * 2 ^ (fz f - f) - 2 ^ fz f * A| ≤ 76 / 100 * 2 ^ (fz f - f) := by
    have t1 := abs_add_le (((Z * 2 ^ (fz f - f) : ℤ) : ℝ) - s.z - 2 ^ fz f * A) s.z
    have f1' : (51200 : ℝ) * cz f + 51300 * (iters f : ℝ) ≤ 76 * 512 * 2 ^ (fz f - f) := by exact_mod_cast f1
    have e : ((Z * 2 ^ (fz f - f) : ℤ) : ℝ) - s.z - 2 ^ fz f * A + s.z = (Z : ℝ) * 2 ^ (fz f - f) - 2 ^ fz f * A := by push_cast; ring
    rw [e] at t1
    linarith
  have angle : |(Z : ℝ) * u - A| ≤ 76 / 100 * u := by
    have h1 := mul_le_mul_of_nonneg_left tot hw0.le
    rw [← abs_of_pos hw0, ← abs_mul, abs_of_pos hw0] at h1
    have e1 : w * ((Z : ℝ) * 2 ^ (fz f - f) - 2 ^ fz f * A) = (Z : ℝ) * u - A := by
      rw [mul_sub, ← hwu, ← mul_assoc, ← mul_assoc w, hwF]; ring
    have e2 : w * (76 / 100 * 2 ^ (fz f - f)) = 76 / 100 * u := by rw [← hwu]; ring
    rwa [e1, e2] at h1
  obtain ⟨g0, g1⟩ := abs_le.1 angle
  -- the product
  have hx := hA.x
  have e1' : ((eb (iters f) : ℚ) : ℝ) ≤ (iters f : ℝ) + 2 := by
    have := Rat.cast_le (K := ℝ) |>.2 e1
    push_cast at this; exact this
  have f2' : 100 * ((iters f : ℝ) + 2) ≤ 52 * 2 ^ (fz f - f) := by exact_mod_cast f2
  have xb : |(s.y : ℝ) * w - Real.sqrt (kp (iters f)) * Real.exp A| ≤ 52 / 100 * u := by
    have h1 := mul_le_mul_of_nonneg_left (hx.trans (e1'.trans (show (iters f : ℝ) + 2 ≤ 52 / 100 * 2 ^ (fz f - f) by linarith))) hw0.le
    rw [← abs_of_pos hw0, ← abs_mul, abs_of_pos hw0] at h1
    have e1 : w * ((s.y : ℝ) - 2 ^ fz f * (Real.sqrt (kp (iters f)) * Real.exp A)) =
        (s.y : ℝ) * w - Real.sqrt (kp (iters f)) * Real.exp A := by
      rw [mul_sub, ← mul_assoc, hwF]; ring
    have e2 : w * (52 / 100 * 2 ^ (fz f - f)) = 52 / 100 * u := by rw [← hwu]; ring
    rwa [e1, e2] at h1
  set K := Real.sqrt (kp (iters f)) with hKd
  have hK0 : 0 ≤ K := Real.sqrt_nonneg _
  set κ : ℝ := (invKRaw : ℝ) / 2 ^ 158 with hκ
  have hKκ : |K * κ - 1| ≤ u / 1000 := by
    have h1 := Rat.cast_le (K := ℝ) |>.2 f3
    rw [Rat.cast_abs, Rat.cast_sub, Rat.cast_mul, Rat.cast_pow, Rat.cast_div, Rat.cast_div, Rat.cast_div, Rat.cast_pow, Rat.cast_pow,
      Rat.cast_intCast, Rat.cast_one, Rat.cast_ofNat, Rat.cast_ofNat, ← hκ, ← hu] at h1
    have hsq : ((kp (iters f) : ℚ) : ℝ) = K ^ 2 := (Real.sq_sqrt (by exact_mod_cast k0.le)).symm
    rw [hsq, show K ^ 2 * κ ^ 2 - 1 = (K * κ - 1) * (K * κ + 1) by ring, abs_mul] at h1
    have h2 : 1 ≤ |K * κ + 1| := by
      have : 0 ≤ K * κ := mul_nonneg hK0 (by linarith)
      rw [abs_of_nonneg (by linarith)]; linarith
    have h3 := mul_le_mul_of_nonneg_left h2 (abs_nonneg (K * κ - 1))
    linarith
  -- lower bound of the product
  have hKlow : 1 / 2 ≤ K := by
    obtain ⟨c0, -⟩ := abs_le.1 hKκ
    have : K * κ ≤ K * (121 / 100) := mul_le_mul_of_nonneg_left κ1 hK0
    nlinarith
  have hElow : 1 / 2 - 3 * u ≤ Real.exp A := by
    have := Real.add_one_le_exp A
    linarith
  have xlow : 2 * u ≤ (s.y : ℝ) * w := by
    have h1 : 1 / 2 * (1 / 2 - 3 * u) ≤ K * Real.exp A := mul_le_mul hKlow hElow (by linarith) hK0
    have := (abs_le.1 xb).1
    linarith
  -- the roundings
  have d1 := div_near s.y (fz f - f)
  set q := s.y / 2 ^ (fz f - f) with hq
  have q1 : (q : ℝ) * u ≤ (s.y : ℝ) * w := by
    have := mul_le_mul_of_nonneg_right d1.2 hu0.le
    have e : (s.y : ℝ) * (1 / 2 ^ (fz f - f)) * u = (s.y : ℝ) * w := by rw [← hwu]; field_simp
    linarith
  have q0 : (s.y : ℝ) * w - u ≤ (q : ℝ) * u := by
    have := mul_le_mul_of_nonneg_right d1.1 hu0.le
    have e : (s.y : ℝ) * (1 / 2 ^ (fz f - f)) * u = (s.y : ℝ) * w := by rw [← hwu]; field_simp
    linarith
  have d2 := div_near invKRaw (158 - f)
  have kk1 : (kk f : ℝ) * u ≤ κ ∧ κ - u ≤ (kk f : ℝ) * u := by
    have e : (invKRaw : ℝ) * (1 / 2 ^ (158 - f)) * u = κ := by
      rw [hκ, hu, show (2 : ℝ) ^ 158 = 2 ^ (158 - f) * 2 ^ f by rw [← pow_add]; congr 1; omega]
      field_simp
    have h1 := mul_le_mul_of_nonneg_right d2.2 hu0.le
    have h2 := mul_le_mul_of_nonneg_right d2.1 hu0.le
    unfold kk
    constructor <;> linarith
  have d3 := div_near (q * kk f) f
  have he : eo f Z = q * kk f / 2 ^ f := by unfold eo; rfl
  have o1 : (eo f Z : ℝ) * u ≤ (q : ℝ) * u * ((kk f : ℝ) * u) := by
    rw [he]
    have := mul_le_mul_of_nonneg_right d3.2 hu0.le
    push_cast at this ⊢
    rw [← hu] at this
    linarith
  have o0 : (q : ℝ) * u * ((kk f : ℝ) * u) - u ≤ (eo f Z : ℝ) * u := by
    rw [he]
    have := mul_le_mul_of_nonneg_right d3.1 hu0.le
    push_cast at this ⊢
    rw [← hu] at this
    linarith
  exact real_bound hu0 hu1 (Real.exp_pos T).le hT (by linarith) (by linarith) xb (by linarith) hK0 hKκ κ0 κ1 q0 q1 (by linarith)
    kk1.2 kk1.1 o0 o1

end Proof.Hcordic
