import Verif.Ac.Arith
import Mathlib.Analysis.SpecialFunctions.Pow.Real
import Mathlib.Analysis.Convex.SpecificFunctions.Basic
import Mathlib.Analysis.SpecialFunctions.Trigonometric.Arctan
import Mathlib.Analysis.SpecialFunctions.Trigonometric.ArctanDeriv
import Mathlib.Analysis.Complex.Exponential
import Mathlib.Tactic.Linarith

/-! # Bounds for functions applied one after the other -/

namespace Proof.RoundTrip
open Ac

/-- A number within the range of a signed type is stored with an error of less than a unit. -/
theorem near_signed {f : Fmt} (hW : 1 ≤ f.W) (hS : f.S = true) {x : ℚ} (h : |x| ≤ f.maxVal) :
    |((f.cvt x : ℚ) : ℝ) - x| < 2 ^ (-f.F) := by
  obtain ⟨h1, h2⟩ := abs_le.1 h
  have hz := Fmt.z_pos f.F
  have m1 := mul_le_mul_of_nonneg_right h1 hz.le
  have m2 := mul_le_mul_of_nonneg_right h2 hz.le
  rw [neg_mul] at m1
  unfold Fmt.maxVal at m1 m2
  rw [Fmt.val_mul_pow] at m1 m2
  have hlo : ((loRaw f.W f.S f.O : ℤ) : ℚ) ≤ -((maxRaw f.W f.S : ℤ) : ℚ) := by
    have : loRaw f.W f.S f.O ≤ -maxRaw f.W f.S := by
      unfold loRaw minRaw maxRaw
      simp only [hS, if_true]
      split_ifs <;> omega
    exact_mod_cast this
  have e := Fmt.cvt_err hW (le_trans hlo m1) m2
  have e' := (Rat.cast_lt (K := ℝ)).2 e
  push_cast at e'
  exact e'

/-- A nonnegative number within the range of a type is stored with an error of less than a unit. -/
theorem near_pos {f : Fmt} (hW : 1 ≤ f.W) {x : ℚ} (h0 : 0 ≤ x) (h : x ≤ f.maxVal) :
    |((f.cvt x : ℚ) : ℝ) - x| < 2 ^ (-f.F) := by
  have hz := Fmt.z_pos f.F
  have m2 := mul_le_mul_of_nonneg_right h hz.le
  unfold Fmt.maxVal at m2
  rw [Fmt.val_mul_pow] at m2
  have hlo : ((loRaw f.W f.S f.O : ℤ) : ℚ) ≤ x * 2 ^ f.F := by
    have h1 : ((loRaw f.W f.S f.O : ℤ) : ℚ) ≤ 0 := by exact_mod_cast loRaw_nonpos _ _ _
    have h2 : 0 ≤ x * 2 ^ f.F := mul_nonneg h0 hz.le
    linarith
  have e := Fmt.cvt_err hW hlo m2
  have e' := (Rat.cast_lt (K := ℝ)).2 e
  push_cast at e'
  exact e'

theorem two_pow_near {d δ : ℝ} (h : |d| ≤ δ) (h1 : δ ≤ 1) : |(2 : ℝ) ^ d - 1| ≤ δ := by
  have key : ∀ p : ℝ, 0 ≤ p → p ≤ 1 → (2 : ℝ) ^ p ≤ 1 + p := by
    intro p hp hp1
    have := _root_.rpow_one_add_le_one_add_mul_self (s := 1) (by norm_num) hp hp1
    norm_num at this
    linarith
  obtain ⟨h2, h3⟩ := abs_le.1 h
  rcases le_or_gt 0 d with hd | hd
  · have k1 := key d hd (by linarith)
    have k2 := Real.one_le_rpow (x := 2) (by norm_num) hd
    rw [abs_of_nonneg (by linarith)]
    linarith
  · have k1 := key (-d) (by linarith) (by linarith)
    have hpos := Real.rpow_pos_of_pos (x := 2) (by norm_num) d
    have k2 : (2 : ℝ) ^ d ≤ 1 := Real.rpow_le_one_of_one_le_of_nonpos (by norm_num) hd.le
    have e : (2 : ℝ) ^ d * 2 ^ (-d) = 1 := by rw [← Real.rpow_add (by norm_num)]; simp
    have k3 := mul_le_mul_of_nonneg_left k1 hpos.le
    rw [e] at k3
    rw [abs_of_nonpos (by linarith)]
    have : (2 : ℝ) ^ d * (1 + -d) ≤ 2 ^ d + -d := by
      have := mul_le_mul_of_nonneg_right k2 (show 0 ≤ -d by linarith)
      linarith
    linarith

theorem exp_near {d δ : ℝ} (h : |d| ≤ δ) (h1 : δ ≤ 1) : |Real.exp d - 1| ≤ δ + δ ^ 2 := by
  have h2 := Real.abs_exp_sub_one_sub_id_le (x := d) (h.trans h1)
  have h3 : d ^ 2 ≤ δ ^ 2 := by
    rw [← sq_abs d]
    exact pow_le_pow_left₀ (abs_nonneg _) h 2
  calc |Real.exp d - 1| = |(Real.exp d - 1 - d) + d| := by ring_nf
    _ ≤ |Real.exp d - 1 - d| + |d| := abs_add_le _ _
    _ ≤ _ := by linarith

/-- From a relative error of the first result and one of the second. -/
theorem compose {x e z δ ε : ℝ} (hx : 0 < x) (h1 : |e / x - 1| ≤ δ) (h2 : |z - e| ≤ e * ε) (hε : 0 ≤ ε) :
    |z - x| ≤ x * (δ + ε + δ * ε) := by
  have h3 : |e - x| ≤ x * δ := by
    have : e - x = x * (e / x - 1) := by field_simp
    rw [this, abs_mul, abs_of_pos hx]
    exact mul_le_mul_of_nonneg_left h1 hx.le
  have h4 : e ≤ x * (1 + δ) := by linarith [(abs_le.1 h3).2]
  have h5 := mul_le_mul_of_nonneg_right h4 hε
  calc |z - x| = |(z - e) + (e - x)| := by ring_nf
    _ ≤ |z - e| + |e - x| := abs_add_le _ _
    _ ≤ x * (1 + δ) * ε + x * δ := by linarith
    _ = _ := by ring

theorem arctan_lip (a b : ℝ) : |Real.arctan a - Real.arctan b| ≤ |a - b| := by
  have := Convex.norm_image_sub_le_of_norm_deriv_le (f := Real.arctan) (C := 1) (s := Set.univ) (x := b) (y := a)
    (fun x _ => Real.differentiableAt_arctan x) (fun x _ => by
      rw [Real.deriv_arctan, Real.norm_eq_abs, abs_of_nonneg (by positivity)]
      rw [div_le_one (by positivity)]
      nlinarith [sq_nonneg x]) convex_univ (Set.mem_univ _) (Set.mem_univ _)
  simpa [Real.norm_eq_abs] using this

theorem sin_lip (a b : ℝ) : |Real.sin a - Real.sin b| ≤ |a - b| := by
  have := Convex.norm_image_sub_le_of_norm_deriv_le (f := Real.sin) (C := 1) (s := Set.univ) (x := b) (y := a)
    (fun x _ => Real.differentiableAt_sin) (fun x _ => by
      rw [Real.deriv_sin, Real.norm_eq_abs]; exact Real.abs_cos_le_one x) convex_univ (Set.mem_univ _) (Set.mem_univ _)
  simpa [Real.norm_eq_abs] using this

/-- Squares of a sine and a cosine with errors. -/
theorem pythagoras {s c a e : ℝ} (h1 : |s - Real.sin a| ≤ e) (h2 : |c - Real.cos a| ≤ e) :
    |s ^ 2 + c ^ 2 - 1| ≤ 4 * e + 2 * e ^ 2 := by
  have hs := Real.abs_sin_le_one a
  have hc := Real.abs_cos_le_one a
  have e0 : 0 ≤ e := (abs_nonneg _).trans h1
  have k : ∀ u v : ℝ, |u - v| ≤ e → |v| ≤ 1 → |u ^ 2 - v ^ 2| ≤ 2 * e + e ^ 2 := by
    intro u v h hv
    have e1 : u ^ 2 - v ^ 2 = (u - v) * (u - v) + 2 * (v * (u - v)) := by ring
    have h3 := abs_add_le ((u - v) * (u - v)) (2 * (v * (u - v)))
    have h4 : |(u - v) * (u - v)| ≤ e * e := by rw [abs_mul]; exact mul_le_mul h h (abs_nonneg _) e0
    have h5 : |v * (u - v)| ≤ 1 * e := by rw [abs_mul]; exact mul_le_mul hv h (abs_nonneg _) (by norm_num)
    have h6 : |2 * (v * (u - v))| = 2 * |v * (u - v)| := by rw [abs_mul]; norm_num
    rw [e1]
    nlinarith [h3, h4, h5, h6]
  have k1 := k s _ h1 hs
  have k2 := k c _ h2 hc
  have id := Real.sin_sq_add_cos_sq a
  have e2 : s ^ 2 + c ^ 2 - 1 = (s ^ 2 - Real.sin a ^ 2) + (c ^ 2 - Real.cos a ^ 2) := by linarith
  rw [e2]
  have := abs_add_le (s ^ 2 - Real.sin a ^ 2) (c ^ 2 - Real.cos a ^ 2)
  linarith

end Proof.RoundTrip
