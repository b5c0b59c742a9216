import Verif.Proof.ArcsinTiny

/-! # The checks of the arcsine and the arccosine for few fraction bits -/

namespace Proof.Arcsin
open Proof.Pwl (allLt)

set_option maxRecDepth 100000

theorem sin1 : ∀ n ≤ 2 ^ (2 * 1 + 2), chkSin 1 n = true := by
  have h : allLt 17 (chkSin 1) = true := by decide +kernel
  intro n hn
  exact Proof.Pwl.allLt_iff.1 h n (by norm_num at hn; omega)

theorem sin2 : ∀ n ≤ 2 ^ (2 * 2 + 2), chkSin 2 n = true := by
  have h : allLt 65 (chkSin 2) = true := by decide +kernel
  intro n hn
  exact Proof.Pwl.allLt_iff.1 h n (by norm_num at hn; omega)

theorem sin3 : ∀ n ≤ 2 ^ (2 * 3 + 2), chkSin 3 n = true := by
  have h : allLt 257 (chkSin 3) = true := by decide +kernel
  intro n hn
  exact Proof.Pwl.allLt_iff.1 h n (by norm_num at hn; omega)

theorem sin4_0 : allLt 256 (fun k => chkSin 4 (256 * 0 + k)) = true := by decide +kernel
theorem sin4_1 : allLt 256 (fun k => chkSin 4 (256 * 1 + k)) = true := by decide +kernel
theorem sin4_2 : allLt 256 (fun k => chkSin 4 (256 * 2 + k)) = true := by decide +kernel
theorem sin4_3 : allLt 256 (fun k => chkSin 4 (256 * 3 + k)) = true := by decide +kernel
theorem sin4_last : chkSin 4 1024 = true := by decide +kernel

theorem sin4 : ∀ n ≤ 2 ^ (2 * 4 + 2), chkSin 4 n = true := by
  have h : ∀ k < 256 * 4, chkSin 4 k = true := by
    refine Proof.Pwl.chunks 256 (c := 4) (by norm_num) ?_
    intro j hj
    interval_cases j
    · exact sin4_0
    · exact sin4_1
    · exact sin4_2
    · exact sin4_3
  intro n hn
  by_cases c : n < 1024
  · exact h n (by omega)
  · have : n = 1024 := by norm_num at hn; omega
    rw [this]; exact sin4_last

theorem sin5_0 : allLt 256 (fun k => chkSin 5 (256 * 0 + k)) = true := by decide +kernel
theorem sin5_1 : allLt 256 (fun k => chkSin 5 (256 * 1 + k)) = true := by decide +kernel
theorem sin5_2 : allLt 256 (fun k => chkSin 5 (256 * 2 + k)) = true := by decide +kernel
theorem sin5_3 : allLt 256 (fun k => chkSin 5 (256 * 3 + k)) = true := by decide +kernel
theorem sin5_4 : allLt 256 (fun k => chkSin 5 (256 * 4 + k)) = true := by decide +kernel
theorem sin5_5 : allLt 256 (fun k => chkSin 5 (256 * 5 + k)) = true := by decide +kernel
theorem sin5_6 : allLt 256 (fun k => chkSin 5 (256 * 6 + k)) = true := by decide +kernel
theorem sin5_7 : allLt 256 (fun k => chkSin 5 (256 * 7 + k)) = true := by decide +kernel
theorem sin5_8 : allLt 256 (fun k => chkSin 5 (256 * 8 + k)) = true := by decide +kernel
theorem sin5_9 : allLt 256 (fun k => chkSin 5 (256 * 9 + k)) = true := by decide +kernel
theorem sin5_10 : allLt 256 (fun k => chkSin 5 (256 * 10 + k)) = true := by decide +kernel
theorem sin5_11 : allLt 256 (fun k => chkSin 5 (256 * 11 + k)) = true := by decide +kernel
theorem sin5_12 : allLt 256 (fun k => chkSin 5 (256 * 12 + k)) = true := by decide +kernel
theorem sin5_13 : allLt 256 (fun k => chkSin 5 (256 * 13 + k)) = true := by decide +kernel
theorem sin5_14 : allLt 256 (fun k => chkSin 5 (256 * 14 + k)) = true := by decide +kernel
theorem sin5_15 : allLt 256 (fun k => chkSin 5 (256 * 15 + k)) = true := by decide +kernel
theorem sin5_last : chkSin 5 4096 = true := by decide +kernel

theorem sin5 : ∀ n ≤ 2 ^ (2 * 5 + 2), chkSin 5 n = true := by
  have h : ∀ k < 256 * 16, chkSin 5 k = true := by
    refine Proof.Pwl.chunks 256 (c := 16) (by norm_num) ?_
    intro j hj
    interval_cases j
    · exact sin5_0
    · exact sin5_1
    · exact sin5_2
    · exact sin5_3
    · exact sin5_4
    · exact sin5_5
    · exact sin5_6
    · exact sin5_7
    · exact sin5_8
    · exact sin5_9
    · exact sin5_10
    · exact sin5_11
    · exact sin5_12
    · exact sin5_13
    · exact sin5_14
    · exact sin5_15
  intro n hn
  by_cases c : n < 4096
  · exact h n (by omega)
  · have : n = 4096 := by norm_num at hn; omega
    rw [this]; exact sin5_last

theorem cos1 : ∀ n ≤ 2 ^ (2 * 1 + 2), chkCos 1 n = true := by
  have h : allLt 17 (chkCos 1) = true := by decide +kernel
  intro n hn
  exact Proof.Pwl.allLt_iff.1 h n (by norm_num at hn; omega)

theorem cos2 : ∀ n ≤ 2 ^ (2 * 2 + 2), chkCos 2 n = true := by
  have h : allLt 65 (chkCos 2) = true := by decide +kernel
  intro n hn
  exact Proof.Pwl.allLt_iff.1 h n (by norm_num at hn; omega)

theorem cos3 : ∀ n ≤ 2 ^ (2 * 3 + 2), chkCos 3 n = true := by
  have h : allLt 257 (chkCos 3) = true := by decide +kernel
  intro n hn
  exact Proof.Pwl.allLt_iff.1 h n (by norm_num at hn; omega)

theorem cos4_0 : allLt 256 (fun k => chkCos 4 (256 * 0 + k)) = true := by decide +kernel
theorem cos4_1 : allLt 256 (fun k => chkCos 4 (256 * 1 + k)) = true := by decide +kernel
theorem cos4_2 : allLt 256 (fun k => chkCos 4 (256 * 2 + k)) = true := by decide +kernel
theorem cos4_3 : allLt 256 (fun k => chkCos 4 (256 * 3 + k)) = true := by decide +kernel
theorem cos4_last : chkCos 4 1024 = true := by decide +kernel

theorem cos4 : ∀ n ≤ 2 ^ (2 * 4 + 2), chkCos 4 n = true := by
  have h : ∀ k < 256 * 4, chkCos 4 k = true := by
    refine Proof.Pwl.chunks 256 (c := 4) (by norm_num) ?_
    intro j hj
    interval_cases j
    · exact cos4_0
    · exact cos4_1
    · exact cos4_2
    · exact cos4_3
  intro n hn
  by_cases c : n < 1024
  · exact h n (by omega)
  · have : n = 1024 := by norm_num at hn; omega
    rw [this]; exact cos4_last

theorem sin_few {h : ℕ} (h1 : 1 ≤ h) (h5 : h ≤ 5) : ∀ n ≤ 2 ^ (2 * h + 2), chkSin h n = true := by
  interval_cases h
  · exact sin1
  · exact sin2
  · exact sin3
  · exact sin4
  · exact sin5

theorem cos_few {h : ℕ} (h1 : 1 ≤ h) (h4 : h ≤ 4) : ∀ n ≤ 2 ^ (2 * h + 2), chkCos h n = true := by
  interval_cases h
  · exact cos1
  · exact cos2
  · exact cos3
  · exact cos4

/-! ### All widths -/

open Ac Model.Arcsin

theorem sqrt_ge {h : ℕ} (h1 : 1 ≤ h) : 3 / 2 ≤ √(2 * (h : ℝ) + 1) := by
  refine Real.le_sqrt_of_sq_le ?_
  have : (1 : ℝ) ≤ h := by exact_mod_cast h1
  norm_num; linarith

theorem three_quarters {h : ℕ} (h1 : 1 ≤ h) : (3 : ℝ) / 4 / 2 ^ h ≤ √(2 * h + 1) / 2 / 2 ^ h + 8 / 5 * (h + 1) ^ 2 / 4 ^ h + 1 / 2 ^ 117 := by
  have h2 := sqrt_ge h1
  have h3 : (3 : ℝ) / 4 / 2 ^ h ≤ √(2 * h + 1) / 2 / 2 ^ h := div_le_div_of_nonneg_right (by linarith) (by positivity)
  have h4 : (0 : ℝ) ≤ 8 / 5 * (h + 1) ^ 2 / 4 ^ h := by positivity
  have h5 : (0 : ℝ) ≤ 1 / 2 ^ 117 := by positivity
  linarith

/-- The error for all widths, and room for rounding it. -/
theorem sin_all {o : Fmt} {h : ℕ} (hF : o.F = h) (h1 : 1 ≤ h) (h2 : h ≤ 64) {t : ℚ} (ht : |t| ≤ 1) :
    ∃ r : ℚ, arcsin o t = some (o.cvt r) ∧ (o.S = true → 1 ≤ o.I → 3 ≤ o.W → |o.cvt r - r| < 1 / 2 ^ h) ∧
      |(r : ℝ) - Real.arcsin t / Real.pi| ≤ (3 / 2 * √(2 * h + 1) + 1) / 2 ^ h + 8 / 5 * (h + 1) ^ 2 / 4 ^ h + 1 / 2 ^ 117 := by
  have hp := pF_eq hF
  have hs := sqrt_ge h1
  have hb : (0 : ℝ) ≤ 8 / 5 * (h + 1) ^ 2 / 4 ^ h := by positivity
  have h117 : (0 : ℝ) ≤ 1 / 2 ^ 117 := by positivity
  have h2h : (0 : ℝ) < 2 ^ h := by positivity
  have hx := arcsin_half ((t : ℚ) : ℝ)
  have key : ∀ {r : ℚ} {e : ℝ}, |(r : ℝ) - Real.arcsin t / Real.pi| ≤ e → (1 / 2 + e) * 2 ^ h ≤ 2 ^ (o.W - 1) - 1 → o.S = true → 1 ≤ o.I →
      |o.cvt r - r| < 1 / 2 ^ h := by
    intro r e hr he hS hI
    refine signed_err hF hS hI ?_
    have h1 : |(r : ℝ)| ≤ 1 / 2 + e := by
      rw [abs_le] at *
      constructor <;> linarith
    have h2 := (mul_le_mul_of_nonneg_right h1 h2h.le).trans he
    exact_mod_cast h2
  by_cases c5 : h ≤ 5
  · obtain ⟨r, r1, -, r3⟩ := sin_tiny hp h1 c5 (sin_few h1 c5) ht
    refine ⟨r, r1, fun hS hI hW => key r3 ?_ hS hI, r3.trans ?_⟩
    · have hFd : o.F = o.W - o.I := rfl
      have e : (1 / 2 + 3 / 4 / 2 ^ h) * (2 : ℝ) ^ h = 2 ^ h / 2 + 3 / 4 := by field_simp
      rw [e]
      by_cases c1 : h = 1
      · have : (2 : ℝ) ^ 2 ≤ 2 ^ (o.W - 1) := pow_le_pow_right₀ (by norm_num) (by omega)
        rw [c1]; norm_num at this ⊢; linarith
      · have p1 : (2 : ℝ) ^ h ≤ 2 ^ (o.W - 1) := pow_le_pow_right₀ (by norm_num) (by omega)
        have p2 : (2 : ℝ) ^ 2 ≤ 2 ^ h := pow_le_pow_right₀ (by norm_num) (by omega)
        norm_num at p2
        linarith
    · have : (3 : ℝ) / 4 / 2 ^ h ≤ (3 / 2 * √(2 * h + 1) + 1) / 2 ^ h := div_le_div_of_nonneg_right (by linarith) h2h.le
      linarith
  by_cases c10 : h ≤ 10
  · obtain ⟨r, r1, -, r3⟩ := sin_small hp (by omega) c10 ht
    refine ⟨r, r1, fun hS hI _ => key r3 (room hF (by omega) hI (errN_small (by omega))) hS hI, r3.trans ?_⟩
    rw [errN_eq, add_div]
    have : (1 : ℝ) / 2 ^ 10 ≤ 1 / 2 ^ h := one_div_le_one_div_of_le h2h (pow_le_pow_right₀ (by norm_num) c10)
    linarith
  · obtain ⟨r, r1, -, r3⟩ := sin_main hp (by omega) h2 ht
    refine ⟨r, r1, fun hS hI _ => key r3 (room hF (by omega) hI (errS_small (by omega))) hS hI, r3.trans ?_⟩
    rw [errS_eq]
    have q1 : (√(2 * (h : ℝ) + 1) / 2 + 1 / 3) / 2 ^ h ≤ (3 / 2 * √(2 * h + 1) + 1) / 2 ^ h := div_le_div_of_nonneg_right (by linarith) h2h.le
    have q2 : (2 * (h : ℝ) + 1) / 4 ^ h ≤ 8 / 5 * (h + 1) ^ 2 / 4 ^ h := by
      refine div_le_div_of_nonneg_right ?_ (by positivity)
      have : (1 : ℝ) ≤ h := by exact_mod_cast h1
      nlinarith
    linarith

theorem sin_all_out {o : Fmt} {h : ℕ} (hF : o.F = h) (h1 : 1 ≤ h) (h2 : h ≤ 64) (hS : o.S = true) (hI : 1 ≤ o.I) (hW : 3 ≤ o.W)
    {t : ℚ} (ht : |t| ≤ 1) : ∃ z : ℚ, arcsin o t = some z ∧
      |(z : ℝ) - Real.arcsin t / Real.pi| ≤ (3 / 2 * √(2 * h + 1) + 2) / 2 ^ h + 8 / 5 * (h + 1) ^ 2 / 4 ^ h + 1 / 2 ^ 117 := by
  obtain ⟨r, r1, r2, r3⟩ := sin_all hF h1 h2 ht
  refine ⟨_, r1, ?_⟩
  have h3 := Rat.cast_lt (K := ℝ) |>.2 (r2 hS hI hW)
  push_cast at h3
  have h4 := abs_sub_le ((o.cvt r : ℚ) : ℝ) (r : ℝ) (Real.arcsin t / Real.pi)
  have e : (3 / 2 * √(2 * (h : ℝ) + 1) + 2) / 2 ^ h = 1 / 2 ^ h + (3 / 2 * √(2 * h + 1) + 1) / 2 ^ h := by ring
  rw [e]
  linarith

end Proof.Arcsin
