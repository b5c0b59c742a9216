import Verif.Proof.PwlFixed

/-! # Lemmas for the PWL functions of unsigned inputs -/

namespace Proof.PwlFixed
open Ac Model.Pwl Model.PwlFixed Model.Normalize Proof.Pwl Proof.Shift

/-- Normalization, called or assumed, of a positive unsigned input. -/
theorem norm_pos {cn : Bool} {f : Fmt} (hW : 1 ≤ f.W) (hS : f.S = false) {x : ℚ} (hx : f.Rep x) (h : 0 < x)
    (hc : cn = true ∨ 2 ^ (f.I - 1) ≤ x) (j : ℕ) :
    x = (norm cn f x).1 * 2 ^ (norm cn f x).2 ∧ 1 / 2 ≤ (norm cn f x).1 ∧ (norm cn f x).1 < 1 ∧
    ∃ z : ℤ, ((norm cn f x).1 - 1 / 2) * 2 ^ (j + 1) = z / 2 ^ (max 0 ((f.W : ℤ) - (j + 1))).toNat := by
  obtain ⟨r, r0, r1, rfl⟩ := hx
  have hr : 0 < r := by
    have : f.val 0 < f.val r := by simpa [Fmt.val] using h
    exact Fmt.val_lt.1 this
  cases cn
  · have hc' : (2 : ℚ) ^ (f.I - 1) ≤ f.val r := by simpa using hc
    have hF : (nfmt f).F = f.W := by unfold Fmt.F nfmt nfmt.S; simp [hS]
    have hv : (nfmt f).val r = (r : ℚ) / 2 ^ f.W := by
      unfold Fmt.val; rw [hF, zpow_neg, zpow_natCast, div_eq_mul_inv]
    have he : f.val r = (r : ℚ) / 2 ^ f.W * 2 ^ f.I := by
      unfold Fmt.val Fmt.F
      rw [show -((f.W : ℤ) - f.I) = f.I - f.W by ring, zpow_sub₀ (by norm_num), zpow_natCast]; ring
    simp only [norm, Bool.false_eq_true, if_false, Fmt.raw_val, hv]
    refine ⟨he, ?_, ?_, scaled_grid⟩
    · rw [he, zpow_sub₀ (by norm_num), zpow_one] at hc'
      have q := Fmt.z_pos f.I
      have : 1 / 2 * (2 : ℚ) ^ f.I ≤ (r : ℚ) / 2 ^ f.W * 2 ^ f.I := by linarith
      exact le_of_mul_le_mul_right this q
    · rw [div_lt_one (by positivity)]
      simp only [maxRaw, hS] at r1
      have : r < 2 ^ f.W := by simp at r1; omega
      exact_mod_cast this
  · simp only [norm, if_true, Fmt.raw_val]
    obtain ⟨a1, a2, a3, k, hk⟩ := normalize_pos hW hS hr r1
    refine ⟨a1, a2, a3, ?_⟩
    rw [hk]; exact scaled_grid

/-- The shape of a conversion to an unsigned word that can hold the number. -/
theorem cvt_fit {o : Fmt} (hW : 1 ≤ o.W) (hS : o.S = false) (hO : o.O = .WRAP) {x : ℚ} (h0 : 0 ≤ x)
    (h1 : x * 2 ^ o.F ≤ 2 ^ o.W - 1) :
    o.cvt x = o.val (quant o.Q (x * 2 ^ o.F)) ∧ InRange o.W o.S (quant o.Q (x * 2 ^ o.F)) ∧ |o.cvt x - x| < 2 ^ (-o.F) := by
  have hm : ((maxRaw o.W o.S : ℤ) : ℚ) = 2 ^ o.W - 1 := by simp [maxRaw, hS]
  have l0 : ((loRaw o.W o.S o.O : ℤ) : ℚ) ≤ x * 2 ^ o.F := by
    have : ((loRaw o.W o.S o.O : ℤ) : ℚ) ≤ 0 := by exact_mod_cast loRaw_nonpos _ _ _
    have := mul_nonneg h0 (Fmt.z_pos o.F).le
    linarith
  have l1 : x * 2 ^ o.F ≤ ((maxRaw o.W o.S : ℤ) : ℚ) := by rw [hm]; exact h1
  have r : InRange o.W o.S (quant o.Q (x * 2 ^ o.F)) :=
    ⟨le_trans (minRaw_le_loRaw _ _ _) (le_quant l0), quant_le l1⟩
  refine ⟨?_, r, by simpa using Fmt.cvt_err hW l0 l1⟩
  unfold Fmt.cvt Fmt.cvtRaw
  rw [ovf_of_range hW (le_quant l0) r.2]

theorem cvt_fit_mono {o : Fmt} (hW : 1 ≤ o.W) (hS : o.S = false) (hO : o.O = .WRAP) {x y : ℚ} (h0 : 0 ≤ x) (h : x ≤ y)
    (h1 : y * 2 ^ o.F ≤ 2 ^ o.W - 1) : o.cvt x ≤ o.cvt y := by
  have hz := Fmt.z_pos o.F
  have hxy := mul_le_mul_of_nonneg_right h hz.le
  rw [(cvt_fit hW hS hO h0 (le_trans hxy h1)).1, (cvt_fit hW hS hO (le_trans h0 h) h1).1, Fmt.val_le]
  exact quant_mono _ hxy

end Proof.PwlFixed
