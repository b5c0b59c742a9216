import Verif.Proof.FlfxMul2

/-! # Lemmas about ac_flfx_mul with a fixed point output -/

namespace Proof.FlfxMul
open Ac Model.Bits Model.AddTree Model.FlfxMul Spec.Flt

/-- Shifting in the full precision type loses nothing. -/
theorem shl_full {W : ℕ} {I : ℤ} {E : ℕ} (hW : 1 ≤ W) (hE : 1 ≤ E) {n : ℚ} (hn : (⟨W, I, true, .TRN, .WRAP⟩ : Fmt).Rep n)
    {e : ℤ} (e0 : -2 ^ (E - 1) ≤ e) (e1 : e < 2 ^ (E - 1)) :
    (toFixed W I E).shl ((toFixed W I E).cvt n) e = n * 2 ^ e := by
  obtain ⟨r, r0, r1, rfl⟩ := hn
  have hp : (2 : ℕ) ^ E = 2 * 2 ^ (E - 1) := by
    conv_lhs => rw [show E = (E - 1) + 1 by omega, pow_succ]
    ring
  set H : ℕ := 2 ^ (E - 1) with hH
  have hH1 : 1 ≤ H := Nat.one_le_two_pow
  have hHz : (2 : ℤ) ^ (E - 1) = (H : ℤ) := by rw [hH]; push_cast; rfl
  rw [hHz] at e0 e1
  simp only [minRaw, maxRaw, if_true] at r0 r1
  have hFW : (toFixed W I E).W = W + 2 * H - 1 := by unfold toFixed; rw [hp]
  have hFF : (toFixed W I E).F = W - I + H := by
    unfold Fmt.F
    rw [hFW]; unfold toFixed; simp only; rw [hHz]; omega
  have hS : (toFixed W I E).S = true := rfl
  have hK : (0 : ℤ) < 2 ^ (W - 1) := by positivity
  -- an integer r * 2^k with k ≤ 2H - 1 fits
  have fits : ∀ k : ℕ, k ≤ 2 * H - 1 → minRaw (toFixed W I E).W true ≤ r * 2 ^ k ∧ r * 2 ^ k ≤ maxRaw (toFixed W I E).W true := by
    intro k hk
    have hk1 : (1 : ℤ) ≤ 2 ^ k := one_le_pow₀ (by norm_num)
    have hk2 : (2 : ℤ) ^ (W + 2 * H - 1 - 1) = 2 ^ (W - 1) * 2 ^ (2 * H - 1) := by rw [← pow_add]; congr 1; omega
    have hk3 : (2 : ℤ) ^ k ≤ 2 ^ (2 * H - 1) := pow_le_pow_right₀ (by norm_num) hk
    rw [hFW]
    simp only [minRaw, maxRaw, if_true]
    rw [hk2]
    constructor
    · calc -(2 ^ (W - 1) * 2 ^ (2 * H - 1)) ≤ -(2 ^ (W - 1) * 2 ^ k : ℤ) := by
            have := mul_le_mul_of_nonneg_left hk3 hK.le
            linarith
        _ ≤ r * 2 ^ k := by
            have := mul_le_mul_of_nonneg_right r0 (by linarith : (0 : ℤ) ≤ 2 ^ k)
            linarith
    · have h1 : (r + 1) * 2 ^ k ≤ 2 ^ (W - 1) * 2 ^ k := mul_le_mul_of_nonneg_right (by omega) (by linarith)
      have h2 := mul_le_mul_of_nonneg_left hk3 hK.le
      linarith
  have hv : (⟨W, I, true, .TRN, .WRAP⟩ : Fmt).val r = (toFixed W I E).val (r * 2 ^ H) := by
    unfold Fmt.val
    rw [hFF]
    unfold Fmt.F
    push_cast
    rw [mul_assoc, ← zpow_natCast (2 : ℚ) H, Fmt.z_add]; congr 2; ring
  have hf := fits H (by omega)
  rw [hv, Fmt.cvt_val (by rw [hFW]; omega) (by rw [hS]; exact hf.1) (by rw [hS]; exact hf.2)]
  unfold Fmt.shl Fmt.shr
  rw [Fmt.raw_val, neg_neg]
  have he : (((r * 2 ^ H : ℤ)) : ℚ) * 2 ^ e = ((r * 2 ^ (H + e).toNat : ℤ) : ℚ) := by
    push_cast
    rw [mul_assoc, ← zpow_natCast (2 : ℚ) H, ← zpow_natCast (2 : ℚ) (H + e).toNat, Fmt.z_add]; congr 2; omega
  have hf2 := fits (H + e).toNat (by omega)
  rw [he, Int.floor_intCast, hS, wrap_of_range (by rw [hFW]; omega) hf2.1 hf2.2]
  unfold Fmt.val
  rw [← he]; push_cast; ring

theorem mult_rep {W1 : ℕ} {I1 : ℤ} {g : Fmt} (h1 : 1 ≤ W1) (hg : 1 ≤ g.W) {m : ℤ} (m0 : -2 ^ (W1 - 1) ≤ m)
    (m1 : m < 2 ^ (W1 - 1)) {y : ℚ} (hy : g.Rep y) :
    ((⟨W1, I1, true, .TRN, .WRAP⟩ : Fmt).mult g).Rep ((⟨W1, I1, true, .TRN, .WRAP⟩ : Fmt).val m * y) :=
  Fmt.rep_mult h1 hg ⟨m, by simpa [minRaw] using m0, by simp [maxRaw]; omega, rfl⟩ hy

theorem mulFixed_eq {subn : Bool} {W1 : ℕ} {I1 : ℤ} {E1 : ℕ} {g out : Fmt} {x : Flt} {y : ℚ} (hW : 1 ≤ W1) (hE : 1 ≤ E1)
    (hg : 1 ≤ g.W) (ho : 1 ≤ out.W) (m0 : -2 ^ (W1 - 1) ≤ x.m) (m1 : x.m < 2 ^ (W1 - 1)) (e0 : -2 ^ (E1 - 1) ≤ x.e)
    (e1 : x.e < 2 ^ (E1 - 1)) (hy : g.Rep y) :
    mulFixed subn W1 I1 E1 g out x y =
      if subn = false ∧ isNorm W1 x.m = false then out.cvt (0 : ℚ) else out.cvt (value W1 I1 x * y) := by
  have hr := mult_rep (I1 := I1) hW hg m0 m1 hy
  unfold mulFixed
  simp only
  have hmW : 1 ≤ ((⟨W1, I1, true, .TRN, .WRAP⟩ : Fmt).mult g).W := by unfold Fmt.mult; simp only; omega
  rw [Fmt.cvt_rep hmW (by unfold Fmt.mult; simp) hr]
  have hr2 : (⟨((⟨W1, I1, true, .TRN, .WRAP⟩ : Fmt).mult g).W, ((⟨W1, I1, true, .TRN, .WRAP⟩ : Fmt).mult g).I, true,
      .TRN, .WRAP⟩ : Fmt).Rep ((⟨W1, I1, true, .TRN, .WRAP⟩ : Fmt).val x.m * y) := by
    have : (⟨((⟨W1, I1, true, .TRN, .WRAP⟩ : Fmt).mult g).W, ((⟨W1, I1, true, .TRN, .WRAP⟩ : Fmt).mult g).I, true,
      .TRN, .WRAP⟩ : Fmt) = (⟨W1, I1, true, .TRN, .WRAP⟩ : Fmt).mult g := by unfold Fmt.mult; simp
    rw [this]; exact hr
  rw [shl_full hmW hE hr2 e0 e1, Fmt.cvt_idem ho]
  have hv : (⟨W1, I1, true, .TRN, .WRAP⟩ : Fmt).val x.m * y * 2 ^ x.e = value W1 I1 x * y := by
    unfold Fmt.val value Fmt.F
    simp only
    rw [show -((W1 : ℤ) - I1) = I1 - W1 by ring]; ring
  rw [hv]
  cases subn <;> cases isNorm W1 x.m <;> simp

theorem mulFloats_eq {subn : Bool} {W1 : ℕ} {I1 : ℤ} {E1 W2 : ℕ} {I2 : ℤ} {E2 : ℕ} {out : Fmt} {x y : Flt} (hW : 1 ≤ W1)
    (hE : 1 ≤ E1) (hW2 : 1 ≤ W2) (hE2 : 1 ≤ E2) (ho : 1 ≤ out.W) (m0 : -2 ^ (W1 - 1) ≤ x.m) (m1 : x.m < 2 ^ (W1 - 1))
    (e0 : -2 ^ (E1 - 1) ≤ x.e) (e1 : x.e < 2 ^ (E1 - 1)) (k0 : -2 ^ (W2 - 1) ≤ y.m) (k1 : y.m < 2 ^ (W2 - 1))
    (f0 : -2 ^ (E2 - 1) ≤ y.e) (f1 : y.e < 2 ^ (E2 - 1)) :
    mulFloats subn W1 I1 E1 W2 I2 E2 out x y =
      if subn = false ∧ (isNorm W1 x.m = false ∨ isNorm W2 y.m = false) then out.cvt (0 : ℚ)
      else out.cvt (value W1 I1 x * value W2 I2 y) := by
  have hr := mult_rep (I1 := I1) (g := ⟨W2, I2, true, .TRN, .WRAP⟩) hW hW2 m0 m1
    ⟨y.m, by simpa [minRaw] using k0, by simp [maxRaw]; omega, rfl⟩
  unfold mulFloats
  simp only
  have hmW : 1 ≤ ((⟨W1, I1, true, .TRN, .WRAP⟩ : Fmt).mult ⟨W2, I2, true, .TRN, .WRAP⟩).W := by
    unfold Fmt.mult; simp only; omega
  rw [Fmt.cvt_rep hmW (by unfold Fmt.mult; simp) hr]
  have hEW : ∀ k : ℕ, k ≤ max E1 E2 → (2 : ℤ) ^ (k - 1) ≤ 2 ^ (max E1 E2 - 1) := fun k hk =>
    pow_le_pow_right₀ (by norm_num) (by omega)
  have g1 := hEW E1 (le_max_left _ _)
  have g2 := hEW E2 (le_max_right _ _)
  have hM : (2 : ℤ) ^ (max E1 E2 + 1 - 1) = 2 * 2 ^ (max E1 E2 - 1) := by
    rw [show max E1 E2 + 1 - 1 = (max E1 E2 - 1) + 1 by have := le_max_left E1 E2; omega, pow_succ]; ring
  rw [wrapS_of_range (by omega) (by rw [hM]; omega) (by rw [hM]; omega)]
  have hr2 : (⟨((⟨W1, I1, true, .TRN, .WRAP⟩ : Fmt).mult ⟨W2, I2, true, .TRN, .WRAP⟩).W, ((⟨W1, I1, true, .TRN, .WRAP⟩ : Fmt).mult ⟨W2, I2, true, .TRN, .WRAP⟩).I, true,
      .TRN, .WRAP⟩ : Fmt).Rep ((⟨W1, I1, true, .TRN, .WRAP⟩ : Fmt).val x.m * (⟨W2, I2, true, .TRN, .WRAP⟩ : Fmt).val y.m) := by
    have : (⟨((⟨W1, I1, true, .TRN, .WRAP⟩ : Fmt).mult ⟨W2, I2, true, .TRN, .WRAP⟩).W, ((⟨W1, I1, true, .TRN, .WRAP⟩ : Fmt).mult ⟨W2, I2, true, .TRN, .WRAP⟩).I, true,
      .TRN, .WRAP⟩ : Fmt) = (⟨W1, I1, true, .TRN, .WRAP⟩ : Fmt).mult ⟨W2, I2, true, .TRN, .WRAP⟩ := by unfold Fmt.mult; simp
    rw [this]; exact hr
  rw [shl_full hmW (by omega) hr2 (by rw [hM]; omega) (by rw [hM]; omega), Fmt.cvt_idem ho]
  have hv : (⟨W1, I1, true, .TRN, .WRAP⟩ : Fmt).val x.m * (⟨W2, I2, true, .TRN, .WRAP⟩ : Fmt).val y.m * 2 ^ (x.e + y.e) =
      value W1 I1 x * value W2 I2 y := by
    unfold Fmt.val value Fmt.F
    simp only
    rw [show -((W1 : ℤ) - I1) = I1 - W1 by ring, show -((W2 : ℤ) - I2) = I2 - W2 by ring, ← Fmt.z_add]; ring
  rw [hv]
  cases subn <;> cases isNorm W1 x.m <;> cases isNorm W2 y.m <;> simp

end Proof.FlfxMul
