import Verif.Proof.Hcordic
import Mathlib.Analysis.SpecialFunctions.Pow.Real

/-! # Rotation towards `z = 0`: the exponential -/

namespace Proof.Hcordic
open Ac Model.Hcordic

theorem pow_half {s : ℕ} (hs : 1 ≤ s) : (0 : ℝ) < 1 / 2 ^ s ∧ (1 : ℝ) / 2 ^ s ≤ 1 / 2 := by
  refine ⟨by positivity, ?_⟩
  rw [div_le_div_iff₀ (by positivity) (by norm_num), one_mul, one_mul]
  exact le_self_pow₀ (by norm_num) (by omega)

theorem exp_ang {s : ℕ} (hs : 1 ≤ s) : Real.exp (2 * ang s) = (1 + 1 / 2 ^ s) / (1 - 1 / 2 ^ s) := by
  obtain ⟨h0, h1⟩ := pow_half hs
  unfold ang
  rw [← mul_assoc, show (2 : ℝ) * (1 / 2) = 1 by norm_num, one_mul, Real.exp_log (div_pos (by linarith) (by linarith))]

/-- A step multiplies by `1 ± 2^-s`: a dilation times the exponential of the angle. -/
theorem one_add_eq {s : ℕ} (hs : 1 ≤ s) {σ : ℝ} (hσ : σ = 1 ∨ σ = -1) :
    1 + σ * (1 / 2 ^ s) = Real.sqrt (1 - 1 / 4 ^ s) * Real.exp (σ * ang s) := by
  obtain ⟨h0, h1⟩ := pow_half hs
  have h4 : (1 : ℝ) / 4 ^ s = (1 / 2 ^ s) * (1 / 2 ^ s) := by
    rw [show (4 : ℝ) = 2 * 2 by norm_num, mul_pow]; ring
  have he := exp_ang hs
  rw [h4]
  set x := (1 : ℝ) / 2 ^ s
  have hx : 0 ≤ 1 - x * x := by nlinarith
  have hl : 0 ≤ 1 + σ * x := by rcases hσ with rfl | rfl <;> nlinarith
  have hr : 0 ≤ Real.sqrt (1 - x * x) * Real.exp (σ * ang s) := mul_nonneg (Real.sqrt_nonneg _) (Real.exp_pos _).le
  have hsq : (Real.sqrt (1 - x * x) * Real.exp (σ * ang s)) ^ 2 = (1 + σ * x) ^ 2 := by
    rw [mul_pow, Real.sq_sqrt hx, sq (Real.exp _), ← Real.exp_add]
    rcases hσ with rfl | rfl
    · rw [show 1 * ang s + 1 * ang s = 2 * ang s by ring, he]
      have : 1 - x ≠ 0 := by linarith
      field_simp
      ring
    · rw [show -1 * ang s + -1 * ang s = -(2 * ang s) by ring, Real.exp_neg, he, inv_div]
      have : 1 + x ≠ 0 := by linarith
      field_simp
      ring
  have := (sq_eq_sq₀ hr hl).1 hsq
  exact this.symm

/-- The dilation of the first `n` steps, squared. -/
def kp : ℕ → ℚ
  | 0 => 1
  | n + 1 => kp n * (1 - 1 / 4 ^ Sj n)

/-- The largest product of the factors of the first `n` steps. -/
def ub : ℕ → ℚ
  | 0 => 1
  | n + 1 => ub n * (1 + 1 / 2 ^ Sj n)

/-- The rounding error of the first `n` steps. -/
def eb : ℕ → ℚ
  | 0 => 0
  | n + 1 => eb n * (1 + 1 / 2 ^ Sj n) + 1

/-- The sum of the first `n` angles. -/
def dsum (sc : Scale) (F : ℕ) : ℕ → ℤ
  | 0 => 0
  | n + 1 => dsum sc F n + ent sc F n

theorem bounds_all : Proof.Pwl.allLt 61 (fun n => decide (0 < kp n ∧ kp n ≤ 1 ∧ 1 ≤ ub n ∧ ub n ≤ 26 / 10 ∧ 0 ≤ eb n ∧ eb n ≤ n + 2)) = true := by
  decide +kernel

theorem bounds {n : ℕ} (hn : n ≤ 60) : 0 < kp n ∧ kp n ≤ 1 ∧ 1 ≤ ub n ∧ ub n ≤ 26 / 10 ∧ 0 ≤ eb n ∧ eb n ≤ n + 2 :=
  of_decide_eq_true (Proof.Pwl.allLt_iff.1 bounds_all n (by omega))

theorem ent_err {F j : ℕ} (hF : F ≤ 53) (hj : j < 60) : |(2 : ℝ) ^ F * ang (Sj j) - ent .one F j| ≤ 1 + 1 / 512 := by
  obtain ⟨s0, s1⟩ := sj_range hj
  have h := ta_err (show Sj j - 1 < 57 by omega)
  rw [show Sj j - 1 + 1 = Sj j by omega] at h
  unfold ent tabI
  rw [if_pos rfl]
  set T := TA (Sj j - 1)
  have hp : (0 : ℝ) < 2 ^ F := by positivity
  have hq : (0 : ℝ) < 2 ^ (63 - F) := by positivity
  have hpq : (2 : ℝ) ^ 63 = 2 ^ F * 2 ^ (63 - F) := by rw [← pow_add]; congr 1; omega
  have h1 : (2 : ℝ) ^ F * |ang (Sj j) - (T : ℝ) / 2 ^ 63| ≤ 1 / 512 := by
    calc _ ≤ (2 : ℝ) ^ F * (2 / 2 ^ 63) := mul_le_mul_of_nonneg_left h hp.le
      _ ≤ 2 ^ 53 * (2 / 2 ^ 63) := mul_le_mul_of_nonneg_right (pow_le_pow_right₀ (by norm_num) hF) (by norm_num)
      _ = _ := by norm_num
  have hm := Int.emod_add_mul_ediv T (2 ^ (63 - F))
  have m0 := Int.emod_nonneg T (show (2 : ℤ) ^ (63 - F) ≠ 0 by positivity)
  have m1 := Int.emod_lt_of_pos T (show (0 : ℤ) < 2 ^ (63 - F) by positivity)
  set q := T / 2 ^ (63 - F)
  have hm' : ((T % 2 ^ (63 - F) : ℤ) : ℝ) + 2 ^ (63 - F) * (q : ℝ) = T := by exact_mod_cast hm
  have m0' : (0 : ℝ) ≤ ((T % 2 ^ (63 - F) : ℤ) : ℝ) := by exact_mod_cast m0
  have m1' : ((T % 2 ^ (63 - F) : ℤ) : ℝ) < 2 ^ (63 - F) := by exact_mod_cast m1
  have h2 : |(2 : ℝ) ^ F * ((T : ℝ) / 2 ^ 63) - q| ≤ 1 := by
    have e : (2 : ℝ) ^ F * ((T : ℝ) / 2 ^ 63) - q = ((T % 2 ^ (63 - F) : ℤ) : ℝ) / 2 ^ (63 - F) := by
      rw [← hm', hpq]
      field_simp
      ring
    rw [e, abs_of_nonneg (div_nonneg m0' hq.le), div_le_one hq]
    exact m1'.le
  have h3 : (2 : ℝ) ^ F * |ang (Sj j) - (T : ℝ) / 2 ^ 63| = |(2 : ℝ) ^ F * ang (Sj j) - 2 ^ F * ((T : ℝ) / 2 ^ 63)| := by
    rw [← mul_sub, abs_mul, abs_of_pos hp]
  have := abs_sub_le ((2 : ℝ) ^ F * ang (Sj j)) (2 ^ F * ((T : ℝ) / 2 ^ 63)) q
  linarith

theorem div_near (X : ℤ) (s : ℕ) : (X : ℝ) * (1 / 2 ^ s) - 1 ≤ ((X / 2 ^ s : ℤ) : ℝ) ∧ ((X / 2 ^ s : ℤ) : ℝ) ≤ (X : ℝ) * (1 / 2 ^ s) := by
  have hm := Int.emod_add_mul_ediv X (2 ^ s)
  have m0 := Int.emod_nonneg X (show (2 : ℤ) ^ s ≠ 0 by positivity)
  have m1 := Int.emod_lt_of_pos X (show (0 : ℤ) < 2 ^ s by positivity)
  set q := X / 2 ^ s
  have hm' : ((X % 2 ^ s : ℤ) : ℝ) + 2 ^ s * (q : ℝ) = X := by exact_mod_cast hm
  have m0' : (0 : ℝ) ≤ ((X % 2 ^ s : ℤ) : ℝ) := by exact_mod_cast m0
  have m1' : ((X % 2 ^ s : ℤ) : ℝ) < 2 ^ s := by exact_mod_cast m1
  have hq : (0 : ℝ) < 2 ^ s := by positivity
  have e : (X : ℝ) * (1 / 2 ^ s) - q = ((X % 2 ^ s : ℤ) : ℝ) / 2 ^ s := by
    rw [← hm']; field_simp; ring
  have h0 := div_nonneg m0' hq.le
  have h1 : ((X % 2 ^ s : ℤ) : ℝ) / 2 ^ s ≤ 1 := by rw [div_le_one hq]; exact m1'.le
  constructor <;> linarith

/-- The state after `j` steps towards `z = 0`; `R` bounds `z`, the sum of the angles taken is `A`. -/
structure ZInv (F : ℕ) (Z0 : ℤ) (R : ℕ → ℤ) (j : ℕ) (s : IS) (A : ℝ) : Prop where
  xy : s.x = s.y
  z : |s.z| ≤ R j
  zA : |(Z0 : ℝ) - s.z - 2 ^ F * A| ≤ j * (1 + 1 / 512)
  x : |(s.y : ℝ) - 2 ^ F * (Real.sqrt (kp j) * Real.exp A)| ≤ eb j
  u : Real.sqrt (kp j) * Real.exp A ≤ ub j

theorem zinv_zero {F : ℕ} {Z0 : ℤ} {R : ℕ → ℤ} (h : |Z0| ≤ R 0) : ZInv F Z0 R 0 ⟨2 ^ F, 2 ^ F, Z0⟩ 0 where
  xy := rfl
  z := h
  zA := by simp
  x := by simp [kp, eb]
  u := by simp [kp, ub]

theorem zinv_step {F : ℕ} (hF : F ≤ 53) {Z0 : ℤ} {R : ℕ → ℤ} {j : ℕ} (hj : j < 60) (hR : R j = R (j + 1) + ent .one F j)
    (hD : ent .one F j ≤ R (j + 1)) {s : IS} {A : ℝ} (h : ZInv F Z0 R j s A) :
    ∃ A', ZInv F Z0 R (j + 1) (istep .rotZ .one F j s) A' := by
  obtain ⟨s0, s1⟩ := sj_range hj
  obtain ⟨hs0, hs1⟩ := pow_half s0
  obtain ⟨k0, k1, u1, u2, e0, e1⟩ := bounds (show j ≤ 60 by omega)
  have hent := ent_err hF hj
  have hee := (ent_range .one (show F ≤ 63 by omega) hj).1
  have hd := div_near s.y (Sj j)
  have hk : Real.sqrt (kp (j + 1)) = Real.sqrt (kp j) * Real.sqrt (1 - 1 / 4 ^ Sj j) := by
    rw [← Real.sqrt_mul (by exact_mod_cast k0.le)]; simp [kp]
  have h0' : (0 : ℝ) ≤ (eb j : ℝ) := by exact_mod_cast e0
  have hP : 0 ≤ Real.sqrt (kp j) * Real.exp A := mul_nonneg (Real.sqrt_nonneg _) (Real.exp_pos _).le
  obtain ⟨hxy, hz, hzA, hx, hu⟩ := h
  have key : ∀ σ : ℤ, (σ = 1 ∨ σ = -1) → ∀ s' : IS, s' = ⟨s.x + σ * (s.y / 2 ^ Sj j), s.y + σ * (s.x / 2 ^ Sj j), s.z - σ * ent .one F j⟩ →
      |s.z - σ * ent .one F j| ≤ R (j + 1) → ZInv F Z0 R (j + 1) s' (A + (σ : ℝ) * ang (Sj j)) := by
    intro σ hσ s' hs' hz'
    have hσr : (σ : ℝ) = 1 ∨ (σ : ℝ) = -1 := by rcases hσ with rfl | rfl <;> norm_num
    have hσa : |(σ : ℝ)| = 1 := by rcases hσr with h | h <;> rw [h] <;> norm_num
    have hstep : Real.sqrt (kp (j + 1)) * Real.exp (A + (σ : ℝ) * ang (Sj j)) =
        (Real.sqrt (kp j) * Real.exp A) * (1 + (σ : ℝ) * (1 / 2 ^ Sj j)) := by
      rw [one_add_eq s0 hσr, hk, Real.exp_add]; ring
    subst hs'
    refine ⟨by simp only []; rw [hxy], hz', ?_, ?_, ?_⟩
    · have : (Z0 : ℝ) - ((s.z - σ * ent .one F j : ℤ) : ℝ) - 2 ^ F * (A + (σ : ℝ) * ang (Sj j)) =
          ((Z0 : ℝ) - s.z - 2 ^ F * A) - (σ : ℝ) * (2 ^ F * ang (Sj j) - ent .one F j) := by push_cast; ring
      simp only []
      rw [this]
      refine (abs_sub _ _).trans ?_
      rw [abs_mul, hσa]
      push_cast
      linarith
    · simp only []
      rw [hstep, hxy]
      set P := Real.sqrt (kp j) * Real.exp A
      have e : ((s.y + σ * (s.y / 2 ^ Sj j) : ℤ) : ℝ) - 2 ^ F * (P * (1 + (σ : ℝ) * (1 / 2 ^ Sj j))) =
          ((s.y : ℝ) - 2 ^ F * P) * (1 + (σ : ℝ) * (1 / 2 ^ Sj j)) +
            (σ : ℝ) * (((s.y / 2 ^ Sj j : ℤ) : ℝ) - (s.y : ℝ) * (1 / 2 ^ Sj j)) := by push_cast; ring
      rw [e]
      refine (abs_add_le _ _).trans ?_
      rw [abs_mul, abs_mul, hσa, one_mul]
      have a1 : |1 + (σ : ℝ) * (1 / 2 ^ Sj j)| ≤ 1 + 1 / 2 ^ Sj j := by
        rcases hσr with h | h <;> rw [h, abs_le] <;> constructor <;> linarith
      have a2 : |((s.y / 2 ^ Sj j : ℤ) : ℝ) - (s.y : ℝ) * (1 / 2 ^ Sj j)| ≤ 1 := by
        rw [abs_le]; constructor <;> linarith
      have := mul_le_mul hx a1 (abs_nonneg _) h0'
      simp only [eb]
      push_cast
      linarith
    · rw [hstep]
      have a1 : 1 + (σ : ℝ) * (1 / 2 ^ Sj j) ≤ 1 + 1 / 2 ^ Sj j := by
        rcases hσr with h | h <;> rw [h] <;> linarith
      have := (mul_le_mul_of_nonneg_left a1 hP).trans (mul_le_mul_of_nonneg_right hu (show (0 : ℝ) ≤ 1 + 1 / 2 ^ Sj j by linarith))
      simp only [ub]
      push_cast
      exact this
  have hz2 := abs_le.1 hz
  by_cases hc : 0 ≤ s.z
  · refine ⟨_, key 1 (Or.inl rfl) _ ?_ ?_⟩
    · unfold istep
      simp only [reduceCtorEq, if_false, if_pos hc, one_mul]
    · rw [abs_le]; constructor <;> linarith
  · refine ⟨_, key (-1) (Or.inr rfl) _ ?_ ?_⟩
    · unfold istep
      simp only [reduceCtorEq, if_false, if_neg hc]
      congr 1 <;> ring
    · rw [abs_le]; constructor <;> linarith

/-- Bound of `z` before step `j`, the last one being `c`. -/
def rz (F L : ℕ) (c : ℤ) (j : ℕ) : ℤ := c + (dsum .one F L - dsum .one F j)

theorem zinv_all {F L : ℕ} (hF : F ≤ 53) (hL : L ≤ 60) {c : ℤ} (hc : ∀ j < L, ent .one F j ≤ rz F L c (j + 1)) {Z0 : ℤ}
    (h0 : |Z0| ≤ rz F L c 0) : ∀ j ≤ L, ∃ A, ZInv F Z0 (rz F L c) j (iloop .rotZ .one F ⟨2 ^ F, 2 ^ F, Z0⟩ j) A := by
  intro j
  induction j with
  | zero => exact fun _ => ⟨0, zinv_zero h0⟩
  | succ j ih =>
    intro hj
    obtain ⟨A, hA⟩ := ih (by omega)
    exact zinv_step hF (by omega) (by simp only [rz, dsum]; ring) (hc j (by omega)) hA

end Proof.Hcordic
