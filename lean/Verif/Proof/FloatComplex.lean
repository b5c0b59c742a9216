import Verif.Model.FloatComplex
import Verif.Proof.FloatCvt

/-! # Lemmas for the reciprocals of complex floating-point numbers -/

namespace Proof.FloatComplex
open Ac Model.Float Model.FloatComplex

/-- Bounds of a positive number of a type. -/
theorem num_bounds {t : FFmt} {m : ℚ} {e : ℤ} (hW : 1 ≤ t.W) (hm : t.mant.Rep m) (he : -2 ^ (t.E - 1) ≤ e) (he' : e < 2 ^ (t.E - 1))
    (h : 0 < m * 2 ^ e) : 2 ^ (t.I - t.W - 2 ^ (t.E - 1)) ≤ m * 2 ^ e ∧ m * 2 ^ e ≤ 2 ^ (t.I - 1 + 2 ^ (t.E - 1) - 1) := by
  obtain ⟨r, r0, r1, rfl⟩ := hm
  have hp : 0 < t.mant.val r := by
    by_contra hc
    have := mul_nonpos_of_nonpos_of_nonneg (not_lt.1 hc) (Fmt.z_pos e).le
    linarith
  rw [Proof.Float.mant_val] at hp ⊢
  have hr : (0 : ℚ) < r := by
    by_contra hc
    have := mul_nonpos_of_nonpos_of_nonneg (not_lt.1 hc) (Fmt.z_pos (t.I - t.W)).le
    linarith
  have hr1 : (1 : ℚ) ≤ r := by
    have : (0 : ℤ) < r := by exact_mod_cast hr
    exact_mod_cast (by omega : (1 : ℤ) ≤ r)
  have hr2 : (r : ℚ) ≤ 2 ^ (t.W - 1) := by
    have : r ≤ 2 ^ (t.W - 1) - 1 := by simpa [maxRaw, FFmt.mant] using r1
    have : r ≤ 2 ^ (t.W - 1) := by linarith
    exact_mod_cast this
  have hz := Fmt.z_pos (t.I - t.W)
  constructor
  · have h1 : (2 : ℚ) ^ (t.I - t.W - 2 ^ (t.E - 1)) ≤ 2 ^ (t.I - t.W) * 2 ^ e := by
      rw [Fmt.z_add]; exact Fmt.z_le (by linarith)
    have h2 := mul_le_mul_of_nonneg_right hr1 (mul_pos hz (Fmt.z_pos e)).le
    rw [mul_assoc]; linarith
  · have h1 : (2 : ℚ) ^ (t.W - 1) * (2 ^ (t.I - t.W) * 2 ^ e) ≤ 2 ^ (t.I - 1 + 2 ^ (t.E - 1) - 1) := by
      rw [← zpow_natCast, Fmt.z_add, Fmt.z_add]
      exact Fmt.z_le (by push_cast [Nat.cast_sub hW]; omega)
    have h2 := mul_le_mul_of_nonneg_right hr2 (mul_pos hz (Fmt.z_pos e)).le
    rw [mul_assoc]; linarith

theorem maxVal_ge {t : FFmt} (hW : 2 ≤ t.W) : (2 : ℚ) ^ (t.I - 2 + 2 ^ (t.E - 1) - 1) ≤ t.maxVal := by
  have e1 : t.maxVal = ((2 ^ (t.W - 1) - 1 : ℤ) : ℚ) * 2 ^ (t.I - t.W) * 2 ^ ((2 : ℤ) ^ (t.E - 1) - 1) := by
    unfold FFmt.maxVal Fmt.maxVal
    rw [Proof.Float.mant_val]; simp [maxRaw, FFmt.mant]
  have hn : (2 : ℤ) ^ (t.W - 2) ≤ 2 ^ (t.W - 1) - 1 := by
    have : (2 : ℤ) ^ (t.W - 1) = 2 ^ (t.W - 2) * 2 := by rw [← pow_succ]; congr 1; omega
    have h1 : (0 : ℤ) < 2 ^ (t.W - 2) := by positivity
    omega
  have hn' : (2 : ℚ) ^ (t.W - 2) ≤ ((2 ^ (t.W - 1) - 1 : ℤ) : ℚ) := by exact_mod_cast hn
  have h2 := mul_le_mul_of_nonneg_right hn' (mul_pos (Fmt.z_pos (t.I - t.W)) (Fmt.z_pos ((2 : ℤ) ^ (t.E - 1) - 1))).le
  rw [e1, mul_assoc]
  refine le_trans (le_of_eq ?_) h2
  rw [← zpow_natCast, Fmt.z_add, Fmt.z_add]
  congr 1
  push_cast [Nat.cast_sub hW]; ring

/-- The error of the stored reciprocal of a positive number `S`, in units of the reciprocal. -/
theorem stored {t : FFmt} {S r ε : ℚ} {k : ℤ} (hS : 0 < S) (h : |r * S - 1| ≤ ε) (h1 : 1 + ε ≤ t.maxVal * S)
    (h2 : S ≤ 2 ^ k) :
    |t.cvt r * S - 1| ≤ ε + (1 + ε) * 2 ^ (2 - (t.W : ℤ)) + 2 ^ (t.I - t.W - 2 ^ (t.E - 1) + k) := by
  have a1 : |r| * S ≤ 1 + ε := by
    have := abs_add_le (r * S - 1) 1
    rw [sub_add_cancel, abs_one, abs_mul, abs_of_pos hS] at this
    linarith
  have b1 : |r| ≤ t.maxVal := le_of_mul_le_mul_right (by linarith) hS
  obtain ⟨c1, c2⟩ := abs_le.1 b1
  have e1 := Proof.FloatCvt.cvt_abs (le_trans (Proof.FloatRec.minVal_le t) c1) c2
  have e2 := mul_le_mul_of_nonneg_right e1 hS.le
  have e3 : |t.cvt r - r| * S = |(t.cvt r - r) * S| := by rw [abs_mul, abs_of_pos hS]
  have e4 := mul_le_mul_of_nonneg_right a1 (Fmt.z_pos (2 - (t.W : ℤ))).le
  have e5 := mul_le_mul_of_nonneg_left h2 (Fmt.z_pos (t.I - t.W - 2 ^ (t.E - 1))).le
  rw [Fmt.z_add] at e5
  calc |t.cvt r * S - 1| = |(r * S - 1) + (t.cvt r - r) * S| := by congr 1; ring
    _ ≤ |r * S - 1| + |(t.cvt r - r) * S| := abs_add_le _ _
    _ ≤ _ := by linarith

/-- From the stored sum of squares to the exact one. -/
theorem transfer {c S N E η : ℚ} (hN : 0 < N) (h : |c * S - 1| ≤ E) (hs : |S - N| ≤ η * N) :
    (1 - η) * |c * N - 1| ≤ E + η := by
  have h1 : |c * N - 1| ≤ |c * S - 1| + |c * (N - S)| := by
    have := abs_add_le (c * S - 1) (c * (N - S))
    rwa [show c * S - 1 + c * (N - S) = c * N - 1 by ring] at this
  have h2 : |c * (N - S)| ≤ η * |c * N| := by
    rw [abs_mul, abs_sub_comm, abs_mul, abs_of_pos hN]
    have := mul_le_mul_of_nonneg_left hs (abs_nonneg c)
    linarith
  have hη : 0 ≤ η := by
    by_contra hc
    have := mul_neg_of_neg_of_pos (not_le.1 hc) hN
    linarith [abs_nonneg (S - N)]
  have h3 : |c * N| ≤ |c * N - 1| + 1 := by
    have := abs_add_le (c * N - 1) 1
    rwa [sub_add_cancel, abs_one] at this
  have h4 := mul_le_mul_of_nonneg_left h3 hη
  linarith

theorem scBits_ge (n : ℕ) (w : ℤ) : 1 ≤ Model.PwlFixed.scBits n w := by
  unfold Model.PwlFixed.scBits; omega

/-- The first two versions. -/
theorem base {p lg : ℕ} {t : FFmt} (oq : QMode) (hW : 2 ≤ t.W) (hE : 1 ≤ t.E) {m : ℚ} {e : ℤ} {r ε : ℚ} (hε : 0 ≤ ε) (hε1 : ε ≤ 1)
    (hm : (magT 2 t).mant.Rep m) (he : -2 ^ ((magT 2 t).E - 1) ≤ e) (he' : e < 2 ^ ((magT 2 t).E - 1)) (hS : 0 < m * 2 ^ e)
    (h : |r * (m * 2 ^ e) - 1| ≤ ε) :
    |(recT p lg t oq).cvt r * (m * 2 ^ e) - 1| ≤ ε + (1 + ε) * 2 ^ (-(p : ℤ) - 5) + 2 ^ (-(p : ℤ) - 6) := by
  obtain ⟨b1, b2⟩ := num_bounds (by simp [magT]) hm he he' hS
  have hs := scBits_ge p (2 * t.W + 1 - lg)
  have hWr : 2 ≤ (recT p lg t oq).W := by simp only [recT]; omega
  have hmax := maxVal_ge hWr
  obtain ⟨n, hn⟩ : ∃ n, t.E = n + 1 := ⟨t.E - 1, by omega⟩
  have q1 : (2 : ℤ) ^ ((magT 2 t).E - 1) = 4 * 2 ^ n := by
    simp only [magT]; rw [hn, show n + 1 + 2 - 1 = n + 2 by omega, pow_add]; ring
  have q2 : (2 : ℤ) ^ ((recT p lg t oq).E - 1) = 8 * 2 ^ n := by
    simp only [recT]; rw [hn, show n + 1 + 3 - 1 = n + 3 by omega, pow_add]; ring
  have q3 : (1 : ℤ) ≤ 2 ^ n := by exact_mod_cast Nat.one_le_two_pow
  rw [q1] at b1 b2
  rw [q2] at hmax
  have i1 : (magT 2 t).I = 2 * t.I + 1 := rfl
  have w1 : ((magT 2 t).W : ℤ) = 2 * t.W + 1 := by simp [magT]
  have i2 : (recT p lg t oq).I = 2 * t.W - 2 * t.I + 2 := by simp only [recT]; ring
  have w2 : ((recT p lg t oq).W : ℤ) = 2 * t.W + 1 + (Model.PwlFixed.scBits p (2 * t.W + 1 - lg) : ℕ) + p + 1 := by
    simp only [recT]; push_cast; ring
  have hw : (2 : ℤ) ≤ t.W := by exact_mod_cast hW
  have hs' : (1 : ℤ) ≤ (Model.PwlFixed.scBits p (2 * t.W + 1 - lg) : ℕ) := by exact_mod_cast hs
  have hfit : 1 + ε ≤ (recT p lg t oq).maxVal * (m * 2 ^ e) := by
    have := mul_le_mul hmax b1 (Fmt.z_pos _).le (le_trans (Fmt.z_pos _).le hmax)
    rw [Fmt.z_add] at this
    have h2 : (2 : ℚ) ^ (1 : ℤ) ≤ 2 ^ ((recT p lg t oq).I - 2 + 8 * 2 ^ n - 1 + ((magT 2 t).I - (magT 2 t).W - 4 * 2 ^ n)) :=
      Fmt.z_le (by rw [i1, i2, w1]; linarith)
    rw [zpow_one] at h2
    linarith
  refine le_trans (stored hS h hfit b2) ?_
  rw [q2]
  have a1 : (2 : ℚ) ^ (2 - ((recT p lg t oq).W : ℤ)) ≤ 2 ^ (-(p : ℤ) - 5) := Fmt.z_le (by rw [w2]; linarith)
  have a2 : (2 : ℚ) ^ ((recT p lg t oq).I - (recT p lg t oq).W - 8 * 2 ^ n + ((magT 2 t).I - 1 + 4 * 2 ^ n - 1)) ≤ 2 ^ (-(p : ℤ) - 6) :=
    Fmt.z_le (by rw [i1, i2, w2]; linarith)
  have a3 := mul_le_mul_of_nonneg_left a1 (show 0 ≤ 1 + ε by linarith)
  linarith

/-- The third version, if the reciprocal of the sum of squares is in range. -/
theorem vha {t : FFmt} (oq : QMode) (hE : 1 ≤ t.E) {m : ℚ} {e : ℤ} {r ε : ℚ} (hε : 0 ≤ ε) (hε1 : ε ≤ 1)
    (hm : (magT 1 t).mant.Rep m) (he : -2 ^ ((magT 1 t).E - 1) ≤ e) (he' : e < 2 ^ ((magT 1 t).E - 1))
    (hS : 2 ^ (2 * t.I + 2 - 2 ^ (t.E + 2)) ≤ m * 2 ^ e) (h : |r * (m * 2 ^ e) - 1| ≤ ε) :
    |(recTVha t oq).cvt r * (m * 2 ^ e) - 1| ≤ ε + (1 + ε) * 2 ^ (-17 : ℤ) + 2 ^ (-24 : ℤ) := by
  have hS0 : 0 < m * 2 ^ e := lt_of_lt_of_le (Fmt.z_pos _) hS
  obtain ⟨b1, b2⟩ := num_bounds (by simp [magT]) hm he he' hS0
  have hs := scBits_ge 16 (2 * t.W + 1 - 7)
  have hWr : 2 ≤ (recTVha t oq).W := by simp only [recTVha]; omega
  have hmax := maxVal_ge hWr
  obtain ⟨n, hn⟩ : ∃ n, t.E = n + 1 := ⟨t.E - 1, by omega⟩
  have q1 : (2 : ℤ) ^ ((magT 1 t).E - 1) = 2 * 2 ^ n := by
    simp only [magT]; rw [hn, show n + 1 + 1 - 1 = n + 1 by omega, pow_add]; ring
  have q2 : (2 : ℤ) ^ ((recTVha t oq).E - 1) = 8 * 2 ^ n := by
    simp only [recTVha]; rw [hn, show n + 1 + 3 - 1 = n + 3 by omega, pow_add]; ring
  have q4 : (2 : ℤ) ^ (t.E + 2) = 8 * 2 ^ n := by
    rw [hn, show n + 1 + 2 = n + 3 by omega, pow_add]; ring
  have q3 : (1 : ℤ) ≤ 2 ^ n := by exact_mod_cast Nat.one_le_two_pow
  rw [q1] at b1 b2
  rw [q2] at hmax
  rw [q4] at hS
  have i1 : (magT 1 t).I = 2 * t.I + 1 := rfl
  have i2 : (recTVha t oq).I = -2 * t.I + 2 := by simp only [recTVha]; ring
  have w2 : ((recTVha t oq).W : ℤ) = (Model.PwlFixed.scBits 16 (2 * t.W + 1 - 7) : ℕ) + 18 := by
    simp only [recTVha]; push_cast; ring
  have hs' : (1 : ℤ) ≤ (Model.PwlFixed.scBits 16 (2 * t.W + 1 - 7) : ℕ) := by exact_mod_cast hs
  have hfit : 1 + ε ≤ (recTVha t oq).maxVal * (m * 2 ^ e) := by
    have := mul_le_mul hmax hS (Fmt.z_pos _).le (le_trans (Fmt.z_pos _).le hmax)
    rw [Fmt.z_add] at this
    have h2 : (2 : ℚ) ^ (1 : ℤ) ≤ 2 ^ ((recTVha t oq).I - 2 + 8 * 2 ^ n - 1 + (2 * t.I + 2 - 8 * 2 ^ n)) :=
      Fmt.z_le (by rw [i2]; linarith)
    rw [zpow_one] at h2
    linarith
  refine le_trans (stored hS0 h hfit b2) ?_
  rw [q2]
  have a1 : (2 : ℚ) ^ (2 - ((recTVha t oq).W : ℤ)) ≤ 2 ^ (-17 : ℤ) := Fmt.z_le (by rw [w2]; linarith)
  have a2 : (2 : ℚ) ^ ((recTVha t oq).I - (recTVha t oq).W - 8 * 2 ^ n + ((magT 1 t).I - 1 + 2 * 2 ^ n - 1)) ≤ 2 ^ (-24 : ℤ) :=
    Fmt.z_le (by rw [i1, i2, w2]; linarith)
  have a3 := mul_le_mul_of_nonneg_left a1 (show 0 ≤ 1 + ε by linarith)
  linarith

end Proof.FloatComplex
