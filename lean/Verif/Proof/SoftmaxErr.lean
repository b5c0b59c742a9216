import Verif.Proof.Softmax
import Mathlib.Analysis.SpecialFunctions.Pow.Real
import Mathlib.Analysis.Complex.ExponentialBounds

namespace Proof.Softmax
open Ac Model.Softmax Proof.Pwl

/-- The factor by which the constant `log2e` scales the inputs. -/
noncomputable def scale (l : ℕ) : ℝ := (log2e l : ℝ) * Real.log 2

theorem scale_err (l : ℕ) : |scale l - 1| ≤ 1 / 2 ^ l + 1 / 10 ^ 9 := by
  have h1 := trunc_le l fullLog2e
  have h2 := lt_trunc l fullLog2e
  rw [← log2e_eq] at h1 h2
  have hp : (0 : ℝ) < 1 / 2 ^ l := by positivity
  have h1' : (log2e l : ℝ) ≤ ((6196328018 / 4294967296 : ℚ) : ℝ) := by exact_mod_cast h1
  have h2' : ((6196328018 / 4294967296 : ℚ) : ℝ) < ((log2e l + 1 / 2 ^ l : ℚ) : ℝ) := by exact_mod_cast h2
  push_cast at h1' h2'
  have g1 := Real.log_two_gt_d9
  have g2 := Real.log_two_lt_d9
  unfold scale
  have a1 : (log2e l : ℝ) * Real.log 2 ≤ 6196328018 / 4294967296 * 0.6931471808 :=
    mul_le_mul h1' g2.le (by linarith) (by norm_num)
  have a2 : (6196328018 / 4294967296 - 1 / 2 ^ l) * Real.log 2 ≤ (log2e l : ℝ) * Real.log 2 :=
    mul_le_mul_of_nonneg_right (by linarith) (by linarith)
  have a3 : (1 / 2 ^ l : ℝ) * Real.log 2 ≤ 1 / 2 ^ l * 1 := mul_le_mul_of_nonneg_left (by linarith) hp.le
  have a4 : (6196328018 / 4294967296 : ℝ) * 0.6931471803 ≤ 6196328018 / 4294967296 * Real.log 2 :=
    mul_le_mul_of_nonneg_left g1.le (by norm_num)
  rw [abs_le]
  rw [sub_mul] at a2
  generalize (1 / 2 ^ l : ℝ) = w at *
  constructor
  · have : (1 : ℝ) - 1 / 10 ^ 9 ≤ 6196328018 / 4294967296 * 0.6931471803 := by norm_num
    linarith
  · have : (6196328018 / 4294967296 : ℝ) * 0.6931471808 ≤ 1 + 1 / 10 ^ 9 := by norm_num
    linarith

theorem exp_scale (l : ℕ) (x : ℚ) : Real.exp (scale l * x) = 2 ^ ((T l x : ℚ) : ℝ) := by
  rw [Real.rpow_def_of_pos (by norm_num)]
  unfold scale T
  push_cast
  congr 1; ring

theorem H_err {l : ℕ} {f : Fmt} (hW : 1 ≤ f.W) {x : ℚ} (hx : f.Rep x) :
    |(H l f x : ℝ) - Real.exp (scale l * x)| ≤ Real.exp (scale l * x) / 400 := by
  rw [exp_scale]
  unfold H
  split_ifs with h
  · exact Proof.PowPwl.core_err _
  · obtain ⟨r, -, -, hr⟩ := pow_rep (l := l) hW hx
    have hF : (powFmt l f).F ≤ 0 := by unfold Fmt.F; omega
    obtain ⟨n, hn⟩ : ∃ n : ℕ, -(powFmt l f).F = n := ⟨(-(powFmt l f).F).toNat, by omega⟩
    have e : T l x = ((r * 2 ^ n : ℤ) : ℚ) := by rw [hr]; unfold Fmt.val; rw [hn, zpow_natCast]; push_cast; rfl
    have : ((2 : ℚ) ^ ⌊T l x⌋ : ℚ) = ((2 : ℚ) ^ (r * 2 ^ n : ℤ)) := by rw [e, Int.floor_intCast]
    rw [this, e]
    have e2 : (((2 : ℚ) ^ (r * 2 ^ n : ℤ) : ℚ) : ℝ) = 2 ^ (((r * 2 ^ n : ℤ) : ℚ) : ℝ) := by
      rw [Rat.cast_intCast, Real.rpow_intCast]; push_cast; rfl
    rw [e2, sub_self, abs_zero]
    positivity

/-- The quotient of numbers known to a relative error. -/
theorem quotient_err {p P s S R w : ℝ} (hP : 0 ≤ P) (hPS : P ≤ S) (hS : 1 ≤ S) (hw : w ≤ 1 / 400)
    (p0 : 0 ≤ p) (p1 : p ≤ P * (401 / 400)) (p2 : P * (399 / 400) - w ≤ p)
    (s1 : s ≤ S * (401 / 400)) (s2 : S * (398 / 400) ≤ s) (hR : 0 < R) (hsR : |s * R - 1| ≤ 1 / 500) :
    |p * R - P / S| ≤ 1 / 100 := by
  have hs := abs_le.1 hsR
  have hS0 : 0 < S := by linarith
  have hr0 : 0 ≤ p * R := mul_nonneg p0 hR.le
  set Q := P / S with hQ
  have hQS : P = Q * S := by rw [hQ]; field_simp
  have Q0 : 0 ≤ Q := div_nonneg hP hS0.le
  have Q1 : Q ≤ 1 := by rw [hQ, div_le_one hS0]; exact hPS
  -- `p * (s * R)` both ways
  have u1 : p * (s * R) ≤ p * (501 / 500) := mul_le_mul_of_nonneg_left (by linarith) p0
  have u2 : p * (499 / 500) ≤ p * (s * R) := mul_le_mul_of_nonneg_left (by linarith) p0
  have v1 : p * R * (S * (398 / 400)) ≤ p * R * s := mul_le_mul_of_nonneg_left s2 hr0
  have v2 : p * R * s ≤ p * R * (S * (401 / 400)) := mul_le_mul_of_nonneg_left s1 hr0
  have e : p * R * s = p * (s * R) := by ring
  rw [abs_le]
  constructor
  · have h1 : (Q * S * (399 / 400) - w) * (499 / 500) ≤ p * R * S * (401 / 400) := by
      have : (Q * S * (399 / 400) - w) * (499 / 500) ≤ p * (499 / 500) :=
        mul_le_mul_of_nonneg_right (by rw [← hQS]; exact p2) (by norm_num)
      linarith
    by_contra hc
    have h2 : p * R < Q - 1 / 100 := by linarith
    have h3 := mul_lt_mul_of_pos_right h2 hS0
    have h4 := mul_le_mul_of_nonneg_right Q1 hS0.le
    linarith
  · have h1 : p * R * S * (398 / 400) ≤ Q * S * (401 / 400) * (501 / 500) := by
      have : p * (501 / 500) ≤ Q * S * (401 / 400) * (501 / 500) :=
        mul_le_mul_of_nonneg_right (by rw [← hQS]; exact p1) (by norm_num)
      linarith
    by_contra hc
    have h2 : Q + 1 / 100 < p * R := by linarith
    have h3 := mul_lt_mul_of_pos_right h2 hS0
    have h4 := mul_le_mul_of_nonneg_right Q1 hS0.le
    linarith

set_option maxHeartbeats 1000000 in
theorem softmax_err {e : ℕ} {l : ℕ} {f : Fmt} (hW : 1 ≤ f.W) {K : ℕ} (hKe : 400 * K ≤ 2 ^ e)
    {x : ℕ → ℚ} (hx : ∀ i < K, f.Rep (x i)) {m : ℕ} (hm : m < K) {R : ℚ} (hR : 0 < R)
    (hs : |(∑ i ∈ Finset.range K, trunc e (H l f (x i) * 2 ^ (-⌊T l (x m)⌋))) * R - 1| ≤ 1 / 500) {i : ℕ} (hi : i < K) :
    |((trunc e (H l f (x i) * 2 ^ (-⌊T l (x m)⌋)) * R : ℚ) : ℝ) -
      Real.exp (scale l * x i) / ∑ j ∈ Finset.range K, Real.exp (scale l * x j)| ≤ 1 / 100 := by
  set z : ℝ := 2 ^ (-⌊T l (x m)⌋) with hz
  have z0 : 0 < z := by rw [hz]; positivity
  set P : ℕ → ℝ := fun j => Real.exp (scale l * x j) * z with hP
  set p : ℕ → ℚ := fun j => trunc e (H l f (x j) * 2 ^ (-⌊T l (x m)⌋)) with hp
  have w0 : (0 : ℝ) < 1 / 2 ^ e := by positivity
  have P0 : ∀ j, 0 ≤ P j := fun j => mul_nonneg (Real.exp_pos _).le z0.le
  have y0 : ∀ j, 0 ≤ H l f (x j) * 2 ^ (-⌊T l (x m)⌋) := fun j => mul_nonneg (H_pos _ _ _).le (Fmt.z_pos _).le
  have hb : ∀ j < K, (0 : ℝ) ≤ p j ∧ (p j : ℝ) ≤ P j * (401 / 400) ∧ P j * (399 / 400) - 1 / 2 ^ e ≤ p j := by
    intro j hj
    have h1 := abs_le.1 (H_err (l := l) hW (hx j hj))
    have h2 := trunc_le e (H l f (x j) * 2 ^ (-⌊T l (x m)⌋))
    have h3 := (lt_trunc e (H l f (x j) * 2 ^ (-⌊T l (x m)⌋))).le
    have h2' : (p j : ℝ) ≤ ((H l f (x j) * 2 ^ (-⌊T l (x m)⌋) : ℚ) : ℝ) := by exact_mod_cast h2
    have h3' : ((H l f (x j) * 2 ^ (-⌊T l (x m)⌋) : ℚ) : ℝ) ≤ ((p j + 1 / 2 ^ e : ℚ) : ℝ) := by exact_mod_cast h3
    push_cast at h2' h3'
    rw [← hz] at h2' h3'
    have h4 := mul_le_mul_of_nonneg_right (show (H l f (x j) : ℝ) ≤ Real.exp (scale l * x j) * (401 / 400) by linarith [h1.2]) z0.le
    have h5 := mul_le_mul_of_nonneg_right (show Real.exp (scale l * x j) * (399 / 400) ≤ (H l f (x j) : ℝ) by linarith [h1.1]) z0.le
    refine ⟨by exact_mod_cast trunc_nonneg e (y0 j), ?_, ?_⟩
    · simp only [hP]; linarith
    · simp only [hP]; linarith
  have hKw : (K : ℝ) * (1 / 2 ^ e) ≤ 1 / 400 := by
    have : ((400 * K : ℕ) : ℝ) ≤ ((2 ^ e : ℕ) : ℝ) := by exact_mod_cast hKe
    push_cast at this
    rw [mul_one_div, div_le_iff₀ (by positivity)]
    linarith
  have hK1 : (1 : ℝ) ≤ K := by exact_mod_cast (by omega : 1 ≤ K)
  have hw : (1 / 2 ^ e : ℝ) ≤ 1 / 400 := by
    have := mul_le_mul_of_nonneg_right hK1 w0.le
    linarith
  set S : ℝ := ∑ j ∈ Finset.range K, P j with hS
  have hPS : ∀ j < K, P j ≤ S := fun j hj => Finset.single_le_sum (fun i _ => P0 i) (Finset.mem_range.2 hj)
  have hPm : 1 ≤ P m := by
    simp only [hP]
    rw [exp_scale, hz, ← Real.rpow_intCast, ← Real.rpow_add (by norm_num)]
    apply Real.one_le_rpow (by norm_num)
    have : ((⌊T l (x m)⌋ : ℚ) : ℝ) ≤ ((T l (x m) : ℚ) : ℝ) := by exact_mod_cast Int.floor_le (T l (x m))
    push_cast at this ⊢
    linarith
  have hS1 : 1 ≤ S := le_trans hPm (hPS m hm)
  have hsum : ((∑ j ∈ Finset.range K, p j : ℚ) : ℝ) = ∑ j ∈ Finset.range K, (p j : ℝ) := by push_cast; rfl
  have s1 : ((∑ j ∈ Finset.range K, p j : ℚ) : ℝ) ≤ S * (401 / 400) := by
    rw [hsum, hS, Finset.sum_mul]
    exact Finset.sum_le_sum fun j hj => (hb j (Finset.mem_range.1 hj)).2.1
  have s2 : S * (398 / 400) ≤ ((∑ j ∈ Finset.range K, p j : ℚ) : ℝ) := by
    have h1 : ∑ j ∈ Finset.range K, (P j * (399 / 400) - 1 / 2 ^ e) ≤ ∑ j ∈ Finset.range K, (p j : ℝ) :=
      Finset.sum_le_sum fun j hj => (hb j (Finset.mem_range.1 hj)).2.2
    rw [Finset.sum_sub_distrib, ← Finset.sum_mul, Finset.sum_const, Finset.card_range, nsmul_eq_mul] at h1
    rw [hsum]
    linarith
  have hs' : |((∑ j ∈ Finset.range K, p j : ℚ) : ℝ) * R - 1| ≤ 1 / 500 := by
    have : ((|(∑ j ∈ Finset.range K, p j) * R - 1| : ℚ) : ℝ) ≤ ((1 / 500 : ℚ) : ℝ) := by exact_mod_cast hs
    push_cast at this ⊢
    exact this
  have key := quotient_err (P0 i) (hPS i hi) hS1 hw (hb i hi).1 (hb i hi).2.1 (hb i hi).2.2 s1 s2
    (show (0 : ℝ) < (R : ℝ) by exact_mod_cast hR) hs'
  have hq : P i / S = Real.exp (scale l * x i) / ∑ j ∈ Finset.range K, Real.exp (scale l * x j) := by
    rw [hS]; simp only [hP]; rw [← Finset.sum_mul, mul_div_mul_right _ _ z0.ne']
  rw [hq] at key
  push_cast
  exact key

end Proof.Softmax
