import Verif.Model.StdChol
import Verif.Proof.CholFloat
import Verif.Proof.StdFloat
import Verif.Props.CholFloat
import Verif.Props.SqrtPwl

/-! # The Cholesky decomposition for ac_std_float and ac_ieee_float -/

namespace Proof.StdChol
open Ac Model.Chol Model.CholFloat Spec.CholFloat
open Finset (range single_le_sum mem_range)
open Model.Float (FFmt Dst)

/-- A diagonal element is a number of the output type, whatever the sum is. -/
theorem diag_num (pwl : Bool) {out : FFmt} (imd : FFmt) (hW : 2 ≤ out.W) (junk s : ℚ) : IsNum out (diag pwl out imd junk s) := by
  cases pwl
  · simp only [diag, Model.Float.sqrt]
    exact Proof.FloatNum.cvt_isNum hW _
  · obtain ⟨y, hy⟩ := Option.isSome_iff_exists.1 (Props.SqrtPwl.C30_in_table .TRN false (Model.Float.posMant imd)
      (Model.Complex.rtSqrt (imd.W - imd.I) (imd.I - 1)) ((Model.Float.posMant imd).cvt (rep imd s).1))
    simp only [diag, Model.Float.sqrtPwl, if_true]
    rw [hy]
    exact Proof.FloatNum.cvt_isNum hW _

theorem zero_num {t : FFmt} (hW : 2 ≤ t.W) : IsNum t 0 := by
  have := Proof.FloatNum.cvt_isNum hW (0 : ℚ)
  have h0 : t.cvt 0 = 0 := by simp [FFmt.cvt]
  rwa [h0] at this

/-- So is every element of the output. -/
theorem entries {pwl : Bool} {out imd : FFmt} (hW : 2 ≤ out.W) {sub : ℚ → ℚ → ℚ} {junk : ℚ} {M : ℕ} {A L R : Mem ℚ}
    (h : chol (floatOps pwl out imd sub junk) M A L = some R) {i j : ℕ} (hi : i < M) (hj : j < M) : IsNum out (R i j) := by
  obtain ⟨R', L', p, h1, hC, h2⟩ := Proof.Chol.chol_eq (floatOps pwl out imd sub junk) M A L (fun _ => 0)
  have : R = R' := Option.some.inj (h.symm.trans h1)
  rw [this, h2, if_pos ⟨hi, hj⟩]
  split_ifs with hz
  · exact zero_num hW
  · rcases lt_or_ge j i with hl | hl
    · rw [hC.below j hj i hi hl]; exact Proof.FloatNum.cvt_isNum hW _
    · have : i = j := by push Not at hz; omega
      rw [this, hC.diag j hj]; exact diag_num pwl imd hW junk _

/-- Products of perturbed numbers. -/
theorem prod_err {x y x' y' X s : ℚ} (hX : |x| ≤ X) (hY : |y| ≤ X) (hx : |x' - x| ≤ s) (hy : |y' - y| ≤ s) :
    |x * y - x' * y'| ≤ (2 * X + s) * s := by
  have h0 : 0 ≤ s := (abs_nonneg _).trans hx
  have e : x * y - x' * y' = -((x' - x) * y) + -(x * (y' - y)) + -((x' - x) * (y' - y)) := by ring
  rw [e]
  refine (abs_add_le _ _).trans ?_
  have a := abs_add_le (-((x' - x) * y)) (-(x * (y' - y)))
  simp only [abs_neg, abs_mul] at *
  have b1 := mul_le_mul hx hY (abs_nonneg _) h0
  have b2 := mul_le_mul hX hy (abs_nonneg _) ((abs_nonneg _).trans hX)
  have b3 := mul_le_mul hx hy (abs_nonneg _) h0
  nlinarith

/-- The elements of a factor whose rows have a bounded length are bounded. -/
theorem elem_le {M : ℕ} {a R : Mem ℚ} {D e X : ℚ} {i j : ℕ} (hj : j < M) (hD : |a i i| ≤ D)
    (he : |a i i - ∑ k ∈ range M, R i k * R i k| ≤ e) (hX : 0 ≤ X) (h : D + e ≤ X ^ 2) : |R i j| ≤ X := by
  have h1 : R i j * R i j ≤ ∑ k ∈ range M, R i k * R i k :=
    single_le_sum (f := fun k => R i k * R i k) (fun k _ => mul_self_nonneg _) (mem_range.2 hj)
  have h2 := (abs_le.1 he).1
  have h3 := (abs_le.1 hD).2
  refine abs_le_of_sq_le_sq ?_ hX
  rw [sq]; linarith

theorem rep_value {t : FFmt} {x : ℚ} : (rep t x).1 * 2 ^ (rep t x).2 = x := by
  unfold rep
  split_ifs with h
  · simp [h]
  · rw [mul_assoc, Fmt.z_add]; simp

end Proof.StdChol
