import Verif.Model.DetComplex
import Verif.Proof.Determinant
import Mathlib.LinearAlgebra.Matrix.Determinant.Basic
import Mathlib.Tactic.Ring
import Mathlib.Tactic.Linarith

/-! # Proofs about ac_determinant for complex numbers -/

namespace Proof.DetComplex
open Ac Model.DetComplex

theorem minor_mat (A : Mem Cx) (n : ℕ) (j : Fin (n + 1)) :
    (minor A j).mat n n = (A.mat (n + 1) (n + 1)).submatrix Fin.succ j.succAbove := by
  ext1 p q
  simp only [Mem.mat, minor, Matrix.submatrix_apply, Fin.val_succ]
  congr 1
  unfold Fin.succAbove
  by_cases h : q.castSucc < j
  · rw [if_pos h, if_pos (show (q : ℕ) + 1 ≤ j from h)]; rfl
  · rw [if_neg h, if_neg (fun h' => h (show (q : ℕ) + 1 ≤ j from h'))]; rfl

/-- A signed type of any mode holds every multiple of its unit strictly within its range. -/
theorem cvt_abs {f : Fmt} (hS : f.S = true) (hW : 1 ≤ f.W) {x : ℚ} (hx : |x| < 2 ^ (f.I - 1)) (hg : f.Grid x) :
    f.cvt x = x := by
  obtain ⟨r, rfl⟩ := hg
  have hb : (-(2 : ℤ) ^ (f.W - 1) < r) ∧ r < 2 ^ (f.W - 1) := by
    unfold Fmt.val at hx
    have e : (2 : ℚ) ^ (f.I - 1) = 2 ^ (f.W - 1) * 2 ^ (-f.F) := by
      rw [← zpow_natCast, Fmt.z_add]
      congr 1
      unfold Fmt.F
      push_cast [Nat.cast_sub hW]
      ring
    rw [abs_mul, abs_of_pos (Fmt.z_pos (-f.F)), e] at hx
    have h := lt_of_mul_lt_mul_right hx (Fmt.z_pos (-f.F)).le
    rw [abs_lt] at h
    constructor
    · have := h.1; exact_mod_cast this
    · have := h.2; exact_mod_cast this
  apply Fmt.cvt_val hW
  · unfold loRaw minRaw maxRaw
    simp only [hS, if_true]
    split_ifs <;> omega
  · unfold maxRaw
    simp only [hS, if_true]
    omega

/-- Both parts are multiples of `2^-F`. -/
def GridC (F : ℤ) (z : Cx) : Prop := ∃ r s : ℤ, z = ⟨r * 2 ^ (-F), s * 2 ^ (-F)⟩

theorem GridC.mono {F G : ℤ} (h : F ≤ G) {z : Cx} (hz : GridC F z) : GridC G z := by
  obtain ⟨r, s, rfl⟩ := hz
  obtain ⟨n, hn⟩ := Int.eq_ofNat_of_zero_le (show 0 ≤ G - F by omega)
  refine ⟨r * 2 ^ n, s * 2 ^ n, ?_⟩
  have e : (2 : ℚ) ^ (-F) = 2 ^ n * 2 ^ (-G) := by
    rw [← zpow_natCast, Fmt.z_add]; congr 1; omega
  rw [e]
  push_cast
  congr 1 <;> ring

theorem GridC.mul {F G : ℤ} {z w : Cx} (hz : GridC F z) (hw : GridC G w) : GridC (F + G) (z * w) := by
  obtain ⟨r, s, rfl⟩ := hz
  obtain ⟨u, v, rfl⟩ := hw
  refine ⟨r * u - s * v, r * v + s * u, ?_⟩
  have e : (2 : ℚ) ^ (-(F + G)) = 2 ^ (-F) * 2 ^ (-G) := by rw [Fmt.z_add]; congr 1; omega
  rw [e]
  ext
  · rw [QuadraticAlgebra.re_mul]; push_cast; ring
  · rw [QuadraticAlgebra.im_mul]; push_cast; ring

theorem GridC.add {F : ℤ} {z w : Cx} (hz : GridC F z) (hw : GridC F w) : GridC F (z + w) := by
  obtain ⟨r, s, rfl⟩ := hz
  obtain ⟨u, v, rfl⟩ := hw
  refine ⟨r + u, s + v, ?_⟩
  ext
  · rw [QuadraticAlgebra.re_add]; push_cast; ring
  · rw [QuadraticAlgebra.im_add]; push_cast; ring

theorem GridC.neg {F : ℤ} {z : Cx} (hz : GridC F z) : GridC F (-z) := by
  obtain ⟨r, s, rfl⟩ := hz
  refine ⟨-r, -s, ?_⟩
  ext
  · rw [QuadraticAlgebra.re_neg]; push_cast; ring
  · rw [QuadraticAlgebra.im_neg]; push_cast; ring

theorem GridC.zero {F : ℤ} : GridC F 0 := ⟨0, 0, by ext <;> simp⟩

theorem GridC.sum {F : ℤ} {ι : Type*} (s : Finset ι) (f : ι → Cx) (h : ∀ i ∈ s, GridC F (f i)) : GridC F (∑ i ∈ s, f i) := by
  classical
  induction s using Finset.induction_on with
  | empty => simpa using GridC.zero
  | insert a s ha ih =>
    rw [Finset.sum_insert ha]
    exact (h a (by simp)).add (ih fun i hi => h i (by simp [hi]))

theorem neg_one_pow_mul (j : ℕ) (z : Cx) : (-1) ^ j * z = z ∨ (-1) ^ j * z = -z := by
  rcases neg_one_pow_eq_or Cx j with h | h <;> rw [h] <;> simp

/-- Both parts are at most `K` in magnitude. -/
def Le (K : ℚ) (z : Cx) : Prop := |z.re| ≤ K ∧ |z.im| ≤ K

theorem Le.mul {K L : ℚ} (hK : 0 ≤ K) {z w : Cx} (hz : Le K z) (hw : Le L w) : Le (2 * (K * L)) (z * w) := by
  have h1 := mul_le_mul hz.1 hw.1 (abs_nonneg _) hK
  have h2 := mul_le_mul hz.2 hw.2 (abs_nonneg _) hK
  have h3 := mul_le_mul hz.1 hw.2 (abs_nonneg _) hK
  have h4 := mul_le_mul hz.2 hw.1 (abs_nonneg _) hK
  rw [← abs_mul] at h1 h2 h3 h4
  constructor
  · rw [QuadraticAlgebra.re_mul]
    have := abs_sub (z.re * w.re) (z.im * w.im)
    rw [show z.re * w.re + -1 * z.im * w.im = z.re * w.re - z.im * w.im by ring]
    linarith
  · rw [QuadraticAlgebra.im_mul]
    have := abs_add_le (z.re * w.im) (z.im * w.re)
    rw [show z.re * w.im + z.im * w.re + 0 * z.im * w.im = z.re * w.im + z.im * w.re by ring]
    linarith

theorem Le.neg {K : ℚ} {z : Cx} (hz : Le K z) : Le K (-z) := by
  unfold Le at *
  rwa [QuadraticAlgebra.re_neg, QuadraticAlgebra.im_neg, abs_neg, abs_neg]

theorem Le.sum {K : ℚ} (hK : 0 ≤ K) {n : ℕ} (s : Finset (Fin n)) (f : Fin n → Cx) (h : ∀ i, Le K (f i)) :
    Le (n * K) (∑ i ∈ s, f i) := by
  have key : Le (s.card * K) (∑ i ∈ s, f i) := by
    classical
    induction s using Finset.induction_on with
    | empty => simp [Le]
    | insert a s ha ih =>
      rw [Finset.sum_insert ha, Finset.card_insert_of_notMem ha]
      obtain ⟨h1, h2⟩ := h a
      obtain ⟨h3, h4⟩ := ih
      push_cast
      constructor
      · rw [QuadraticAlgebra.re_add]
        have := abs_add_le (f a).re (∑ i ∈ s, f i).re
        linarith
      · rw [QuadraticAlgebra.im_add]
        have := abs_add_le (f a).im (∑ i ∈ s, f i).im
        linarith
  have hc : (s.card : ℚ) ≤ n := by exact_mod_cast (Finset.card_le_univ s).trans (by simp)
  have := mul_le_mul_of_nonneg_right hc hK
  exact ⟨key.1.trans this, key.2.trans this⟩

theorem grid_det {F : ℤ} : ∀ (n : ℕ) (A : Matrix (Fin n) (Fin n) Cx), (∀ i j, GridC F (A i j)) → GridC (n * F) A.det := by
  intro n
  induction n with
  | zero => intro A _; rw [Matrix.det_fin_zero]; exact ⟨1, 0, by ext <;> simp <;> rfl⟩
  | succ n ih =>
    intro A hA
    rw [Matrix.det_succ_row_zero]
    refine GridC.sum _ _ fun j _ => ?_
    have h := (hA 0 j).mul (ih (A.submatrix Fin.succ j.succAbove) fun p q => hA _ _)
    rw [show F + n * F = ((n + 1 : ℕ) : ℤ) * F by push_cast; ring] at h
    rw [mul_assoc]
    rcases neg_one_pow_mul (j : ℕ) (A 0 j * (A.submatrix Fin.succ j.succAbove).det) with e | e <;> rw [e]
    · exact h
    · exact h.neg

/-- A bound of both parts of a determinant of size `k`. -/
def bnd (K : ℚ) (k : ℕ) : ℚ := k.factorial * 2 ^ (k - 1) * K ^ k

theorem bnd_nonneg {K : ℚ} (hK : 0 ≤ K) (k : ℕ) : 0 ≤ bnd K k := by unfold bnd; positivity

theorem bnd_succ (K : ℚ) (k : ℕ) : bnd K (k + 2) = ((k + 2 : ℕ) : ℚ) * (2 * (K * bnd K (k + 1))) := by
  unfold bnd
  rw [Nat.factorial_succ (k + 1), show k + 2 - 1 = k + 1 by omega, show k + 1 - 1 = k by omega]
  push_cast
  ring

theorem det_bound {K : ℚ} (hK : 0 ≤ K) : ∀ (n : ℕ) (A : Matrix (Fin (n + 1)) (Fin (n + 1)) Cx), (∀ i j, Le K (A i j)) →
    Le (bnd K (n + 1)) A.det := by
  intro n
  induction n with
  | zero =>
    intro A hA
    rw [Matrix.det_fin_one]
    simpa [bnd] using hA 0 0
  | succ n ih =>
    intro A hA
    rw [Matrix.det_succ_row_zero, bnd_succ]
    have h0 := bnd_nonneg hK (n + 1)
    refine Le.sum (by positivity) _ _ fun j => ?_
    have h := (hA 0 j).mul hK (ih (A.submatrix Fin.succ j.succAbove) fun p q => hA _ _)
    rw [mul_assoc]
    rcases neg_one_pow_mul (j : ℕ) (A 0 j * (A.submatrix Fin.succ j.succAbove).det) with e | e <;> rw [e]
    · exact h
    · exact h.neg

theorem grid_of {f : Fmt} {F : ℤ} (hF : F ≤ f.F) {z : Cx} (h : GridC F z) : f.Grid z.re ∧ f.Grid z.im := by
  obtain ⟨r, s, rfl⟩ := h.mono hF
  exact ⟨⟨r, rfl⟩, ⟨s, rfl⟩⟩

theorem cvt_le {f : Fmt} (hS : f.S = true) (hW : 1 ≤ f.W) {F : ℤ} (hF : F ≤ f.F) {K : ℚ} (hK : K < 2 ^ (f.I - 1)) {z : Cx}
    (hz : Le K z) (hg : GridC F z) : cvt f z = z := by
  obtain ⟨g1, g2⟩ := grid_of hF hg
  unfold cvt
  rw [cvt_abs hS hW (lt_of_le_of_lt hz.1 hK) g1, cvt_abs hS hW (lt_of_le_of_lt hz.2 hK) g2]

end Proof.DetComplex
