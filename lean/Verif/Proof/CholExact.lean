import Verif.Proof.Chol
import Verif.Model.CholExact
import Mathlib.Analysis.Complex.Order
import Mathlib.LinearAlgebra.Matrix.PosDef
import Mathlib.LinearAlgebra.Matrix.Block
import Mathlib.LinearAlgebra.Matrix.ToLinearEquiv

/-! # Cholesky decomposition with exact arithmetic -/

namespace Proof.Chol
open Ac Model.Chol Matrix
open scoped ComplexOrder ComplexConjugate

variable {𝕜 : Type} [RCLike 𝕜]

theorem forUp_sub {β : Type*} [AddCommGroup β] (g : ℕ → β) (n : ℕ) (s : β) :
    forUp (fun k s => s - g k) n s = s - ∑ k ∈ Finset.range n, g k := by
  induction n with
  | zero => simp [forUp]
  | succ n ih => rw [forUp, ih, Finset.sum_range_succ]; abel

theorem crout_pivot {M : ℕ} {A L : Mem 𝕜} {p : ℕ → ℝ} {c : ℕ} (h : Crout (exactOps 𝕜) M A L p c) {j : ℕ} (hj : j < c) :
    p j = RCLike.re (A j j) - ∑ k ∈ Finset.range j, RCLike.normSq (L j k) := by
  rw [h.pivot j hj]; exact forUp_sub (fun k => RCLike.normSq (L j k)) j _

theorem crout_below {M : ℕ} {A L : Mem 𝕜} {p : ℕ → ℝ} {c : ℕ} (h : Crout (exactOps 𝕜) M A L p c) {i j : ℕ} (hj : j < c)
    (hi : i < M) (hji : j < i) (hp : 0 < p j) :
    A i j = ∑ k ∈ Finset.range (j + 1), L i k * conj (L j k) := by
  have h1 := h.below j hj i hi hji
  have h2 : L i j = ((1 / Real.sqrt (p j) : ℝ) : 𝕜) * (A i j - ∑ k ∈ Finset.range j, L i k * conj (L j k)) := by
    rw [h1, ← forUp_sub (fun k => L i k * conj (L j k)) j (A i j)]; rfl
  have h3 : L j j = ((Real.sqrt (p j) : ℝ) : 𝕜) := h.diag j hj
  have hs : ((Real.sqrt (p j) : ℝ) : 𝕜) ≠ 0 := by
    rw [Ne, RCLike.ofReal_eq_zero]; exact (Real.sqrt_pos.mpr hp).ne'
  rw [Finset.sum_range_succ, h2, h3, RCLike.conj_ofReal, RCLike.ofReal_div, RCLike.ofReal_one]
  field_simp
  ring

theorem crout_diag {M : ℕ} {A L : Mem 𝕜} {p : ℕ → ℝ} {c : ℕ} (h : Crout (exactOps 𝕜) M A L p c) {j : ℕ} (hj : j < c)
    (hA : conj (A j j) = A j j) :
    A j j = ∑ k ∈ Finset.range j, L j k * conj (L j k) + ((p j : ℝ) : 𝕜) := by
  have h1 : ((RCLike.re (A j j) : ℝ) : 𝕜) = A j j := RCLike.conj_eq_iff_re.mp hA
  rw [crout_pivot h hj, RCLike.ofReal_sub, h1, RCLike.ofReal_sum]
  have : ∀ k, ((RCLike.normSq (L j k) : ℝ) : 𝕜) = L j k * conj (L j k) := fun k => (RCLike.mul_conj (L j k)).symm ▸ by
    rw [RCLike.normSq_eq_def']; simp
  simp only [this]
  ring

/-- The lower triangle of `L` in the columns before `c`. -/
def low (n c : ℕ) (L : Mem 𝕜) : Matrix (Fin n) (Fin n) 𝕜 := fun i k => if k.1 ≤ i.1 ∧ k.1 < c then L i k else 0

theorem low_mul {n c : ℕ} {L : Mem 𝕜} (hc : c ≤ n) (i j : Fin n) (hij : j ≤ i) :
    (low n c L * (low n c L)ᴴ) i j = ∑ k ∈ Finset.range (min c (j + 1)), L i k * conj (L j k) := by
  rw [Matrix.mul_apply]
  have : ∀ k : Fin n, low n c L i k * (low n c L)ᴴ k j =
      (fun k : ℕ => if k < min c (j.1 + 1) then L i k * conj (L j k) else 0) k := by
    intro k
    simp only [Matrix.conjTranspose_apply, low]
    have hij' : j.1 ≤ i.1 := hij
    by_cases h : k.1 ≤ j.1 ∧ k.1 < c
    · rw [if_pos (by omega), if_pos h, if_pos (by omega)]; rfl
    · rw [if_neg h, if_neg (show ¬ k.1 < min c (j.1 + 1) by omega), star_zero, mul_zero]
  rw [Finset.sum_congr rfl fun k _ => this k,
    Fin.sum_univ_eq_sum_range (fun k : ℕ => if k < min c (j.1 + 1) then L i k * conj (L j k) else 0), ← Finset.sum_filter]
  congr 1
  ext k
  simp only [Finset.mem_filter, Finset.mem_range]
  have := j.2
  omega

theorem herm_ext {n : ℕ} {A B : Matrix (Fin n) (Fin n) 𝕜} (hA : A.IsHermitian) (hB : B.IsHermitian)
    (h : ∀ i j, j ≤ i → A i j = B i j) : A = B := by
  ext i j
  rcases le_total j i with hij | hij
  · exact h i j hij
  · rw [← hA.apply i j, ← hB.apply i j, h j i hij]

/-- All pivots positive: the factor reproduces the matrix. -/
theorem factor {M : ℕ} {A L : Mem 𝕜} {p : ℕ → ℝ} (hA : (A.mat M M).IsHermitian) (h : Crout (exactOps 𝕜) M A L p M)
    (hp : ∀ j < M, 0 < p j) : low M M L * (low M M L)ᴴ = A.mat M M := by
  refine herm_ext (Matrix.isHermitian_mul_conjTranspose_self _) hA ?_
  intro i j hij
  rw [low_mul le_rfl i j hij, Nat.min_eq_right (by omega)]
  rcases eq_or_lt_of_le hij with rfl | hlt
  · rw [Finset.sum_range_succ]
    have hd := crout_diag h j.2 (hA.apply j j)
    have h3 : L j j = ((Real.sqrt (p j) : ℝ) : 𝕜) := h.diag j j.2
    have : L j j * conj (L j j) = ((p j : ℝ) : 𝕜) := by
      rw [h3, RCLike.conj_ofReal, ← RCLike.ofReal_mul, Real.mul_self_sqrt (hp j j.2).le]
    rw [this, ← hd]; rfl
  · exact (crout_below h j.2 i.2 hlt (hp j j.2)).symm

theorem low_triangular (n c : ℕ) (L : Mem 𝕜) : (low n c L).IsLowerTriangular := by
  intro i j hij
  have : i.1 < j.1 := hij
  simp only [low]; rw [if_neg (by omega)]

theorem posDef_of_pivots {M : ℕ} {A L : Mem 𝕜} {p : ℕ → ℝ} (hA : (A.mat M M).IsHermitian)
    (h : Crout (exactOps 𝕜) M A L p M) (hp : ∀ j < M, 0 < p j) : (A.mat M M).PosDef := by
  rw [← factor hA h hp]
  apply Matrix.PosDef.mul_conjTranspose_self
  have hdet : (low M M L).det ≠ 0 := by
    rw [Matrix.det_of_isLowerTriangular _ (low_triangular M M L)]
    rw [Finset.prod_ne_zero_iff]
    intro j _
    have h3 : L j j = ((Real.sqrt (p j) : ℝ) : 𝕜) := h.diag j j.2
    simp only [low]
    rw [if_pos ⟨le_rfl, j.2⟩, h3, Ne, RCLike.ofReal_eq_zero]
    exact (Real.sqrt_pos.mpr (hp j j.2)).ne'
  exact Matrix.vecMul_injective_of_isUnit ((Matrix.isUnit_iff_isUnit_det _).mpr (isUnit_iff_ne_zero.mpr hdet))

/-- A matrix with a nonpositive pivot is not positive definite. -/
theorem pivots_of_posDef {M : ℕ} {A L : Mem 𝕜} {p : ℕ → ℝ} (hA : (A.mat M M).PosDef)
    (h : Crout (exactOps 𝕜) M A L p M) : ∀ j < M, 0 < p j := by
  intro j
  induction j using Nat.strong_induction_on with
  | _ j ih =>
    intro hj
    have hmin : ∀ k < j, 0 < p k := fun k hk => ih k hk (by omega)
    by_contra hneg
    let e : Fin (j + 1) → Fin M := fun k => ⟨k, by omega⟩
    have he : Function.Injective e := fun a b hab => Fin.ext (by simpa [e] using hab)
    have hB : (A.mat (j + 1) (j + 1)).PosDef := hA.submatrix he
    have hH := hA.isHermitian
    set T := low (j + 1) j L with hT
    set d : Fin (j + 1) → 𝕜 := fun k => if k.1 = j then ((p j : ℝ) : 𝕜) else 0 with hd
    have key : A.mat (j + 1) (j + 1) = T * Tᴴ + Matrix.diagonal d := by
      refine herm_ext hB.isHermitian ((Matrix.isHermitian_mul_conjTranspose_self _).add ?_) ?_
      · apply Matrix.isHermitian_diagonal_of_self_adjoint
        ext k
        simp only [hd, Pi.star_apply]
        split_ifs
        · exact RCLike.conj_ofReal _
        · simp
      · intro i k hki
        have hki' : k.1 ≤ i.1 := hki
        rw [Matrix.add_apply, hT, low_mul (by omega) i k hki]
        rcases Nat.eq_or_lt_of_le (show k.1 ≤ j by omega) with hkj | hkj
        · have hik : i = k := Fin.ext (by omega)
          subst hik
          rw [Matrix.diagonal_apply_eq, Nat.min_eq_left (by omega)]
          have := crout_diag h hj (hH.apply ⟨j, hj⟩ ⟨j, hj⟩)
          simp only [hd, hkj, if_true]
          change A i.1 i.1 = _
          rw [hkj, this]
        · rw [Nat.min_eq_right (by omega)]
          rcases eq_or_lt_of_le hki with rfl | hlt
          · rw [Matrix.diagonal_apply_eq, Finset.sum_range_succ]
            have hd' := crout_diag h (show k.1 < M by omega) (hH.apply ⟨k, by omega⟩ ⟨k, by omega⟩)
            have h3 : L k k = ((Real.sqrt (p k) : ℝ) : 𝕜) := h.diag k (by omega)
            have : L k k * conj (L k k) = ((p k : ℝ) : 𝕜) := by
              rw [h3, RCLike.conj_ofReal, ← RCLike.ofReal_mul, Real.mul_self_sqrt (hmin k hkj).le]
            simp only [hd, hkj.ne, if_false, add_zero]
            rw [this, ← hd']; rfl
          · rw [Matrix.diagonal_apply_ne _ (ne_of_gt hlt), add_zero]
            exact crout_below h (by omega) (by omega) hlt (hmin k hkj)
    have hdet : T.det = 0 := by
      apply Matrix.det_eq_zero_of_column_eq_zero (Fin.last j)
      intro i
      simp only [hT, low]
      rw [if_neg]
      simp
    obtain ⟨v, hv, hv0⟩ := Matrix.exists_vecMul_eq_zero_iff.mpr hdet
    have hpos := hB.dotProduct_mulVec_pos (x := star v) (by simpa using hv)
    rw [star_star, key, Matrix.add_mulVec, dotProduct_add, ← Matrix.mulVec_mulVec, Matrix.dotProduct_mulVec, hv0,
      zero_dotProduct, zero_add] at hpos
    have hval : v ⬝ᵥ (Matrix.diagonal d *ᵥ star v) = ((p j * RCLike.normSq (v (Fin.last j)) : ℝ) : 𝕜) := by
      simp only [dotProduct, Matrix.mulVec_diagonal, Pi.star_apply]
      rw [Finset.sum_eq_single (Fin.last j)]
      · simp only [hd, Fin.val_last, if_true]
        have : ((RCLike.normSq (v (Fin.last j)) : ℝ) : 𝕜) = v (Fin.last j) * conj (v (Fin.last j)) :=
          (RCLike.mul_conj (v (Fin.last j))).symm ▸ by rw [RCLike.normSq_eq_def']; simp
        rw [RCLike.ofReal_mul, this]
        change v (Fin.last j) * (_ * conj (v (Fin.last j))) = _
        ring
      · intro b _ hb
        have : b.1 ≠ j := fun hbj => hb (Fin.ext (by simpa using hbj))
        simp [hd, this]
      · simp
    rw [hval] at hpos
    have h1 : 0 < p j * RCLike.normSq (v (Fin.last j)) := by
      have := (RCLike.pos_iff.mp hpos).1
      simpa using this
    have h2 : p j * RCLike.normSq (v (Fin.last j)) ≤ 0 :=
      mul_nonpos_of_nonpos_of_nonneg (not_lt.mp hneg) (RCLike.normSq_nonneg _)
    linarith

end Proof.Chol
