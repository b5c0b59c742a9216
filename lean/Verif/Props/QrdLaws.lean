import Verif.Props.Qrd
import Verif.Props.CholLaws
import Mathlib.LinearAlgebra.Matrix.Block

/-! # C103: laws of the QR decomposition

Exact real or complex arithmetic, for runs of `ac_qrd` that meet no division by zero (as in C24): `qrd true rd sat M A …` is the
run with the macro ASSERT_ON_INVALID_INPUT, in which no assertion fails; `rd` is the template argument `real_diag`. -/

namespace Props.QrdLaws
open Ac Model.Qrd Matrix Props.Qrd
open scoped ComplexConjugate ComplexOrder

variable {𝕜 : Type} [RCLike 𝕜]

/-- **C103**, Gram matrix: the product of R with its conjugate transpose is that of A. -/
theorem C103_gram {M : ℕ} (hM : 2 * M < 2 ^ 32) (rd : Bool) (sat : ℝ) (A junk Q0 R0 Q R : Mem 𝕜)
    (h : qrd true rd sat M A junk Q0 R0 = some (Q, R)) :
    (R.mat M M)ᴴ * R.mat M M = (A.mat M M)ᴴ * A.mat M M := by
  have q := (C24_decomposition_partial hM rd sat A junk Q0 R0 Q R h).1
  rw [← q.product, Matrix.conjTranspose_mul, Matrix.mul_assoc, ← Matrix.mul_assoc _ (Q.mat M M), q.unitary, Matrix.one_mul]

/-- **C103**, determinant: up to its sign (phase for complex numbers), the determinant of A is the product of the diagonal
elements of R. -/
theorem C103_det {M : ℕ} (hM : 2 * M < 2 ^ 32) (rd : Bool) (sat : ℝ) (A junk Q0 R0 Q R : Mem 𝕜)
    (h : qrd true rd sat M A junk Q0 R0 = some (Q, R)) :
    ‖(A.mat M M).det‖ = ‖∏ i, R.mat M M i i‖ := by
  have q := (C24_decomposition_partial hM rd sat A junk Q0 R0 Q R h).1
  have u : ‖(Q.mat M M).det‖ = 1 := by
    have := congrArg Matrix.det q.unitary
    rw [Matrix.det_mul, Matrix.det_conjTranspose, Matrix.det_one] at this
    have := congrArg norm this
    rw [norm_mul, norm_star, norm_one] at this
    nlinarith [norm_nonneg (Q.mat M M).det]
  rw [← Matrix.det_of_upperTriangular (M := R.mat M M) fun i j hij => q.upper i j hij, ← q.product, Matrix.det_mul, norm_mul, u,
    one_mul]

/-- **C103**, diagonal: for an invertible matrix the diagonal of R is positive, the last element if `real_diag` is set. -/
theorem C103_positive {M : ℕ} (hM : 2 * M < 2 ^ 32) (rd : Bool) (sat : ℝ) (A junk Q0 R0 Q R : Mem 𝕜)
    (h : qrd true rd sat M A junk Q0 R0 = some (Q, R)) (hA : (A.mat M M).det ≠ 0) (i : Fin M) (hi : rd = true ∨ i.1 + 1 < M) :
    0 < R.mat M M i i := by
  have d := C103_det hM rd sat A junk Q0 R0 Q R h
  refine lt_of_le_of_ne ((C24_decomposition_partial hM rd sat A junk Q0 R0 Q R h).2.1 i hi) fun e => hA ?_
  rw [← norm_eq_zero, d, norm_eq_zero]
  exact Finset.prod_eq_zero (Finset.mem_univ i) e.symm

/-- The triangular factor with positive diagonal is the conjugate transpose of the Cholesky factor of the Gram matrix. -/
theorem chol_of_qr {M : ℕ} {A Q : Matrix (Fin M) (Fin M) 𝕜} {R : Mem 𝕜} (q : IsQR A Q (R.mat M M)) (hp : ∀ i, 0 < R.mat M M i i)
    {B : Mem 𝕜} (L0 : Mem 𝕜) (hB : B.mat M M = Aᴴ * A) :
    ∃ L, Model.Chol.chol (Model.Chol.exactOps 𝕜) M B L0 = some L ∧ ∀ i < M, ∀ j < M, R i j = conj (L j i) := by
  have g : (R.mat M M)ᴴ * R.mat M M = Aᴴ * A := by
    rw [← q.product, Matrix.conjTranspose_mul, Matrix.mul_assoc, ← Matrix.mul_assoc _ Q, q.unitary, Matrix.one_mul]
  obtain ⟨L, e, hL⟩ := CholLaws.C98_unique M B L0 (fun i j => conj (R j i))
    (fun i hi j hj hij => by
      have := q.upper ⟨j, hj⟩ ⟨i, hi⟩ hij
      simp only [Mem.mat] at this
      rw [this, map_zero])
    (fun i hi => by
      have p := hp ⟨i, hi⟩
      simp only [Mem.mat] at p
      obtain ⟨p1, p2⟩ := RCLike.pos_iff.1 p
      have hz : conj (R i i) = R i i := RCLike.conj_eq_iff_im.2 p2
      exact ⟨RCLike.re (R i i), p1, hz.trans (RCLike.conj_eq_iff_re.1 hz).symm⟩)
    (fun i hi j hj => by
      have := congrFun (congrFun (hB.trans g.symm) ⟨i, hi⟩) ⟨j, hj⟩
      rw [Matrix.mul_apply] at this
      simp only [Mem.mat, Matrix.conjTranspose_apply] at this
      rw [this, ← Fin.sum_univ_eq_sum_range (fun k => conj (R k i) * conj (conj (R k j)))]
      refine Finset.sum_congr rfl fun k _ => ?_
      rw [RCLike.conj_conj]; rfl)
  refine ⟨L, e, fun i hi j hj => ?_⟩
  rw [hL j hj i hi, RCLike.conj_conj]

/-- **C103**, Cholesky: for an invertible matrix, R is the conjugate transpose of what ac_chol_d computes for the product of the
conjugate transpose of A and A. -/
theorem C103_chol {M : ℕ} (hM : 2 * M < 2 ^ 32) (sat : ℝ) (A junk Q0 R0 Q R B L0 : Mem 𝕜)
    (h : qrd true true sat M A junk Q0 R0 = some (Q, R)) (hA : (A.mat M M).det ≠ 0) (hB : B.mat M M = (A.mat M M)ᴴ * A.mat M M) :
    ∃ L, Model.Chol.chol (Model.Chol.exactOps 𝕜) M B L0 = some L ∧ ∀ i < M, ∀ j < M, R i j = conj (L j i) :=
  chol_of_qr (C24_decomposition_partial hM true sat A junk Q0 R0 Q R h).1
    (fun i => C103_positive hM true sat A junk Q0 R0 Q R h hA i (Or.inl rfl)) L0 hB

/-- **C103**, uniqueness: for an invertible matrix the output is the only QR decomposition with a positive diagonal. -/
theorem C103_unique {M : ℕ} (hM : 2 * M < 2 ^ 32) (sat : ℝ) (A junk Q0 R0 Q R : Mem 𝕜)
    (h : qrd true true sat M A junk Q0 R0 = some (Q, R)) (hA : (A.mat M M).det ≠ 0) {Q' R' : Matrix (Fin M) (Fin M) 𝕜}
    (h' : IsQR (A.mat M M) Q' R') (hp : ∀ i, 0 < R' i i) : Q.mat M M = Q' ∧ R.mat M M = R' := by
  have q := (C24_decomposition_partial hM true sat A junk Q0 R0 Q R h).1
  let m : Matrix (Fin M) (Fin M) 𝕜 → Mem 𝕜 := fun X i j => if h : i < M ∧ j < M then X ⟨i, h.1⟩ ⟨j, h.2⟩ else 0
  have hm : ∀ X, (m X).mat M M = X := fun X => by ext i j; simp [m, Mem.mat]
  obtain ⟨L, e, hL⟩ := C103_chol hM sat A junk Q0 R0 Q R (m ((A.mat M M)ᴴ * A.mat M M)) (fun _ _ => 0) h hA (hm _)
  obtain ⟨L', e', hL'⟩ := chol_of_qr (R := m R') ((hm R').symm ▸ h') (by rw [hm]; exact hp) (fun _ _ => 0)
    (hm ((A.mat M M)ᴴ * A.mat M M))
  have hLL : L = L' := Option.some.inj (e.symm.trans e')
  have hR : R.mat M M = R' := by
    rw [← hm R']
    ext i j
    simp only [Mem.mat]
    rw [hL i i.2 j j.2, hL' i i.2 j j.2, hLL]
  refine ⟨?_, hR⟩
  have hd : IsUnit R'.det := by
    rw [isUnit_iff_ne_zero]
    intro h0
    apply hA
    rw [← h'.product, Matrix.det_mul, h0, mul_zero]
  have := q.product.trans h'.product.symm
  rw [hR] at this
  have t := congrArg (· * R'⁻¹) this
  simpa only [Matrix.mul_assoc, Matrix.mul_nonsing_inv _ hd, Matrix.mul_one] using t

/-- **C103**, rotations: multiplying an invertible matrix from the left by a unitary one does not change R, and multiplies Q. -/
theorem C103_rotate {M : ℕ} (hM : 2 * M < 2 ^ 32) (sat : ℝ) (A A' junk junk' Q0 Q0' R0 R0' Q R Q' R' : Mem 𝕜)
    (h : qrd true true sat M A junk Q0 R0 = some (Q, R)) (h' : qrd true true sat M A' junk' Q0' R0' = some (Q', R'))
    (hA : (A.mat M M).det ≠ 0) {U : Matrix (Fin M) (Fin M) 𝕜} (hU : Uᴴ * U = 1) (e : A'.mat M M = U * A.mat M M) :
    R'.mat M M = R.mat M M ∧ Q'.mat M M = U * Q.mat M M := by
  have q := (C24_decomposition_partial hM true sat A junk Q0 R0 Q R h).1
  have d : (A'.mat M M).det ≠ 0 := by
    rw [e, Matrix.det_mul]
    refine mul_ne_zero (fun h0 => ?_) hA
    have := congrArg Matrix.det hU
    rw [Matrix.det_mul, h0, mul_zero, Matrix.det_one] at this
    exact zero_ne_one this
  have t := C103_unique hM sat A' junk' Q0' R0' Q' R' h' d (Q' := U * Q.mat M M) (R' := R.mat M M)
    ⟨by rw [Matrix.mul_assoc, q.product, e], by
      rw [Matrix.conjTranspose_mul, Matrix.mul_assoc, ← Matrix.mul_assoc _ U, hU, Matrix.one_mul, q.unitary], q.upper⟩
    (fun i => C103_positive hM true sat A junk Q0 R0 Q R h hA i (Or.inl rfl))
  exact ⟨t.2, t.1⟩

/-- **C103**, scaling: multiplying an invertible matrix by a positive number multiplies R by it and does not change Q. -/
theorem C103_scale {M : ℕ} (hM : 2 * M < 2 ^ 32) (sat : ℝ) (A A' junk junk' Q0 Q0' R0 R0' Q R Q' R' : Mem 𝕜)
    (h : qrd true true sat M A junk Q0 R0 = some (Q, R)) (h' : qrd true true sat M A' junk' Q0' R0' = some (Q', R'))
    (hA : (A.mat M M).det ≠ 0) {c : ℝ} (hc : 0 < c) (e : A'.mat M M = (c : 𝕜) • A.mat M M) :
    R'.mat M M = (c : 𝕜) • R.mat M M ∧ Q'.mat M M = Q.mat M M := by
  have q := (C24_decomposition_partial hM true sat A junk Q0 R0 Q R h).1
  have c0 : (0 : 𝕜) < (c : 𝕜) := by exact_mod_cast hc
  have d : (A'.mat M M).det ≠ 0 := by
    rw [e, Matrix.det_smul]
    exact mul_ne_zero (pow_ne_zero _ c0.ne') hA
  have t := C103_unique hM sat A' junk' Q0' R0' Q' R' h' d (Q' := Q.mat M M) (R' := (c : 𝕜) • R.mat M M)
    ⟨by rw [Matrix.mul_smul, q.product, e], q.unitary, fun i j hij => by rw [Matrix.smul_apply, q.upper i j hij, smul_zero]⟩
    (fun i => by
      rw [Matrix.smul_apply, smul_eq_mul]
      exact mul_pos c0 (C103_positive hM true sat A junk Q0 R0 Q R h hA i (Or.inl rfl)))
  exact ⟨t.2, t.1⟩

/-- **C103**, the stage for the last diagonal element: for an invertible matrix it meets no division by zero, so a run with
`real_diag` succeeds if the one without does, and differs from it only in the last element of R and the last column of Q. -/
theorem C103_real_diag {M : ℕ} (hM : 2 * M < 2 ^ 32) (h1 : 1 ≤ M) (sat : ℝ) (A junk Q0 R0 Q R : Mem 𝕜)
    (h : qrd true false sat M A junk Q0 R0 = some (Q, R)) (hA : (A.mat M M).det ≠ 0) :
    ∃ Q' R', qrd true true sat M A junk Q0 R0 = some (Q', R') ∧
      (∀ i < M, ∀ j < M, j + 1 < M → Q' i j = Q i j) ∧ ∀ i < M, ∀ j < M, (i + 1 < M ∨ j + 1 < M) → R' i j = R i j := by
  have d := C103_det hM false sat A junk Q0 R0 Q R h
  have r0 : R (M - 1) (M - 1) ≠ 0 := fun e => hA (by
    rw [← norm_eq_zero, d, norm_eq_zero]
    exact Finset.prod_eq_zero (Finset.mem_univ (⟨M - 1, by omega⟩ : Fin M)) e)
  unfold qrd at h ⊢
  cases hc : colLoop true sat M (initMat M A junk) with
  | none => rw [hc] at h; simp at h
  | some A1 =>
    rw [hc, Option.bind_some] at h
    simp only [Bool.false_eq_true, if_false, Option.some.injEq] at h
    have hs := fun i j => Proof.Qrd.separate_eq false M A1 1 Q0 R0 i j
    rw [h] at hs
    have hq : ∀ i j, Q i j = _ := fun i j => (hs i j).1
    have hr : ∀ i j, R i j = _ := fun i j => (hs i j).2
    have a0 : A1 (M - 1) (M - 1) ≠ 0 := by
      have := (hs (M - 1) (M - 1)).2
      simp only [show M - 1 < M by omega, and_self, if_true] at this
      rwa [← this]
    have sq : Real.sqrt (RCLike.normSq (A1 (M - 1) (M - 1))) ≠ 0 := fun e => a0 (RCLike.normSq_eq_zero.1
      (le_antisymm (Real.sqrt_eq_zero'.1 e) (RCLike.normSq_nonneg _)))
    simp only [Option.bind_some, if_true, realDiag, recip, sq, if_false, Option.map_some]
    set A2 := A1.put (M - 1) (M - 1) ((Real.sqrt (RCLike.normSq (A1 (M - 1) (M - 1))) : ℝ) : 𝕜) with hA2
    refine ⟨(separate true M A2 _ Q0 R0).1, (separate true M A2 _ Q0 R0).2, rfl, fun i hi j hj hj1 => ?_, fun i hi j hj hij => ?_⟩
    · rw [(Proof.Qrd.separate_eq true M _ _ Q0 R0 i j).1, hq i j]
      have : ¬ j = M - 1 := by omega
      have t : ¬ (i + M = M - 1) := by omega
      simp [hi, hj, this, hA2, Mem.put]
    · rw [(Proof.Qrd.separate_eq true M _ _ Q0 R0 i j).2, hr i j]
      have : ¬ (i = M - 1 ∧ j = M - 1) := by omega
      simp [hi, hj, this, hA2, Mem.put]

/-- The hypotheses of the laws hold for every invertible matrix of size two. -/
theorem C103_two (sat : ℝ) (A junk Q0 R0 : Mem 𝕜) (hA : (A.mat 2 2).det ≠ 0) :
    ∃ Q R, qrd true true sat 2 A junk Q0 R0 = some (Q, R) := by
  have h0 : A 0 0 ≠ 0 ∨ A 1 0 ≠ 0 := by
    by_contra hc
    push Not at hc
    apply hA
    rw [Matrix.det_fin_two]
    simp [Mem.mat, hc.1, hc.2]
  obtain ⟨⟨Q, R⟩, h⟩ := two_some sat A junk Q0 R0 h0
  obtain ⟨Q', R', h', -⟩ := C103_real_diag (by norm_num) (by norm_num) sat A junk Q0 R0 Q R h hA
  exact ⟨Q', R', h'⟩

example : (Mem.mat 2 2 (fun i j => if i = 0 ∧ j = 0 then (3 : ℝ) else if j = 0 then 4 else if i = 0 then 1 else 2)).det ≠ 0 := by
  rw [Matrix.det_fin_two]; norm_num [Mem.mat]

end Props.QrdLaws
