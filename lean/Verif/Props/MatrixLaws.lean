import Verif.Props.Matrix
import Verif.Props.Determinant
import Mathlib.LinearAlgebra.Matrix.Block

/-! # C95: laws of matrix arithmetic and of determinants

The laws are stated about the contents of the result objects; `j1`, `j2`, ... are the contents of the uninitialised
result variables. -/

namespace Props.MatrixLaws
open Ac Model.Matrix Props.Matrix

/-- Inner dimensions for which `operator*` has room for the sum of the products (C15). -/
def Room (fa fb : Fmt) (N : ℕ) : Prop :=
  (1 ≤ N ∧ N ≤ 2 ^ log2Ceil (N - 1)) ∨ (3 ≤ N ∧ fa.S = true ∧ fb.S = true)

theorem mul_exact {fa fb : Fmt} (ha : 1 ≤ fa.W) (hb : 1 ≤ fb.W) {M N Q : ℕ} (hN : Room fa fb N) {A B : Mem ℚ} (junk : Mem ℚ)
    (hA : AllRep fa M N A) (hB : AllRep fb N Q B) : (mul fa fb M N Q A B junk).mat M Q = A.mat M N * B.mat N Q := by
  rcases hN with ⟨h1, h2⟩ | ⟨h1, h2, h3⟩
  · exact C15_mul_partial ha hb M N Q h1 h2 A B junk hA hB
  · exact C15_mul_signed_partial ha hb h2 h3 M N Q h1 A B junk hA hB

theorem add_rep {fa fb : Fmt} (ha : 1 ≤ fa.W) (hb : 1 ≤ fb.W) {M N : ℕ} {A B : Mem ℚ} (junk : Mem ℚ)
    (hA : AllRep fa M N A) (hB : AllRep fb M N B) : AllRep (fa.plus fb) M N (add fa fb M N A B junk) := by
  intro i hi j hj
  rw [Proof.Matrix.add_eq ha hb M N A B junk hA hB hi hj]
  exact Fmt.rep_plus ha hb (hA i hi j hj) (hB i hi j hj)

theorem sub_rep {fa fb : Fmt} (ha : 1 ≤ fa.W) (hb : 1 ≤ fb.W) {M N : ℕ} {A B : Mem ℚ} (junk : Mem ℚ)
    (hA : AllRep fa M N A) (hB : AllRep fb M N B) : AllRep (fa.minus fb) M N (sub fa fb M N A B junk) := by
  intro i hi j hj
  rw [Proof.Matrix.sub_eq ha hb M N A B junk hA hB hi hj]
  exact Fmt.rep_minus ha hb (hA i hi j hj) (hB i hi j hj)

theorem mul_rep {fa fb : Fmt} (ha : 1 ≤ fa.W) (hb : 1 ≤ fb.W) {M N Q : ℕ} {A B : Mem ℚ} (junk : Mem ℚ)
    (hA : AllRep fa M N A) (hB : AllRep fb N Q B) : AllRep (sumFmt fa fb N) M Q (mul fa fb M N Q A B junk) := by
  intro i hi j hj
  rw [Proof.Matrix.mul_eq ha hb M N Q A B junk hA hB hi hj]
  exact Fmt.rep_cvt (sumFmt_W ha N) _

/-! ## Sums and differences -/

/-- **C95**, sums and differences of matrices of any types obey the laws of exact arithmetic: order and grouping of the
terms do not matter, and a subtraction undoes an addition. -/
theorem C95_sums {fa fb fc : Fmt} (ha : 1 ≤ fa.W) (hb : 1 ≤ fb.W) (hc : 1 ≤ fc.W) (M N : ℕ) (A B C j1 j2 j3 j4 : Mem ℚ)
    (hA : AllRep fa M N A) (hB : AllRep fb M N B) (hC : AllRep fc M N C) :
    (add fa fb M N A B j1).mat M N = (add fb fa M N B A j2).mat M N ∧
    (add (fa.plus fb) fc M N (add fa fb M N A B j1) C j2).mat M N =
      (add fa (fb.plus fc) M N A (add fb fc M N B C j3) j4).mat M N ∧
    (sub (fa.plus fb) fb M N (add fa fb M N A B j1) B j2).mat M N = A.mat M N ∧
    (sub fa (fb.plus fc) M N A (add fb fc M N B C j1) j2).mat M N =
      (sub (fa.minus fb) fc M N (sub fa fb M N A B j3) C j4).mat M N := by
  have pa : 1 ≤ (fa.plus fb).W := Proof.Matrix.plus_W ha
  have pb : 1 ≤ (fb.plus fc).W := Proof.Matrix.plus_W hb
  have pm : 1 ≤ (fa.minus fb).W := Proof.Matrix.minus_W ha
  refine ⟨?_, ?_, ?_, ?_⟩
  · rw [C15_add ha hb M N A B j1 hA hB, C15_add hb ha M N B A j2 hB hA, add_comm]
  · rw [C15_add pa hc M N _ C j2 (add_rep ha hb j1 hA hB) hC, C15_add ha hb M N A B j1 hA hB,
      C15_add ha pb M N A _ j4 hA (add_rep hb hc j3 hB hC), C15_add hb hc M N B C j3 hB hC, add_assoc]
  · rw [C15_sub pa hb M N _ B j2 (add_rep ha hb j1 hA hB) hB, C15_add ha hb M N A B j1 hA hB, add_sub_cancel_right]
  · rw [C15_sub ha pb M N A _ j2 hA (add_rep hb hc j1 hB hC), C15_add hb hc M N B C j1 hB hC,
      C15_sub pm hc M N _ C j4 (sub_rep ha hb j3 hA hB) hC, C15_sub ha hb M N A B j3 hA hB, sub_sub]

/-! ## Products -/

/-- **C95**, grouping: a product of three matrices does not depend on the parentheses. -/
theorem C95_assoc {fa fb fc : Fmt} (ha : 1 ≤ fa.W) (hb : 1 ≤ fb.W) (hc : 1 ≤ fc.W) (M N P Q : ℕ)
    (A B C j1 j2 j3 j4 : Mem ℚ) (hA : AllRep fa M N A) (hB : AllRep fb N P B) (hC : AllRep fc P Q C)
    (h1 : Room fa fb N) (h2 : Room (sumFmt fa fb N) fc P) (h3 : Room fb fc P) (h4 : Room fa (sumFmt fb fc P) N) :
    (mul (sumFmt fa fb N) fc M P Q (mul fa fb M N P A B j1) C j2).mat M Q =
      (mul fa (sumFmt fb fc P) M N Q A (mul fb fc N P Q B C j3) j4).mat M Q := by
  rw [mul_exact (sumFmt_W ha N) hc h2 j2 (mul_rep ha hb j1 hA hB) hC, mul_exact ha hb h1 j1 hA hB,
    mul_exact ha (sumFmt_W hb P) h4 j4 hA (mul_rep hb hc j3 hB hC), mul_exact hb hc h3 j3 hB hC, Matrix.mul_assoc]

/-- **C95**, distribution: a product with a sum is the sum of the products, on either side. -/
theorem C95_distrib {fa fb fc : Fmt} (ha : 1 ≤ fa.W) (hb : 1 ≤ fb.W) (hc : 1 ≤ fc.W) (M N Q : ℕ)
    (A B C j1 j2 j3 j4 j5 : Mem ℚ) (hA : AllRep fa M N A) (hB : AllRep fb N Q B) (hC : AllRep fc N Q C)
    (h1 : Room fa (fb.plus fc) N) (h2 : Room fa fb N) (h3 : Room fa fc N) :
    (mul fa (fb.plus fc) M N Q A (add fb fc N Q B C j1) j2).mat M Q =
      (add (sumFmt fa fb N) (sumFmt fa fc N) M Q (mul fa fb M N Q A B j3) (mul fa fc M N Q A C j4) j5).mat M Q := by
  rw [mul_exact ha (Proof.Matrix.plus_W hb) h1 j2 hA (add_rep hb hc j1 hB hC), C15_add hb hc N Q B C j1 hB hC,
    C15_add (sumFmt_W ha N) (sumFmt_W ha N) M Q _ _ j5 (mul_rep ha hb j3 hA hB) (mul_rep ha hc j4 hA hC),
    mul_exact ha hb h2 j3 hA hB, mul_exact ha hc h3 j4 hA hC, Matrix.mul_add]

theorem C95_distrib_right {fa fb fc : Fmt} (ha : 1 ≤ fa.W) (hb : 1 ≤ fb.W) (hc : 1 ≤ fc.W) (M N Q : ℕ)
    (A B C j1 j2 j3 j4 j5 : Mem ℚ) (hA : AllRep fa M N A) (hB : AllRep fb M N B) (hC : AllRep fc N Q C)
    (h1 : Room (fa.plus fb) fc N) (h2 : Room fa fc N) (h3 : Room fb fc N) :
    (mul (fa.plus fb) fc M N Q (add fa fb M N A B j1) C j2).mat M Q =
      (add (sumFmt fa fc N) (sumFmt fb fc N) M Q (mul fa fc M N Q A C j3) (mul fb fc M N Q B C j4) j5).mat M Q := by
  rw [mul_exact (Proof.Matrix.plus_W ha) hc h1 j2 (add_rep ha hb j1 hA hB) hC, C15_add ha hb M N A B j1 hA hB,
    C15_add (sumFmt_W ha N) (sumFmt_W hb N) M Q _ _ j5 (mul_rep ha hc j3 hA hC) (mul_rep hb hc j4 hB hC),
    mul_exact ha hc h2 j3 hA hC, mul_exact hb hc h3 j4 hB hC, Matrix.add_mul]

/-- **C95**, `ac_matrixmul` and `operator*` agree: the first gives the second, converted to its output type. -/
theorem C95_matrixmul_agrees {fa fb : Fmt} (fc : Fmt) (ha : 1 ≤ fa.W) (hb : 1 ≤ fb.W) (M N P : ℕ) (A B C j : Mem ℚ)
    (hA : AllRep fa M N A) (hB : AllRep fb N P B) (hN : Room fa fb N) :
    (Model.Matmul.arraymultiply fa fb fc M N P A B C).mat M P = ((mul fa fb M N P A B j).mat M P).map fc.cvt := by
  rw [C18_matrixmul fc ha hb M N P A B C hA hB, mul_exact ha hb hN j hA hB]

/-- **C95**, `ac_matrixmul` of transposed matrices in the opposite order gives the transposed product, whatever the
output type and its modes. -/
theorem C95_matrixmul_transpose {fa fb : Fmt} (fc : Fmt) (ha : 1 ≤ fa.W) (hb : 1 ≤ fb.W) (M N P : ℕ)
    (A B C C' j1 j2 : Mem ℚ) (hA : AllRep fa M N A) (hB : AllRep fb N P B) :
    (Model.Matmul.arraymultiply fb fa fc P N M (transpose N P B j1) (transpose M N A j2) C').mat P M =
      ((Model.Matmul.arraymultiply fa fb fc M N P A B C).mat M P).transpose := by
  have hB' : AllRep fb P N (transpose N P B j1) := fun i hi j hj => by
    rw [Proof.Matrix.transpose_eq N P B j1 hi hj]; exact hB j hj i hi
  have hA' : AllRep fa N M (transpose M N A j2) := fun i hi j hj => by
    rw [Proof.Matrix.transpose_eq M N A j2 hi hj]; exact hA j hj i hi
  rw [C18_matrixmul fc hb ha P N M _ _ C' hB' hA', C18_matrixmul fc ha hb M N P A B C hA hB, C16_transpose, C16_transpose,
    ← Matrix.transpose_mul, Matrix.transpose_map]

/-- **C95**, the identity matrix, of any type that holds its elements, leaves the other factor of `ac_matrixmul` as it
is, converted to the output type. -/
theorem C95_matrixmul_identity {fa fi : Fmt} (fc : Fmt) (ha : 1 ≤ fa.W) (hi : 1 ≤ fi.W) (M N : ℕ) (A I I' C : Mem ℚ)
    (hA : AllRep fa M N A) (hI : AllRep fi N N I) (hI' : AllRep fi M M I')
    (h1 : ∀ i < N, ∀ j < N, I i j = if i = j then 1 else 0) (h1' : ∀ i < M, ∀ j < M, I' i j = if i = j then 1 else 0) :
    (Model.Matmul.arraymultiply fa fi fc M N N A I C).mat M N = (A.mat M N).map fc.cvt ∧
    (Model.Matmul.arraymultiply fi fa fc M M N I' A C).mat M N = (A.mat M N).map fc.cvt := by
  have e : ∀ (n : ℕ) (J : Mem ℚ), (∀ i < n, ∀ j < n, J i j = if i = j then 1 else 0) → J.mat n n = 1 := by
    intro n J h
    ext i j
    rw [Matrix.one_apply]
    have := h i i.2 j j.2
    simp only [Fin.val_inj] at this
    exact this
  rw [C18_matrixmul fc ha hi M N N A I C hA hI, C18_matrixmul fc hi ha M M N I' A C hI' hA, e N I h1, e M I' h1',
    Matrix.mul_one, Matrix.one_mul]
  exact ⟨rfl, rfl⟩

/-- **C95**, two calls of `ac_matrixmul` in either grouping give the same result, if the intermediate types hold the
exact products. -/
theorem C95_matrixmul_assoc {fa fb fc f1 f2 : Fmt} (fo : Fmt) (ha : 1 ≤ fa.W) (hb : 1 ≤ fb.W) (hc : 1 ≤ fc.W)
    (hf1 : 1 ≤ f1.W) (hf2 : 1 ≤ f2.W) (M N P Q : ℕ) (A B C D1 D2 E1 E2 : Mem ℚ) (hA : AllRep fa M N A)
    (hB : AllRep fb N P B) (hC : AllRep fc P Q C) (h1 : ∀ i j, f1.cvt ((A.mat M N * B.mat N P) i j) = (A.mat M N * B.mat N P) i j)
    (h2 : ∀ i j, f2.cvt ((B.mat N P * C.mat P Q) i j) = (B.mat N P * C.mat P Q) i j) :
    (Model.Matmul.arraymultiply f1 fc fo M P Q (Model.Matmul.arraymultiply fa fb f1 M N P A B D1) C E1).mat M Q =
    (Model.Matmul.arraymultiply fa f2 fo M N Q A (Model.Matmul.arraymultiply fb fc f2 N P Q B C D2) E2).mat M Q := by
  have p1 := C18_matrixmul f1 ha hb M N P A B D1 hA hB
  have p2 := C18_matrixmul f2 hb hc N P Q B C D2 hB hC
  have e1 : (Model.Matmul.arraymultiply fa fb f1 M N P A B D1).mat M P = A.mat M N * B.mat N P := by
    rw [p1]; ext i j; exact h1 i j
  have e2 : (Model.Matmul.arraymultiply fb fc f2 N P Q B C D2).mat N Q = B.mat N P * C.mat P Q := by
    rw [p2]; ext i j; exact h2 i j
  have r1 : AllRep f1 M P (Model.Matmul.arraymultiply fa fb f1 M N P A B D1) := fun i hi j hj => by
    have := congrFun (congrFun p1 ⟨i, hi⟩) ⟨j, hj⟩
    change Model.Matmul.arraymultiply fa fb f1 M N P A B D1 i j = f1.cvt _ at this
    rw [this]; exact Fmt.rep_cvt hf1 _
  have r2 : AllRep f2 N Q (Model.Matmul.arraymultiply fb fc f2 N P Q B C D2) := fun i hi j hj => by
    have := congrFun (congrFun p2 ⟨i, hi⟩) ⟨j, hj⟩
    change Model.Matmul.arraymultiply fb fc f2 N P Q B C D2 i j = f2.cvt _ at this
    rw [this]; exact Fmt.rep_cvt hf2 _
  rw [C18_matrixmul fo hf1 hc M P Q _ C E1 r1 hC, C18_matrixmul fo ha hf2 M N Q A _ E2 hA r2, e1, e2, Matrix.mul_assoc]

/-! ## Determinants -/

open Model.Determinant in
/-- Types, size and bound `K` of the entries for which `ac_determinant` is exact (C19_bounded). -/
structure DetOk (fi fo : Fmt) (M : ℕ) (K : ℚ) : Prop where
  hW : 1 ≤ fi.W
  hF : 0 ≤ fi.F
  hM : 3 ≤ M
  hK0 : 0 ≤ K
  hK : ∀ k ≤ M, k.factorial * K ^ k < 2 ^ (M * fi.I - 1)
  hoS : fo.S = true
  hoW : 1 ≤ fo.W
  hoO : fo.O ≠ .SAT_SYM
  hoF : M * fi.F ≤ fo.F
  hoI : M * fi.I ≤ fo.I

/-- A matrix with entries of the type `fi` of magnitude at most `K`. -/
def Small (fi : Fmt) (M : ℕ) (K : ℚ) (A : Mem ℚ) : Prop := ∀ i < M, ∀ j < M, fi.Rep (A i j) ∧ |A i j| ≤ K

/-- `ac_determinant` with the default internal types. -/
def det (fi fo : Fmt) (M : ℕ) (A : Mem ℚ) : ℚ := Model.Determinant.determinant (Model.Determinant.defaultTypes M fi fo) M A

theorem det_eq {fi fo : Fmt} {M : ℕ} {K : ℚ} (h : DetOk fi fo M K) {A : Mem ℚ} (hA : Small fi M K A) :
    det fi fo M A = (A.mat M M).det :=
  Props.Determinant.C19_bounded fo h.hW h.hF h.hM h.hK0 h.hK h.hoS h.hoW h.hoO h.hoF h.hoI A
    (fun i hi j hj => (hA i hi j hj).1) fun i hi j hj => (hA i hi j hj).2

/-- **C95**, transposing a matrix does not change its determinant, for every size. -/
theorem C95_det_transpose {fi fo : Fmt} {M : ℕ} {K : ℚ} (h : DetOk fi fo M K) {A : Mem ℚ} (hA : Small fi M K A) (j : Mem ℚ) :
    det fi fo M (transpose M M A j) = det fi fo M A := by
  have hT : Small fi M K (transpose M M A j) := fun a ha b hb => by
    rw [Proof.Matrix.transpose_eq M M A j ha hb]; exact hA b hb a ha
  rw [det_eq h hT, det_eq h hA, C16_transpose, Matrix.det_transpose]

/-- **C95**, permuting the rows multiplies the determinant by the sign of the permutation; the same holds for the
columns. -/
theorem C95_det_permute {fi fo : Fmt} {M : ℕ} {K : ℚ} (h : DetOk fi fo M K) {A B : Mem ℚ} (hA : Small fi M K A)
    (σ : Equiv.Perm (Fin M)) :
    ((∀ i j : Fin M, B i j = A (σ i) j) → det fi fo M B = (Equiv.Perm.sign σ : ℤ) * det fi fo M A) ∧
    ((∀ i j : Fin M, B i j = A i (σ j)) → det fi fo M B = (Equiv.Perm.sign σ : ℤ) * det fi fo M A) := by
  constructor
  · intro hB
    have hS : Small fi M K B := fun i hi j hj => by
      rw [hB ⟨i, hi⟩ ⟨j, hj⟩]; exact hA _ (σ ⟨i, hi⟩).2 _ hj
    have e : B.mat M M = (A.mat M M).submatrix σ id := by ext i j; exact hB i j
    rw [det_eq h hS, det_eq h hA, e, Matrix.det_permute]
  · intro hB
    have hS : Small fi M K B := fun i hi j hj => by
      rw [hB ⟨i, hi⟩ ⟨j, hj⟩]; exact hA _ hi _ (σ ⟨j, hj⟩).2
    have e : B.mat M M = (A.mat M M).submatrix id σ := by ext i j; exact hB i j
    rw [det_eq h hS, det_eq h hA, e, Matrix.det_permute']

/-- **C95**, two equal rows: the determinant is zero. -/
theorem C95_det_equal_rows {fi fo : Fmt} {M : ℕ} {K : ℚ} (h : DetOk fi fo M K) {A : Mem ℚ} (hA : Small fi M K A)
    {a b : ℕ} (ha : a < M) (hb : b < M) (hab : a ≠ b) (he : ∀ j < M, A a j = A b j) : det fi fo M A = 0 := by
  rw [det_eq h hA]
  refine Matrix.det_zero_of_row_eq (i := ⟨a, ha⟩) (j := ⟨b, hb⟩) (by simpa using hab) ?_
  ext j; exact he j j.2

/-- **C95**, triangular matrices: the determinant is the product of the diagonal. -/
theorem C95_det_triangular {fi fo : Fmt} {M : ℕ} {K : ℚ} (h : DetOk fi fo M K) {A : Mem ℚ} (hA : Small fi M K A) :
    ((∀ i < M, ∀ j < i, A i j = 0) → det fi fo M A = ∏ i : Fin M, A i i) ∧
    ((∀ j < M, ∀ i < j, A i j = 0) → det fi fo M A = ∏ i : Fin M, A i i) := by
  rw [det_eq h hA]
  constructor
  · intro h0
    exact Matrix.det_of_upperTriangular fun i j hij => h0 i i.2 j hij
  · intro h0
    exact Matrix.det_of_lowerTriangular _ fun i j hij => h0 j j.2 i hij

/-- **C95**, products: the determinant of a product, computed by `ac_matrixmul` into a type that holds it, is the product
of the determinants. -/
theorem C95_det_product {fa fb fc oa ob oc : Fmt} {M : ℕ} {Ka Kb Kc : ℚ} (ha : DetOk fa oa M Ka) (hb : DetOk fb ob M Kb)
    (hc : DetOk fc oc M Kc) {A B C : Mem ℚ} (hA : Small fa M Ka A) (hB : Small fb M Kb B)
    (hAB : ∀ i j, fc.cvt ((A.mat M M * B.mat M M) i j) = (A.mat M M * B.mat M M) i j)
    (hK : ∀ i j, |(A.mat M M * B.mat M M) i j| ≤ Kc) :
    det fc oc M (Model.Matmul.arraymultiply fa fb fc M M M A B C) = det fa oa M A * det fb ob M B := by
  have p := C18_matrixmul fc ha.hW hb.hW M M M A B C (fun i hi j hj => (hA i hi j hj).1) fun i hi j hj => (hB i hi j hj).1
  have e : (Model.Matmul.arraymultiply fa fb fc M M M A B C).mat M M = A.mat M M * B.mat M M := by
    rw [p]; ext i j; exact hAB i j
  have hS : Small fc M Kc (Model.Matmul.arraymultiply fa fb fc M M M A B C) := fun i hi j hj => by
    have h1 := congrFun (congrFun e ⟨i, hi⟩) ⟨j, hj⟩
    change Model.Matmul.arraymultiply fa fb fc M M M A B C i j = _ at h1
    rw [h1]
    refine ⟨?_, hK _ _⟩
    rw [← hAB]; exact Fmt.rep_cvt hc.hW _
  rw [det_eq hc hS, det_eq ha hA, det_eq hb hB, e, Matrix.det_mul]

/-- **C95**, the determinant of `ac_matrix` and `ac_determinant` agree for signed 3x3 matrices of a saturating type. -/
theorem C95_det_agree {fi : Fmt} (hS : fi.S = true) (hW : 1 ≤ fi.W) (hI : 0 ≤ fi.I) (hI' : fi.I ≤ fi.W)
    (hO : fi.O = .SAT ∨ fi.O = .SAT_SYM) (A : Mem ℚ) (hA : AllRep fi 3 3 A) : det fi fi 3 A = det3 fi A := by
  rw [C16_det3]
  exact Props.Determinant.C19_signed_three fi hS hW hI hI' hW hO (by unfold Fmt.F; omega) A hA

/-- For 2x2 matrices in every type. -/
theorem C95_det_agree_two {fi : Fmt} (hS : fi.S = true) (hW : 1 ≤ fi.W) (A : Mem ℚ) (hA : AllRep fi 2 2 A) :
    det fi fi 2 A = det2 fi A := by
  rw [C16_det2]
  exact Props.Determinant.C19_signed_two fi hS hW A hA

/-! ## The conditions are needed, and met -/

def int4 : Fmt := ⟨4, 4, true, .TRN, .WRAP⟩

/-- Without room for the sum of the products the grouping matters: for the inner dimension 2, with elements -8 and 1, one
grouping gives -128 and the other 128. -/
theorem C95_assoc_wrong : let A : Mem ℚ := fun _ _ => -8
    let C : Mem ℚ := fun _ _ => 1
    let z : Mem ℚ := fun _ _ => 0
    mul (sumFmt int4 int4 2) int4 1 1 1 (mul int4 int4 1 2 1 A A z) C z 0 0 = -128 ∧
    mul int4 (sumFmt int4 int4 1) 1 2 1 A (mul int4 int4 2 1 1 A C z) z 0 0 = 128 := by decide +kernel

open Props.Determinant in
/-- Without the bound on the entries the determinant saturates (C19), and exchanging two rows does not change just its
sign. -/
theorem C95_det_permute_wrong : det int8 int64 4 full4 = -2147483648 ∧
    det int8 int64 4 (fun i j => full4 (if i = 0 then 1 else if i = 1 then 0 else i) j) = 2147483647 := by decide +kernel

/-- Room for products with elements `ac_fixed<8,4,true>`, `ac_fixed<4,4,false>` and for three factors. -/
example : Room f84 f44 4 ∧ Room f84 f84 3 ∧ Room (sumFmt f84 f44 4) f44 4 ∧ Room f84 (sumFmt f44 f44 4) 4 ∧
    Room f84 (f44.plus f44) 4 ∧ Room (f84.plus f44) f44 4 ∧
    AllRep f84 5 4 (fun _ _ => -7 / 4) ∧ AllRep f44 4 4 (fun _ _ => 13) :=
  ⟨Or.inl (by decide), Or.inr (by decide), Or.inl (by decide), Or.inl (by decide), Or.inl (by decide),
   Or.inl (by decide), fun _ _ _ _ => rep84, fun _ _ _ _ => rep44⟩

/-- An identity matrix of 4-bit integers. -/
example : AllRep int4 3 3 (fun i j => if i = j then 1 else 0) := fun i _ j _ => by
  simp only
  split_ifs
  · exact ⟨1, by decide, by decide, by norm_num [int4, Fmt.val, Fmt.F]⟩
  · exact ⟨0, by decide, by decide, by norm_num [int4, Fmt.val, Fmt.F]⟩

/-- 5x5 matrices of `ac_fixed<6,3,true>` with entries up to 2, such as the one of C19. -/
theorem detOk_five : DetOk Props.Determinant.f63 Props.Determinant.o32 5 2 where
  hW := by decide
  hF := by decide
  hM := by decide
  hK0 := by norm_num
  hK := fun k hk => by interval_cases k <;> norm_num [Props.Determinant.f63, Nat.factorial]
  hoS := rfl
  hoW := by decide
  hoO := by decide
  hoF := by decide
  hoI := by decide

example : DetOk Props.Determinant.f63 Props.Determinant.o32 5 2 ∧ Small Props.Determinant.f63 5 2 Props.Determinant.ex5 :=
  ⟨detOk_five, fun i _ j _ => by
    unfold Props.Determinant.ex5
    split_ifs
    · exact ⟨by simpa using Props.Determinant.f63_rep 13 (by norm_num) (by norm_num), by norm_num [abs_le]⟩
    · exact ⟨by simpa using Props.Determinant.f63_rep (-16) (by norm_num) (by norm_num), by norm_num [abs_le]⟩⟩

def f2010 : Fmt := ⟨20, 10, true, .TRN, .WRAP⟩
def o8040 : Fmt := ⟨80, 40, true, .TRN, .WRAP⟩
def half3 : Mem ℚ := fun i j => if i ≤ j then 1 else 1 / 2

theorem detOk_three {K : ℚ} (h0 : 0 ≤ K) (h1 : K ≤ 12) : DetOk f2010 o8040 3 K where
  hW := by decide
  hF := by decide
  hM := by decide
  hK0 := h0
  hK := fun k hk => by
    have h : K ^ k ≤ 12 ^ k := pow_le_pow_left₀ h0 h1 k
    have h2 : (k.factorial : ℚ) * 12 ^ k < 2 ^ (((3 : ℕ) : ℤ) * f2010.I - 1) := by
      interval_cases k <;> norm_num [f2010, Nat.factorial]
    exact lt_of_le_of_lt (mul_le_mul_of_nonneg_left h (by positivity)) h2
  hoS := rfl
  hoW := by decide
  hoO := by decide
  hoF := by decide
  hoI := by decide

/-- The determinant of a square of a 3x3 matrix, with all hypotheses of `C95_det_product`. -/
example : det f2010 o8040 3 (Model.Matmul.arraymultiply f2010 f2010 f2010 3 3 3 half3 half3 (fun _ _ => 0)) =
    det f2010 o8040 3 half3 * det f2010 o8040 3 half3 := by
  have hS : Small f2010 3 1 half3 := fun i _ j _ => by
    unfold half3
    split_ifs
    · exact ⟨⟨1024, by decide, by decide, by norm_num [f2010, Fmt.val, Fmt.F]⟩, by norm_num⟩
    · exact ⟨⟨512, by decide, by decide, by norm_num [f2010, Fmt.val, Fmt.F]⟩, by norm_num [abs_le]⟩
  exact C95_det_product (detOk_three (by norm_num) (by norm_num)) (detOk_three (by norm_num) (by norm_num))
    (detOk_three (K := 3) (by norm_num) (by norm_num)) hS hS (by decide +kernel) (by decide +kernel)

/-- A triangular matrix and one with two equal rows. -/
example : det f2010 o8040 3 (fun i j => if i ≤ j then i + 1 else 0) = 6 ∧ det f2010 o8040 3 (fun i j => if i = 1 then 3 else j) = 0 := by
  decide +kernel

end Props.MatrixLaws
