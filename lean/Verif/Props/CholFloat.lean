import Verif.Proof.CholFloat
import Verif.Props.CholAny

/-! # C79: the Cholesky decomposition of ac_float matrices

`chol (floatOps pwl out imd sub junk) M A L` is the output of `ac_chol_d` for an `M`x`M` matrix `A` of ac_float numbers, given by
their values, with the output type `out`, the intermediate type `imd` and `use_pwl` = `pwl`; `L` is the array before the call.
`sub` is the subtraction `-=` of ac_float and `junk` what an uninitialised variable holds. -/

namespace Props.CholFloat
open Ac Model.Chol Model.CholFloat Finset Spec.CholFloat
open Model.Float (FFmt)

/-- The bound on the elements of `A - L*Lᵀ`: `u` is the error of a subtraction, `D` bounds the elements of the matrix, `B` the square
roots of the pivots. -/
def resBound (pwl : Bool) (out imd : FFmt) (M : ℕ) (D u B : ℚ) : ℚ :=
  let n := M * u
  n + rootErr pwl out imd * (2 + rootErr pwl out imd) * (D + n) +
    ((2 * D + n) * recErr pwl out imd + (2 * D + n) * (1 + recErr pwl out imd) * 2 ^ (2 - (out.W : ℤ)) +
      (1 + rootErr pwl out imd) * B * 2 ^ (out.I - out.W - 2 ^ (out.E - 1)))

/-- The square roots of the pivots lie from `κ` to `B`; the types hold them, their reciprocals, the sums and the quotients; `u` covers
the conversion of an element; the smallest eigenvalue `lam` exceeds the errors. -/
structure Fits (pwl : Bool) (out imd : FFmt) (M : ℕ) (D lam u κ B : ℚ) : Prop where
  range : Range pwl out imd κ B
  err : 0 ≤ u
  sums : 2 * D + M * u ≤ imd.maxVal
  unit : (2 * D + M * u) * 2 ^ (2 - (imd.W : ℤ)) + 2 ^ (imd.I - imd.W - 2 ^ (imd.E - 1)) ≤ u
  high : 0 ≤ B
  root : D + M * u ≤ B ^ 2
  quot : (2 * D + M * u) * (1 + recErr pwl out imd) ≤ out.maxVal * ((1 - rootErr pwl out imd) * κ)
  eig : κ ^ 2 + M * (resBound pwl out imd M D u B + u) ≤ lam

theorem recErr_pos (pwl : Bool) (out imd : FFmt) : 0 < recErr pwl out imd :=
  (Proof.CholFloat.preRec_pos pwl out imd).trans_le (Proof.CholFloat.preRec_le pwl out imd)

/-- **C79**: a symmetric matrix that is positive definite by more than the errors is factored, with or without `use_pwl`: the output
is lower triangular, its diagonal is positive, and no element of `A - L*Lᵀ` exceeds the bound. -/
theorem C79_factor {pwl : Bool} {out imd : FFmt} {sub : ℚ → ℚ → ℚ} (junk : ℚ) {M : ℕ} {D lam u κ B : ℚ}
    (ht : Fits pwl out imd M D lam u κ B) (hsub : SubOk imd sub (2 * D + M * u) u) (A L : Mem ℚ)
    (hsym : ∀ i < M, ∀ j < M, A i j = A j i) (hD : ∀ i < M, ∀ j < M, |A i j| ≤ D)
    (hpd : ∀ x : ℕ → ℝ, lam * ∑ i ∈ range M, x i ^ 2 ≤ ∑ i ∈ range M, ∑ j ∈ range M, x i * A i j * x j) :
    ∃ R, chol (floatOps pwl out imd sub junk) M A L = some R ∧ (∀ i < M, ∀ j < M, i < j → R i j = 0) ∧
      (∀ i < M, (1 - rootErr pwl out imd) * κ ≤ R i i ∧ R i i ≤ (1 + rootErr pwl out imd) * B) ∧
      ∀ i < M, ∀ j < M, |A i j - ∑ k ∈ range M, R i k * R j k| ≤ resBound pwl out imd M D u B := by
  rcases Nat.eq_zero_or_pos M with rfl | hM
  · obtain ⟨R, F, p, h1, -, -⟩ := Proof.Chol.chol_eq (floatOps pwl out imd sub junk) 0 A L (fun _ => 0)
    exact ⟨R, h1, fun i hi => absurd hi (by omega), fun i hi => absurd hi (by omega), fun i hi => absurd hi (by omega)⟩
  have hD0 : 0 ≤ D := (abs_nonneg _).trans (hD 0 hM 0 hM)
  have hM0 : (0 : ℚ) < M := by exact_mod_cast hM
  have hu := ht.err
  have hε := Proof.CholFloat.root_pos pwl out imd
  have hρ := recErr_pos pwl out imd
  have hn : 0 ≤ M * u := mul_nonneg hM0.le hu
  have hκ' : 0 < (1 - rootErr pwl out imd) * κ := (Fmt.z_pos _).trans_le ht.range.outLow
  have z1 := Fmt.z_pos (2 - (out.W : ℤ))
  have z2 := Fmt.z_pos (out.I - out.W - 2 ^ (out.E - 1))
  have hb1 : 0 ≤ rootErr pwl out imd * (2 + rootErr pwl out imd) * (D + M * u) :=
    mul_nonneg (mul_nonneg hε.le (by linarith)) (by linarith)
  have hb2 : 0 ≤ (2 * D + M * u) * recErr pwl out imd + (2 * D + M * u) * (1 + recErr pwl out imd) * 2 ^ (2 - (out.W : ℤ)) +
      (1 + rootErr pwl out imd) * B * 2 ^ (out.I - out.W - 2 ^ (out.E - 1)) := by
    have a := mul_nonneg (show 0 ≤ 2 * D + M * u by linarith) hρ.le
    have b := mul_nonneg (mul_nonneg (show 0 ≤ 2 * D + M * u by linarith) (show 0 ≤ 1 + recErr pwl out imd by linarith)) z1.le
    have c := mul_nonneg (mul_nonneg (show 0 ≤ 1 + rootErr pwl out imd by linarith) ht.high) z2.le
    linarith
  have eig := ht.eig
  have hκ2 : 0 < κ ^ 2 := pow_pos ht.range.pos 2
  have hacc := Proof.CholFloat.float_acc (lo := lam - resBound pwl out imd M D u B * M - M * u) (hi := D + M * u) (σ := 2 * D + M * u)
    ht.range junk hsub ht.sums ht.unit (by
      have : (M : ℚ) * (resBound pwl out imd M D u B + u) = resBound pwl out imd M D u B * M + M * u := by ring
      linarith) ht.root ht.high ht.quot
  have hbd : resBound pwl out imd M D u B = M * u + rootErr pwl out imd * (2 + rootErr pwl out imd) * (D + M * u) +
    ((2 * D + M * u) * recErr pwl out imd + (2 * D + M * u) * (1 + recErr pwl out imd) * 2 ^ (2 - (out.W : ℤ)) +
      (1 + rootErr pwl out imd) * B * 2 ^ (out.I - out.W - 2 ^ (out.E - 1))) := rfl
  generalize resBound pwl out imd M D u B = e at *
  generalize rootErr pwl out imd * (2 + rootErr pwl out imd) * (D + M * u) = ed at *
  generalize (2 * D + M * u) * recErr pwl out imd + (2 * D + M * u) * (1 + recErr pwl out imd) * 2 ^ (2 - (out.W : ℤ)) +
      (1 + rootErr pwl out imd) * B * 2 ^ (out.I - out.W - 2 ^ (out.E - 1)) = eo at *
  generalize (1 - rootErr pwl out imd) * κ = κ' at *
  generalize (1 + rootErr pwl out imd) * B = B' at *
  have key := Props.CholAny.C72_any (M := M) (X := ((2 * D + M * u : ℚ) : ℝ)) (u := (u : ℚ)) (D := (D : ℚ)) (lam := (lam : ℚ))
    (κ := (κ' : ℚ)) (B := (B' : ℚ)) (ed := (ed : ℚ)) (eo := (eo : ℚ)) (e := (e : ℚ)) A L (by
      have e1 : ((lam - e * M - M * u : ℚ) : ℝ) = lam - e * M - M * u := by push_cast; rfl
      have e2 : ((D + M * u : ℚ) : ℝ) = D + M * u := by push_cast; rfl
      have e3 : ((2 * D + M * u : ℚ) : ℝ) = 2 * D + M * u := by push_cast; rfl
      rw [← e1, ← e2, ← e3]; exact hacc)
    (fun i hi j hj => by rw [Proof.CholFns.star_rv, hsym i hi j hj])
    (fun i hi j hj => by rw [Proof.CholFns.norm_rv]; exact Rat.cast_le.2 (hD i hi j hj)) ?_ ?_ ?_ ?_ ?_ ?_ ?_ ?_
  · obtain ⟨R, h1, h2, h3, h4⟩ := key
    refine ⟨R, h1, h2, fun i hi => ?_, fun i hi j hj => ?_⟩
    · obtain ⟨d, d1, d2, d3⟩ := h3 i hi
      have : ((R i i : ℚ) : ℝ) = d := Complex.ofReal_injective d1
      rw [← this] at d2 d3
      exact ⟨by exact_mod_cast d2, by exact_mod_cast d3⟩
    · have := h4 i hi j hj
      simp only [Proof.CholFns.star_rv, Proof.CholFns.rv_mul] at this
      have e1 : ∑ k ∈ Finset.range M, Proof.CholFns.rv (R i k * R j k) = Proof.CholFns.rv (∑ k ∈ Finset.range M, R i k * R j k) := by
        unfold Proof.CholFns.rv; push_cast; rfl
      rw [e1, Proof.CholFns.rv_sub, Proof.CholFns.norm_rv] at this
      exact Rat.cast_le.1 this
  · exact Props.CholAny.real_form hpd
  · exact_mod_cast hu
  · exact_mod_cast le_rfl
  · exact_mod_cast hκ'
  · have : 0 ≤ e := by linarith
    exact_mod_cast this
  · have : M * u + ed ≤ e := by linarith
    exact_mod_cast this
  · have : M * u + eo ≤ e := by linarith
    exact_mod_cast this
  · have e5 : (M : ℚ) * (e + u) = e * M + M * u := by ring
    have : e * M + M * u < lam := by linarith
    exact_mod_cast this

/-- Types for the examples: `ac_float<24,2,6>`, with `ac_float<24,2,6,AC_RND>` for the intermediate results. -/
def out24 : FFmt := ⟨24, 2, 6, .TRN⟩

theorem range24 (pwl : Bool) : Range pwl out24 (imdT out24 0 0 0 .RND) 1 (29 / 20) where
  outW := by decide
  imdW := by decide
  outE := by decide
  imdE := by decide
  rootBits _ := by decide
  recBits _ := by decide
  pos := by norm_num
  sumLow := by decide +kernel
  outLow := by cases pwl <;> decide +kernel
  outHigh := by cases pwl <;> decide +kernel
  recLow := by cases pwl <;> decide +kernel
  recHigh := by cases pwl <;> decide +kernel

theorem fits24 (pwl : Bool) : Fits pwl out24 (imdT out24 0 0 0 .RND) 2 2 (3 / 2) (2 / 2 ^ 20) 1 (29 / 20) where
  range := range24 pwl
  err := by norm_num
  sums := by decide +kernel
  unit := by decide +kernel
  high := by norm_num
  root := by decide +kernel
  quot := by cases pwl <;> decide +kernel
  eig := by cases pwl <;> decide +kernel

/-- The bounds of the examples. -/
example : resBound false out24 (imdT out24 0 0 0 .RND) 2 2 (2 / 2 ^ 20) (29 / 20) ≤ 1 / 2 ^ 16 ∧
    resBound true out24 (imdT out24 0 0 0 .RND) 2 2 (2 / 2 ^ 20) (29 / 20) ≤ 1 / 70 := by decide +kernel

/-- The subtraction that converts the exact difference meets `SubOk`. -/
theorem sub_cvt {imd : FFmt} (hW : 2 ≤ imd.W) {X u : ℚ} (hX : X ≤ imd.maxVal)
    (hu : X * 2 ^ (2 - (imd.W : ℤ)) + 2 ^ (imd.I - imd.W - 2 ^ (imd.E - 1)) ≤ u) : SubOk imd (fun s y => imd.cvt (s - y)) X u :=
  fun _ _ => ⟨Proof.FloatNum.cvt_isNum hW _, fun _ h => Proof.CholFloat.cvt_sum hX hu h⟩

example (pwl : Bool) : ∃ R, chol (floatOps pwl out24 (imdT out24 0 0 0 .RND) (fun s y => (imdT out24 0 0 0 .RND).cvt (s - y)) 0) 2
      Props.CholAny.mat2 (fun _ _ => 7) = some R ∧ (∀ i < 2, ∀ j < 2, i < j → R i j = 0) ∧
    ∀ i < 2, ∀ j < 2, |Props.CholAny.mat2 i j - ∑ k ∈ range 2, R i k * R j k| ≤
      resBound pwl out24 (imdT out24 0 0 0 .RND) 2 2 (2 / 2 ^ 20) (29 / 20) := by
  have ht := fits24 pwl
  obtain ⟨R, h1, h2, -, h3⟩ := C79_factor 0 ht (sub_cvt (by decide) ht.sums ht.unit) Props.CholAny.mat2 (fun _ _ => 7)
    (fun i hi j hj => by
      rcases Props.CholAny.lt_two hi with rfl | rfl <;> rcases Props.CholAny.lt_two hj with rfl | rfl <;> decide +kernel)
    (fun i hi j hj => by
      rcases Props.CholAny.lt_two hi with rfl | rfl <;> rcases Props.CholAny.lt_two hj with rfl | rfl <;> decide +kernel)
    (fun x => by
      simp only [sum_range_succ, range_zero, sum_empty, Props.CholAny.mat2]
      norm_num
      nlinarith [sq_nonneg (x 0 + x 1)])
  exact ⟨R, h1, h2, h3⟩

/-- The error `recErr` is not small for every type.  The division keeps the fraction bits of the intermediate type for the quotient of
the mantissas, and the mantissa of the divisor is about `2^I`: with 8 of 16 bits before the point [[2,1/2],[1/2,2]] gets the element
1/4 instead of 0.3535..., so that the product differs from the matrix by 75/512; with 16 of 16 bits the reciprocal is 0 and the
output diagonal. -/
theorem C79_integer_bits_wrong :
    ((chol (floatOps false ⟨16, 8, 6, .TRN⟩ (imdT ⟨16, 8, 6, .TRN⟩ 0 0 0 .RND)
      (fun s y => (imdT ⟨16, 8, 6, .TRN⟩ 0 0 0 .RND).cvt (s - y)) 0) 2 Props.CholAny.mat2 (fun _ _ => 7)).map
        fun R => (R 0 0, R 0 1, R 1 0, R 1 1)) = some (181 / 128, 0, 1 / 4, 1425 / 1024) ∧
    (1 / 2 - 181 / 128 * (1 / 4) : ℚ) = 75 / 512 ∧
    ((chol (floatOps false ⟨16, 16, 6, .TRN⟩ (imdT ⟨16, 16, 6, .TRN⟩ 0 0 0 .RND)
      (fun s y => (imdT ⟨16, 16, 6, .TRN⟩ 0 0 0 .RND).cvt (s - y)) 0) 2 Props.CholAny.mat2 (fun _ _ => 7)).map
        fun R => (R 0 0, R 0 1, R 1 0, R 1 1)) = some (181 / 128, 0, 0, 181 / 128) := by decide +kernel

/-- **C79** for ac_matrix objects: as for arrays with the type for `delta_e` = 0, whatever `delta_e` is. -/
theorem C79_matrix {pwl : Bool} {out : FFmt} {dw : ℕ} {di : ℤ} (de : ℕ) {q : QMode} {sub : FFmt → ℚ → ℚ → ℚ} (junk : ℚ) {M : ℕ}
    {D lam u κ B : ℚ} (ht : Fits pwl out (imdT out dw di 0 q) M D lam u κ B)
    (hsub : SubOk (imdT out dw di 0 q) (sub (imdT out dw di 0 q)) (2 * D + M * u) u) (A L : Mem ℚ)
    (hsym : ∀ i < M, ∀ j < M, A i j = A j i) (hD : ∀ i < M, ∀ j < M, |A i j| ≤ D)
    (hpd : ∀ x : ℕ → ℝ, lam * ∑ i ∈ range M, x i ^ 2 ≤ ∑ i ∈ range M, ∑ j ∈ range M, x i * A i j * x j) :
    ∃ R, floatMatrix pwl out dw di de q sub junk M A L = some R ∧ (∀ i < M, ∀ j < M, i < j → R i j = 0) ∧
      (∀ i < M, (1 - rootErr pwl out (imdT out dw di 0 q)) * κ ≤ R i i) ∧
      ∀ i < M, ∀ j < M, |A i j - ∑ k ∈ range M, R i k * R j k| ≤ resBound pwl out (imdT out dw di 0 q) M D u B := by
  obtain ⟨R, h1, h2, h3, h4⟩ := C79_factor junk ht hsub A L hsym hD hpd
  exact ⟨R, h1, h2, fun i hi => (h3 i hi).1, h4⟩

example (pwl : Bool) : Fits pwl out24 (imdT out24 0 0 0 .RND) 2 2 (3 / 2) (2 / 2 ^ 20) 1 (29 / 20) := fits24 pwl

/-- So `delta_e` is ignored, against its documentation: the root of the 1x1 matrix
64 with the output type `ac_float<16,2,3>`, `use_pwl` false or true, and an additional exponent bit for the sums is 8 with arrays, but
with ac_matrix objects 64 saturates and the root is less than 5. -/
theorem C79_matrix_delta_e_wrong :
    ((floatArray false ⟨16, 2, 3, .TRN⟩ 0 0 1 .RND (fun t s y => t.cvt (s - y)) 0 1 (fun _ _ => 64) (fun _ _ => 7)).map fun R => R 0 0) =
      some 8 ∧
    ((floatMatrix false ⟨16, 2, 3, .TRN⟩ 0 0 1 .RND (fun t s y => t.cvt (s - y)) 0 1 (fun _ _ => 64) (fun _ _ => 7)).map
      fun R => decide (R 0 0 < 5)) = some true ∧
    ((floatMatrix true ⟨16, 2, 3, .TRN⟩ 0 0 1 .RND (fun t s y => t.cvt (s - y)) 0 1 (fun _ _ => 64) (fun _ _ => 7)).map
      fun R => decide (R 0 0 < 5)) = some true := by decide +kernel

end Props.CholFloat
