import Verif.Proof.CholRound
import Mathlib.Tactic.NormNum

/-! # C71: rounding errors of the fixed-point Cholesky decomposition -/

namespace Props.CholRound
open Ac Model.Chol Finset

/-- The bound on the elements of `A - L*Lᵀ`, where `u` is the resolution of the intermediate type, `v` that of the
output type, `D` bounds the elements of the matrix and `B` those on the diagonal of the factor. -/
def resBound (t : Types) (M : ℕ) (D B : ℚ) : ℚ :=
  let u := 2 ^ (-t.imd.F)
  let v := 2 ^ (-t.out.F)
  M * u + B * (2 * v + u * (2 * D + 2 * M * u))

/-- Signed types with at least one bit, of which the reciprocal of an output element can have a bit in the intermediate
type, and in which the diagonal elements of the factor of a matrix with elements up to `D` are at most `B` and fit. -/
structure Fits (t : Types) (M : ℕ) (D B : ℚ) : Prop where
  outW : 1 ≤ t.out.W
  imdW : 1 ≤ t.imd.W
  outS : t.out.S = true
  imdS : t.imd.S = true
  bits : 0 ≤ t.out.F + t.imd.F
  sums : 2 * D + 2 * M * 2 ^ (-t.imd.F) ≤ t.imd.maxVal
  low : 2 ^ (-t.out.F) ≤ B
  high : B ≤ t.out.maxVal
  root : D + M * 2 ^ (-t.imd.F) ≤ (B - 2 ^ (-t.out.F)) ^ 2

/-- `L*Lᵀ` from the elements on and below the diagonal. -/
theorem low_sum {M : ℕ} {R F : ℕ → ℕ → ℚ} (h : ∀ i < M, ∀ j < M, R i j = if j ≤ i then F i j else 0) {i j : ℕ} (hi : i < M)
    (hji : j ≤ i) : ∑ k ∈ range M, R i k * R j k = ∑ k ∈ range (j + 1), F i k * F j k := by
  rw [← sum_subset (range_subset_range.2 (show j + 1 ≤ M by omega))]
  · refine sum_congr rfl fun k hk => ?_
    have := mem_range.1 hk
    rw [h i hi k (by omega), h j (by omega) k (by omega), if_pos (by omega), if_pos (by omega)]
  · intro k hk hk'
    have h1 := mem_range.1 hk
    have h2 : ¬ k < j + 1 := fun h => hk' (mem_range.2 h)
    rw [h j (by omega) k h1, if_neg (by omega), mul_zero]

theorem full {M : ℕ} {A R F : ℕ → ℕ → ℚ} {e : ℚ} (hsym : ∀ i < M, ∀ j < M, A i j = A j i)
    (h : ∀ i < M, ∀ j < M, R i j = if j ≤ i then F i j else 0)
    (hres : ∀ j < M, ∀ i < M, j ≤ i → |A i j - ∑ k ∈ range (j + 1), F i k * F j k| ≤ e) :
    ∀ i < M, ∀ j < M, |A i j - ∑ k ∈ range M, R i k * R j k| ≤ e := by
  intro i hi j hj
  rcases le_total j i with hji | hij
  · rw [low_sum h hi hji]; exact hres j hj i hi hji
  · rw [hsym i hi j hj, sum_congr rfl fun k _ => mul_comm (R i k) (R j k), low_sum h hj hij]; exact hres i hi j hj hij

/-- The output in terms of the recurrences, all pivots being positive. -/
theorem accepted {t : Types} {junk : ℚ} {M : ℕ} {R F L : Mem ℚ} {p : ℕ → ℚ}
    (h : ∀ i j, R i j = if i < M ∧ j < M then
      (if j > i ∨ ¬ (∀ k < M, (fixedOps t junk).nonPos (p k) = false) then (fixedOps t junk).zero else F i j) else L i j)
    (hp : ∀ k < M, 0 < p k) : ∀ i < M, ∀ j < M, R i j = if j ≤ i then F i j else 0 := by
  intro i hi j hj
  have hnp : ∀ k < M, (fixedOps t junk).nonPos (p k) = false := fun k hk => decide_eq_false (not_le.2 (hp k hk))
  rw [h, if_pos ⟨hi, hj⟩]
  by_cases hji : j ≤ i
  · rw [if_pos hji, if_neg]
    rintro (h' | h')
    · omega
    · exact h' hnp
  · rw [if_neg hji, if_pos (Or.inl (by omega))]; rfl

/-- **C71.** A symmetric matrix that is positive definite by more than the rounding errors (`lam` bounds its smallest
eigenvalue from below) is factored: for every size, type, rounding mode and overflow mode, the output is lower
triangular, its diagonal elements are at least `κ`, and no element of `A - L*Lᵀ` exceeds the bound.  `κ` is any number
whose reciprocal fits the intermediate type and whose quotients fit the output type. -/
theorem C71_factor {t : Types} (junk : ℚ) {M : ℕ} {D B lam κ : ℚ} (ht : Fits t M D B) (A L : Mem ℚ)
    (hsym : ∀ i < M, ∀ j < M, A i j = A j i) (hD : ∀ i < M, ∀ j < M, |A i j| ≤ D)
    (hpd : ∀ x : ℕ → ℚ, lam * ∑ i ∈ range M, x i ^ 2 ≤ ∑ i ∈ range M, ∑ j ∈ range M, x i * A i j * x j)
    (hκ : 0 < κ) (hrec : 1 ≤ κ * (unsignedFmt t.imd).maxVal)
    (hquo : (2 * D + 2 * M * 2 ^ (-t.imd.F)) * (1 / κ + 2 ^ (-t.imd.F)) ≤ t.out.maxVal)
    (hlam : (κ + 2 ^ (-t.out.F)) ^ 2 + M * (resBound t M D B + 2 ^ (-t.imd.F)) ≤ lam) :
    ∃ R, chol (fixedOps t junk) M A L = some R ∧ (∀ i < M, ∀ j < M, i < j → R i j = 0) ∧
      (∀ i < M, κ ≤ R i i ∧ R i i ≤ B) ∧
      ∀ i < M, ∀ j < M, |A i j - ∑ k ∈ range M, R i k * R j k| ≤ resBound t M D B := by
  obtain ⟨R, F, p, h1, h2, h3⟩ := Proof.Chol.chol_eq (fixedOps t junk) M A L (fun _ => 0)
  have hu : (0 : ℚ) < 2 ^ (-t.imd.F) := Fmt.z_pos _
  have hM0 : 0 ≤ (M : ℚ) * 2 ^ (-t.imd.F) := mul_nonneg (Nat.cast_nonneg _) hu.le
  have hk : 0 < 1 / κ := one_div_pos.2 hκ
  have hs := ht.sums
  have hq : (2 * D + M * 2 ^ (-t.imd.F)) * (1 / κ + 2 ^ (-t.imd.F)) ≤ t.out.maxVal := by
    refine (mul_le_mul_of_nonneg_right ?_ (by linarith)).trans hquo
    linarith
  obtain ⟨k1, k2⟩ := Proof.CholRound.factor ht.outW ht.imdW ht.outS ht.imdS ht.bits h2 hD hsym hpd (by linarith) ht.low
    ht.high ht.root hκ hrec hq hlam
  have hR := accepted h3 fun k hk => (k1 k hk).1
  refine ⟨R, h1, fun i hi j hj hij => by rw [hR i hi j hj, if_neg (by omega)], fun i hi => ?_, full hsym hR k2⟩
  rw [hR i hi i hi, if_pos le_rfl]
  exact (k1 i hi).2

/-- Types for the examples: `ac_fixed<16,8,true>` throughout. -/
def t16 : Types := ⟨⟨16, 8, true, .TRN, .WRAP⟩, ⟨16, 8, true, .TRN, .WRAP⟩, imdFmt ⟨16, 8, true, .TRN, .WRAP⟩ 0 0 .RND .SAT⟩

/-- The matrix [[4,1],[1,3]]. -/
def mat2 : Mem ℚ := fun i j => if i = 0 ∧ j = 0 then 4 else if i = 1 ∧ j = 1 then 3 else 1

theorem fits16 : Fits t16 2 4 (9 / 4) where
  outW := by decide
  imdW := by decide
  outS := rfl
  imdS := rfl
  bits := by decide
  sums := by decide +kernel
  low := by decide +kernel
  high := by decide +kernel
  root := by decide +kernel

theorem lt_two {i : ℕ} (h : i < 2) : i = 0 ∨ i = 1 := by omega

theorem mat2_sym : ∀ i < 2, ∀ j < 2, mat2 i j = mat2 j i := by
  intro i hi j hj
  rcases lt_two hi with rfl | rfl <;> rcases lt_two hj with rfl | rfl <;> decide +kernel

theorem mat2_le : ∀ i < 2, ∀ j < 2, |mat2 i j| ≤ 4 := by
  intro i hi j hj
  rcases lt_two hi with rfl | rfl <;> rcases lt_two hj with rfl | rfl <;> decide +kernel

example : ∃ R, chol (fixedOps t16 0) 2 mat2 (fun _ _ => 7) = some R ∧ (∀ i < 2, ∀ j < 2, i < j → R i j = 0) ∧
    (∀ i < 2, 1 / 8 ≤ R i i ∧ R i i ≤ 9 / 4) ∧
    ∀ i < 2, ∀ j < 2, |mat2 i j - ∑ k ∈ range 2, R i k * R j k| ≤ resBound t16 2 4 (9 / 4) := by
  refine C71_factor (lam := 2) 0 fits16 mat2 _ mat2_sym mat2_le (fun x => ?_) (by norm_num) (by decide +kernel)
    (by decide +kernel) ?_
  · simp only [sum_range_succ, range_zero, sum_empty, mat2]
    norm_num
    nlinarith [sq_nonneg (x 0), sq_nonneg (x 0 + x 1)]
  · have : ((1 / 8 : ℚ) + 2 ^ (-t16.out.F)) ^ 2 = (1 / 8 + 2 ^ (-t16.out.F)) * (1 / 8 + 2 ^ (-t16.out.F)) := pow_two _
    rw [this]; decide +kernel

example : resBound t16 2 4 (9 / 4) ≤ 1 / 10 := by decide +kernel

/-- **C71**, whatever the matrix, saturating intermediate type: if the output is not the zero matrix, and the reciprocals
of its diagonal elements fit the intermediate type, no element of `A - L*Lᵀ` exceeds the bound.  Missing: outputs with
diagonal elements whose reciprocal overflows, for which the statement is false (`C71_small_pivot_wrong`), and wrapping
intermediate types, for which it is false (`C71_wrap_wrong`). -/
theorem C71_residual_partial {t : Types} (junk : ℚ) {M : ℕ} {D B : ℚ} (ht : Fits t M D B)
    (hO : t.imd.O = .SAT ∨ t.imd.O = .SAT_SYM) (A L R : Mem ℚ) (hR : chol (fixedOps t junk) M A L = some R)
    (hsym : ∀ i < M, ∀ j < M, A i j = A j i) (hD : ∀ i < M, ∀ j < M, |A i j| ≤ D)
    (hdiag : ∀ i < M, 1 ≤ R i i * (unsignedFmt t.imd).maxVal)
    (hout : (t.out.O = .SAT ∨ t.out.O = .SAT_SYM) ∨
      ∀ i < M, (2 * D + 2 * M * 2 ^ (-t.imd.F)) * (1 / R i i + 2 ^ (-t.imd.F)) ≤ t.out.maxVal) :
    ∀ i < M, ∀ j < M, |A i j - ∑ k ∈ range M, R i k * R j k| ≤ resBound t M D B := by
  obtain ⟨R', F, p, h1, h2, h3⟩ := Proof.Chol.chol_eq (fixedOps t junk) M A L (fun _ => 0)
  obtain rfl : R' = R := Option.some.inj (h1.symm.trans hR)
  have hp : ∀ k < M, 0 < p k := by
    by_contra hc
    push Not at hc
    obtain ⟨k, hk, hk'⟩ := hc
    have h4 := h3 k k
    rw [if_pos ⟨hk, hk⟩, if_pos (Or.inr fun h => by
      have := h k hk
      exact absurd hk' (of_decide_eq_false this))] at h4
    have h5 := hdiag k hk
    rw [h4] at h5
    change (1 : ℚ) ≤ 0 * _ at h5
    rw [zero_mul] at h5
    linarith
  have hRF := accepted h3 hp
  have hd : ∀ i < M, R' i i = F i i := fun i hi => by rw [hRF i hi i hi, if_pos le_rfl]
  refine full hsym hRF (Proof.CholRound.residual ht.outW ht.imdW ht.outS ht.imdS ht.bits hO h2 hD ht.sums ht.low ht.high
    ht.root hp (fun i hi => by rw [← hd i hi]; exact hdiag i hi) ?_)
  rcases hout with h | h
  · exact Or.inl h
  · exact Or.inr fun i hi => by rw [← hd i hi]; exact h i hi

example : ∀ i < 2, ∀ j < 2, |mat2 i j - ∑ k ∈ range 2,
    ((chol (fixedOps t16 0) 2 mat2 (fun _ _ => 7)).getD (fun _ _ => 0)) i k *
      ((chol (fixedOps t16 0) 2 mat2 (fun _ _ => 7)).getD (fun _ _ => 0)) j k| ≤ resBound t16 2 4 (9 / 4) := by
  obtain ⟨R, -, -, hR, -⟩ := Proof.Chol.chol_eq (fixedOps t16 0) 2 mat2 (fun _ _ => 7) (fun _ => 0)
  have hs : chol (fixedOps t16 0) 2 mat2 (fun _ _ => 7) =
      some ((chol (fixedOps t16 0) 2 mat2 (fun _ _ => 7)).getD (fun _ _ => 0)) := by
    obtain ⟨R, _, _, h, -⟩ := Proof.Chol.chol_eq (fixedOps t16 0) 2 mat2 (fun _ _ => 7) (fun _ => 0)
    rw [h]; rfl
  refine C71_residual_partial 0 fits16 (Or.inl rfl) mat2 (fun _ _ => 7) _ hs mat2_sym mat2_le (fun i hi => ?_)
    (Or.inr fun i hi => ?_)
  · rcases lt_two hi with rfl | rfl <;> decide +kernel
  · rcases lt_two hi with rfl | rfl <;> decide +kernel

/-- **C71**, the rejection of matrices that are not positive definite by more than the rounding errors: with saturating
types, if some direction `x` has `xᵀAx` below `-M * bound * |x|²`, the output is the zero matrix or has a diagonal
element whose reciprocal does not fit.  Missing: the same as for `C71_residual_partial`. -/
theorem C71_reject_partial {t : Types} (junk : ℚ) {M : ℕ} {D B : ℚ} (ht : Fits t M D B)
    (hO : t.imd.O = .SAT ∨ t.imd.O = .SAT_SYM) (hO' : t.out.O = .SAT ∨ t.out.O = .SAT_SYM) (A L : Mem ℚ)
    (hsym : ∀ i < M, ∀ j < M, A i j = A j i) (hD : ∀ i < M, ∀ j < M, |A i j| ≤ D) (x : ℕ → ℚ)
    (hx : ∑ i ∈ range M, ∑ j ∈ range M, x i * A i j * x j < -(M * resBound t M D B * ∑ i ∈ range M, x i ^ 2)) :
    ∃ R, chol (fixedOps t junk) M A L = some R ∧ ∃ i < M, R i i * (unsignedFmt t.imd).maxVal < 1 := by
  obtain ⟨R, F, p, h1, -, -⟩ := Proof.Chol.chol_eq (fixedOps t junk) M A L (fun _ => 0)
  refine ⟨R, h1, ?_⟩
  by_contra hc
  push Not at hc
  have hres := C71_residual_partial junk ht hO A L R h1 hsym hD hc (Or.inl hO')
  have hform := Proof.CholRound.form_le (range M) x (fun i j => A i j - ∑ k ∈ range M, R i k * R j k) (resBound t M D B)
    fun i hi j hj => hres i (mem_range.1 hi) j (mem_range.1 hj)
  rw [card_range] at hform
  have e1 : ∑ i ∈ range M, ∑ j ∈ range M, x i * (A i j - ∑ k ∈ range M, R i k * R j k) * x j =
      ∑ i ∈ range M, ∑ j ∈ range M, x i * A i j * x j -
        ∑ i ∈ range M, ∑ j ∈ range M, x i * (∑ k ∈ range M, R i k * R j k) * x j := by
    rw [← sum_sub_distrib]
    refine sum_congr rfl fun a _ => ?_
    rw [← sum_sub_distrib]
    exact sum_congr rfl fun b _ => by ring
  have e2 : ∑ i ∈ range M, ∑ j ∈ range M, x i * (∑ k ∈ range M, R i k * R j k) * x j =
      ∑ k ∈ range M, (∑ i ∈ range M, x i * R i k) * (∑ j ∈ range M, x j * R j k) := by
    have : ∀ i, ∑ k ∈ range M, ∑ j ∈ range M, x i * R i k * (x j * R j k) =
        ∑ j ∈ range M, x i * (∑ k ∈ range M, R i k * R j k) * x j := by
      intro i
      rw [sum_comm]
      refine sum_congr rfl fun j _ => ?_
      rw [mul_sum, sum_mul]
      exact sum_congr rfl fun k _ => by ring
    symm
    simp only [sum_mul_sum]
    rw [sum_comm]
    exact sum_congr rfl fun a _ => this a
  have e3 : 0 ≤ ∑ k ∈ range M, (∑ i ∈ range M, x i * R i k) * (∑ j ∈ range M, x j * R j k) :=
    sum_nonneg fun k _ => mul_self_nonneg _
  have := (abs_le.1 hform).1
  rw [e1, e2] at this
  linarith

/-- The matrix [[4,28],[28,3]] and the direction (-7, 1). -/
example : ∃ R, chol (fixedOps { t16 with out := ⟨16, 8, true, .RND, .SAT⟩ } 0) 2
    (fun i j => if i = 0 ∧ j = 0 then 4 else if i = 1 ∧ j = 1 then 3 else 28) (fun _ _ => 7) = some R ∧
    ∃ i < 2, R i i * (unsignedFmt t16.imd).maxVal < 1 := by
  refine C71_reject_partial (t := { t16 with out := ⟨16, 8, true, .RND, .SAT⟩ }) (D := 28) (B := 11 / 2) 0
    ⟨by decide, by decide, rfl, rfl, by decide, by decide +kernel, by decide +kernel, by decide +kernel, by decide +kernel⟩
    (Or.inl rfl) (Or.inl rfl) _ _ ?_ ?_ (fun i => if i = 0 then -7 else 1) ?_
  · intro i hi j hj
    rcases lt_two hi with rfl | rfl <;> rcases lt_two hj with rfl | rfl <;> decide +kernel
  · intro i hi j hj
    rcases lt_two hi with rfl | rfl <;> rcases lt_two hj with rfl | rfl <;> decide +kernel
  · decide +kernel

/-- `ac_fixed<28,8,true>` throughout, with the default modes of the intermediate type. -/
def t28 : Types := ⟨⟨28, 8, true, .TRN, .WRAP⟩, ⟨28, 8, true, .TRN, .WRAP⟩, imdFmt ⟨28, 8, true, .TRN, .WRAP⟩ 0 0 .RND .SAT⟩

/-- The reciprocal of a small diagonal element saturates: the factor of the positive definite matrix
[[2^-20, 2^-7], [2^-7, 100]] is [[2^-10, 0], [8, 6]], the call returns [[2^-10, 0], [2 - 2^-20, 9.8]]. -/
theorem C71_small_pivot_wrong :
    ((chol (fixedOps t28 0) 2 (fun i j => if i = 0 ∧ j = 0 then 1 / 2 ^ 20 else if i = 1 ∧ j = 1 then 100 else 1 / 128)
      (fun _ _ => 7)).map fun R => (R 0 0, R 0 1, R 1 0, R 1 1)) =
    some (1 / 1024, 0, 2 - 1 / 2 ^ 20, 642119 / 65536) := by decide +kernel

/-- For the same reason [[2^-20, 2^-5], [2^-5, 100]], whose determinant is negative, is accepted. -/
theorem C71_small_pivot_accepted :
    ((chol (fixedOps t28 0) 2 (fun i j => if i = 0 ∧ j = 0 then 1 / 2 ^ 20 else if i = 1 ∧ j = 1 then 100 else 1 / 32)
      (fun _ _ => 7)).map fun R => (R 0 0, R 0 1, R 1 0, R 1 1)) =
    some (1 / 1024, 0, 8 - 1 / 2 ^ 20, 6 + 1 / 2 ^ 20) ∧ (1 / 2 ^ 20 * 100 - 1 / 32 * (1 / 32) : ℚ) < 0 := by decide +kernel

/-- With a wrapping intermediate type a negative pivot can come out positive: [[4, 28], [28, 3]] is accepted. -/
theorem C71_wrap_wrong :
    ((chol (fixedOps { t16 with imd := imdFmt t16.out 0 0 .RND .WRAP } 0) 2
      (fun i j => if i = 0 ∧ j = 0 then 4 else if i = 1 ∧ j = 1 then 3 else 28) (fun _ _ => 7)).map
        fun R => (R 0 0, R 0 1, R 1 0, R 1 1)) = some (2, 0, 14, 2031 / 256) := by decide +kernel

end Props.CholRound
