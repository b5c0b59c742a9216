import Verif.Proof.Matmul
import Mathlib.LinearAlgebra.Matrix.Hadamard
import Mathlib.Data.Matrix.Mul
import Mathlib.Tactic.NormNum
import Mathlib.LinearAlgebra.Matrix.Determinant.Basic

/-! # C15-C18: ac_matrix and ac_matrixmul

The contents of the result object are compared with Mathlib's matrices over ℚ. -/

namespace Props.Matrix
open Ac Model.Matrix Proof.Matrix

/-- Every element of an `M` by `N` array is representable in its element type. -/
def AllRep (f : Fmt) (M N : ℕ) (A : Mem ℚ) : Prop := ∀ i < M, ∀ j < N, f.Rep (A i j)

/-! ## C15: exact arithmetic -/

theorem C15_add {fa fb : Fmt} (ha : 1 ≤ fa.W) (hb : 1 ≤ fb.W) (M N : ℕ) (A B junk : Mem ℚ)
    (hA : AllRep fa M N A) (hB : AllRep fb M N B) :
    (add fa fb M N A B junk).mat M N = A.mat M N + B.mat M N := by
  ext i j; exact add_eq ha hb M N A B junk hA hB i.2 j.2

theorem C15_sub {fa fb : Fmt} (ha : 1 ≤ fa.W) (hb : 1 ≤ fb.W) (M N : ℕ) (A B junk : Mem ℚ)
    (hA : AllRep fa M N A) (hB : AllRep fb M N B) :
    (sub fa fb M N A B junk).mat M N = A.mat M N - B.mat M N := by
  ext i j; exact sub_eq ha hb M N A B junk hA hB i.2 j.2

theorem C15_pwisemult {fa fb : Fmt} (ha : 1 ≤ fa.W) (hb : 1 ≤ fb.W) (M N : ℕ) (A B junk : Mem ℚ)
    (hA : AllRep fa M N A) (hB : AllRep fb M N B) :
    (pwisemult fa fb M N A B junk).mat M N = (A.mat M N).hadamard (B.mat M N) := by
  ext i j; exact pwisemult_eq ha hb M N A B junk hA hB i.2 j.2

/-- What `operator*` computes for every matrix: each element of the exact product, wrapped once into the type with
room for `N-1` products. -/
theorem C15_mul_wrapped {fa fb : Fmt} (ha : 1 ≤ fa.W) (hb : 1 ≤ fb.W) (M N Q : ℕ) (A B junk : Mem ℚ)
    (hA : AllRep fa M N A) (hB : AllRep fb N Q B) :
    (mul fa fb M N Q A B junk).mat M Q = (A.mat M N * B.mat N Q).map (sumFmt fa fb N).cvt := by
  ext i j; exact mul_eq ha hb M N Q A B junk hA hB i.2 j.2

theorem sumFmt_W {fa fb : Fmt} (ha : 1 ≤ fa.W) (N : ℕ) : 1 ≤ (sumFmt fa fb N).W := by
  unfold sumFmt Fmt.sumOf Fmt.mult; simp only; omega

/-- An element of the product is exact exactly when it fits that type. -/
theorem C15_mul_exact_iff {fa fb : Fmt} (ha : 1 ≤ fa.W) (hb : 1 ≤ fb.W) (M N Q : ℕ) (A B junk : Mem ℚ)
    (hA : AllRep fa M N A) (hB : AllRep fb N Q B) (i : Fin M) (j : Fin Q) :
    (mul fa fb M N Q A B junk).mat M Q i j = (A.mat M N * B.mat N Q) i j ↔
      (sumFmt fa fb N).Rep ((A.mat M N * B.mat N Q) i j) := by
  rw [C15_mul_wrapped ha hb M N Q A B junk hA hB, Matrix.map_apply]
  constructor
  · intro h; rw [← h]; exact Fmt.rep_cvt (sumFmt_W ha N) _
  · intro h; exact Fmt.cvt_rep (sumFmt_W ha N) (by simp [sumFmt, Fmt.sumOf]) h

/-- `operator*` is exact whenever `N-1` and `N` need the same number of carry bits.  Missing from the full property:
the other inner dimensions, for which it is false (`C15_mul_signed_wrong`, `C15_mul_unsigned_wrong`) or covered by
`C15_mul_signed_partial`. -/
theorem C15_mul_partial {fa fb : Fmt} (ha : 1 ≤ fa.W) (hb : 1 ≤ fb.W) (M N Q : ℕ) (hN : 1 ≤ N)
    (hroom : N ≤ 2 ^ log2Ceil (N - 1)) (A B junk : Mem ℚ) (hA : AllRep fa M N A) (hB : AllRep fb N Q B) :
    (mul fa fb M N Q A B junk).mat M Q = A.mat M N * B.mat N Q := by
  ext i j
  rw [C15_mul_exact_iff ha hb M N Q A B junk hA hB]
  exact Fmt.rep_sum (mult_W ha) hroom (fun k : Fin N => A i k * B k j)
    (fun k => Fmt.rep_mult ha hb (hA i i.2 k k.2) (hB k k.2 j j.2)) hN

/-- For signed operands `operator*` is exact for every inner dimension from 3 on.  Missing: inner dimension 2. -/
theorem C15_mul_signed_partial {fa fb : Fmt} (ha : 1 ≤ fa.W) (hb : 1 ≤ fb.W) (hSa : fa.S = true) (hSb : fb.S = true)
    (M N Q : ℕ) (hN : 3 ≤ N) (A B junk : Mem ℚ) (hA : AllRep fa M N A) (hB : AllRep fb N Q B) :
    (mul fa fb M N Q A B junk).mat M Q = A.mat M N * B.mat N Q := by
  ext i j
  rw [C15_mul_exact_iff ha hb M N Q A B junk hA hB]
  have hrep : ∀ k : Fin N, (fa.mult fb).Rep (A i k * B k j) := fun k =>
    Fmt.rep_mult ha hb (hA i i.2 k k.2) (hB k k.2 j j.2)
  change (sumFmt fa fb N).Rep (∑ k : Fin N, A i k * B k j)
  rw [Fmt.rep_iff (sumFmt_W ha N)]
  refine ⟨?_, Fmt.grid_sum _ (fun k : Fin N => A i k * B k j) fun k _ =>
    Fmt.grid_same_F (Fmt.sumOf_F _ _).symm ((Fmt.rep_iff (mult_W ha) _).mp (hrep k)).2⟩
  have hbound : ∀ k : Fin N, |A i k * B k j| ≤ 2 ^ (fa.I + fb.I - 2) := by
    intro k
    have h1 := ((Fmt.rep_iff ha _).mp (hA i i.2 k k.2)).1
    have h2 := ((Fmt.rep_iff hb _).mp (hB k k.2 j j.2)).1
    unfold Fmt.Bnd at h1 h2
    rw [if_pos hSa] at h1
    rw [if_pos hSb] at h2
    rw [abs_mul, show fa.I + fb.I - 2 = (fa.I - 1) + (fb.I - 1) by ring, ← Fmt.z_add]
    exact mul_le_mul (abs_le.mpr ⟨h1.1, h1.2.le⟩) (abs_le.mpr ⟨h2.1, h2.2.le⟩) (abs_nonneg _) (Fmt.z_pos _).le
  have hsum : |∑ k : Fin N, A i k * B k j| ≤ N * 2 ^ (fa.I + fb.I - 2) := by
    refine (Finset.abs_sum_le_sum_abs _ _).trans ?_
    have := Finset.sum_le_sum (s := Finset.univ) fun k _ => hbound k
    simpa using this
  have hl1 : 1 ≤ log2Ceil (N - 1) := by
    unfold log2Ceil
    rw [if_neg (by omega)]; omega
  have hl : (N : ℚ) < 2 ^ ((log2Ceil (N - 1) : ℤ) + 1) := by
    have h1 := Fmt.log2Ceil_le (N - 1)
    have h2 : 2 ^ 1 ≤ 2 ^ log2Ceil (N - 1) := Nat.pow_le_pow_right (by norm_num) hl1
    rw [show (log2Ceil (N - 1) : ℤ) + 1 = ((log2Ceil (N - 1) + 1 : ℕ) : ℤ) by push_cast; ring, zpow_natCast]
    have : N < 2 ^ (log2Ceil (N - 1) + 1) := by rw [pow_succ]; omega
    exact_mod_cast this
  have h3 := mul_lt_mul_of_pos_right hl (Fmt.z_pos (fa.I + fb.I - 2))
  rw [Fmt.z_add, show (log2Ceil (N - 1) : ℤ) + 1 + (fa.I + fb.I - 2) = fa.I + fb.I + log2Ceil (N - 1) - 1 by ring] at h3
  have h4 := abs_lt.mp (lt_of_le_of_lt hsum h3)
  unfold Fmt.Bnd
  rw [if_pos (show (sumFmt fa fb N).S = true by simp [sumFmt, Fmt.sumOf, Fmt.mult, hSa])]
  exact ⟨h4.1.le, h4.2⟩

theorem rep_val {f : Fmt} {r : ℤ} (h0 : minRaw f.W f.S ≤ r) (h1 : r ≤ maxRaw f.W f.S) : f.Rep (f.val r) := ⟨r, h0, h1, rfl⟩

theorem minRaw_le_maxRaw (W : ℕ) (S : Bool) : minRaw W S ≤ maxRaw W S := by
  unfold minRaw maxRaw
  have : (0 : ℤ) < 2 ^ (W - 1) := by positivity
  have : (0 : ℤ) < 2 ^ W := by positivity
  cases S <;> simp <;> omega

/-- Signed operands of any width and inner dimension 2: the matrices full of the most negative value give a wrong
product (the sum of two positive maximal products wraps to a negative number). -/
theorem C15_mul_signed_wrong {fa fb : Fmt} (ha : 1 ≤ fa.W) (hb : 1 ≤ fb.W) (hSa : fa.S = true) (hSb : fb.S = true)
    (M Q : ℕ) (hM : 1 ≤ M) (hQ : 1 ≤ Q) (junk : Mem ℚ) : ∃ A B : Mem ℚ, AllRep fa M 2 A ∧ AllRep fb 2 Q B ∧
      (mul fa fb M 2 Q A B junk).mat M Q ≠ A.mat M 2 * B.mat 2 Q := by
  have hra : fa.Rep (fa.val (minRaw fa.W fa.S)) := rep_val le_rfl (minRaw_le_maxRaw _ _)
  have hrb : fb.Rep (fb.val (minRaw fb.W fb.S)) := rep_val le_rfl (minRaw_le_maxRaw _ _)
  refine ⟨fun _ _ => fa.val (minRaw fa.W fa.S), fun _ _ => fb.val (minRaw fb.W fb.S), fun _ _ _ _ => hra,
    fun _ _ _ _ => hrb, ?_⟩
  intro h
  have h' := congrFun (congrFun h ⟨0, by omega⟩) ⟨0, by omega⟩
  rw [C15_mul_exact_iff ha hb M 2 Q _ _ junk (fun _ _ _ _ => hra) (fun _ _ _ _ => hrb)] at h'
  have hb1 := ((Fmt.rep_iff (sumFmt_W ha 2) _).mp h').1
  have hmin : ∀ f : Fmt, 1 ≤ f.W → f.S = true → f.val (minRaw f.W f.S) = -2 ^ (f.I - 1) := by
    intro f hf hS
    unfold Fmt.val minRaw
    rw [if_pos hS]
    push_cast
    rw [neg_mul, ← zpow_natCast, Fmt.z_add]
    congr 2
    unfold Fmt.F; push_cast [hf]; ring
  unfold Fmt.Bnd at hb1
  rw [if_pos (show (sumFmt fa fb 2).S = true by simp [sumFmt, Fmt.sumOf, Fmt.mult, hSa])] at hb1
  have hI : (sumFmt fa fb 2).I = fa.I + fb.I := by simp [sumFmt, Fmt.sumOf, Fmt.mult, log2Ceil]
  have h2 := hb1.2
  rw [hI, Matrix.mul_apply, Fin.sum_univ_two] at h2
  simp only [Mem.mat, hmin fa ha hSa, hmin fb hb hSb, neg_mul_neg, Fmt.z_add] at h2
  have := Fmt.z_succ (fa.I - 1 + (fb.I - 1))
  rw [show fa.I - 1 + (fb.I - 1) + 1 = fa.I + fb.I - 1 by ring] at this
  linarith

/-- Unsigned operands: the all-ones matrices give a wrong product for every inner dimension and widths with
`N*(2^Wa-1)*(2^Wb-1) ≥ 2^(Wa+Wb+ceil(log2(N-1)))`; that is every pair of widths from 2 on when `N = 2`. -/
theorem C15_mul_unsigned_wrong {fa fb : Fmt} (ha : 1 ≤ fa.W) (hb : 1 ≤ fb.W) (hSa : fa.S = false) (hSb : fb.S = false)
    (M N Q : ℕ) (hM : 1 ≤ M) (hQ : 1 ≤ Q)
    (hbig : 2 ^ (fa.W + fb.W + log2Ceil (N - 1)) ≤ (N : ℤ) * (2 ^ fa.W - 1) * (2 ^ fb.W - 1)) (junk : Mem ℚ) :
    ∃ A B : Mem ℚ, AllRep fa M N A ∧ AllRep fb N Q B ∧
      (mul fa fb M N Q A B junk).mat M Q ≠ A.mat M N * B.mat N Q := by
  have hra : fa.Rep (fa.val (maxRaw fa.W fa.S)) := rep_val (minRaw_le_maxRaw _ _) le_rfl
  have hrb : fb.Rep (fb.val (maxRaw fb.W fb.S)) := rep_val (minRaw_le_maxRaw _ _) le_rfl
  refine ⟨fun _ _ => fa.val (maxRaw fa.W fa.S), fun _ _ => fb.val (maxRaw fb.W fb.S), fun _ _ _ _ => hra,
    fun _ _ _ _ => hrb, ?_⟩
  intro h
  have h' := congrFun (congrFun h ⟨0, by omega⟩) ⟨0, by omega⟩
  rw [C15_mul_exact_iff ha hb M N Q _ _ junk (fun _ _ _ _ => hra) (fun _ _ _ _ => hrb)] at h'
  have hb1 := ((Fmt.rep_iff (sumFmt_W ha N) _).mp h').1
  unfold Fmt.Bnd at hb1
  rw [if_neg (show ¬ (sumFmt fa fb N).S = true by simp [sumFmt, Fmt.sumOf, Fmt.mult, hSa, hSb])] at hb1
  have h2 := hb1.2
  have hI : (sumFmt fa fb N).I = ((fa.W + fb.W + log2Ceil (N - 1) : ℕ) : ℤ) + (-fa.F + -fb.F) := by
    simp only [sumFmt, Fmt.sumOf, Fmt.mult, Fmt.F]; push_cast; ring
  rw [hI, ← Fmt.z_add, ← Fmt.z_add, Matrix.mul_apply] at h2
  simp only [Mem.mat, Fmt.val, maxRaw, hSa, hSb, Bool.false_eq_true, if_false, Finset.sum_const, Finset.card_univ,
    Fintype.card_fin, nsmul_eq_mul, zpow_natCast] at h2
  have h3 : ((2 ^ (fa.W + fb.W + log2Ceil (N - 1)) : ℤ) : ℚ) ≤ ((N : ℤ) * (2 ^ fa.W - 1) * (2 ^ fb.W - 1) : ℤ) := by
    exact_mod_cast hbig
  have h4 := mul_le_mul_of_nonneg_right h3 (mul_pos (Fmt.z_pos (-fa.F)) (Fmt.z_pos (-fb.F))).le
  push_cast at h2 h4
  linarith

/-- In particular for inner dimension 2 and all unsigned widths from 2 on. -/
theorem C15_mul_unsigned_two_wrong {fa fb : Fmt} (ha : 2 ≤ fa.W) (hb : 2 ≤ fb.W) (hSa : fa.S = false)
    (hSb : fb.S = false) (M Q : ℕ) (hM : 1 ≤ M) (hQ : 1 ≤ Q) (junk : Mem ℚ) :
    ∃ A B : Mem ℚ, AllRep fa M 2 A ∧ AllRep fb 2 Q B ∧
      (mul fa fb M 2 Q A B junk).mat M Q ≠ A.mat M 2 * B.mat 2 Q := by
  refine C15_mul_unsigned_wrong (by omega) (by omega) hSa hSb M 2 Q hM hQ ?_ junk
  have h1 : (4 : ℤ) ≤ 2 ^ fa.W := by
    calc (4 : ℤ) = 2 ^ 2 := by norm_num
      _ ≤ 2 ^ fa.W := pow_le_pow_right₀ (by norm_num) ha
  have h2 : (4 : ℤ) ≤ 2 ^ fb.W := by
    calc (4 : ℤ) = 2 ^ 2 := by norm_num
      _ ≤ 2 ^ fb.W := pow_le_pow_right₀ (by norm_num) hb
  have hl : log2Ceil (2 - 1) = 0 := by decide
  rw [hl, add_zero, pow_add]
  push_cast
  nlinarith

/-! ## C16: structural laws -/

theorem C16_transpose {α : Type} (M N : ℕ) (A junk : Mem α) :
    (transpose M N A junk).mat N M = (A.mat M N).transpose := by
  ext i j; exact transpose_eq M N A junk i.2 j.2

/-- Transposing twice gives the matrix back. -/
theorem C16_transpose_involutive {α : Type} (M N : ℕ) (A junk junk' : Mem α) :
    (transpose N M (transpose M N A junk) junk').mat M N = A.mat M N := by
  rw [C16_transpose, C16_transpose, Matrix.transpose_transpose]

theorem sumFmt_comm (fa fb : Fmt) (N : ℕ) : sumFmt fa fb N = sumFmt fb fa N := by
  unfold sumFmt
  congr 1
  unfold Fmt.mult
  rw [add_comm fa.W, add_comm fa.I, Bool.or_comm]

/-- The transpose of a product is the reversed product of the transposes, as computed. -/
theorem C16_transpose_mul {fa fb : Fmt} (ha : 1 ≤ fa.W) (hb : 1 ≤ fb.W) (M N Q : ℕ) (A B j1 j2 j3 j4 j5 : Mem ℚ)
    (hA : AllRep fa M N A) (hB : AllRep fb N Q B) :
    (transpose M Q (mul fa fb M N Q A B j1) j2).mat Q M =
      (mul fb fa Q N M (transpose N Q B j3) (transpose M N A j4) j5).mat Q M := by
  rw [C16_transpose, C15_mul_wrapped ha hb M N Q A B j1 hA hB,
    C15_mul_wrapped hb ha Q N M _ _ j5 ?_ ?_, C16_transpose, C16_transpose, ← Matrix.transpose_mul, sumFmt_comm fb fa]
  · ext i j; rfl
  · intro i hi j hj
    rw [transpose_eq N Q B j3 hi hj]; exact hB j hj i hi
  · intro i hi j hj
    rw [transpose_eq M N A j4 hi hj]; exact hA j hj i hi

theorem C16_eq {α : Type} [DecidableEq α] (M N : ℕ) (A B : Mem α) :
    eq M N M N A B = true ↔ A.mat M N = B.mat M N := by
  unfold eq
  rw [Bool.not_eq_true', ← Bool.not_eq_true, ne_iff]
  push Not
  constructor
  · rintro ⟨_, _, h⟩; ext i j; exact h i i.2 j j.2
  · intro h
    exact ⟨rfl, rfl, fun i hi j hj => congrFun (congrFun h ⟨i, hi⟩) ⟨j, hj⟩⟩

theorem C16_ne {α : Type} [DecidableEq α] (M N : ℕ) (A B : Mem α) :
    ne M N M N A B = true ↔ A.mat M N ≠ B.mat M N := by
  rw [Ne, ← C16_eq]
  unfold eq
  simp

/-- Matrices of different shapes are never equal. -/
theorem C16_ne_shape {α : Type} [DecidableEq α] (M N M2 N2 : ℕ) (h : M2 ≠ M ∨ N2 ≠ N) (A B : Mem α) :
    ne M N M2 N2 A B = true ∧ eq M N M2 N2 A B = false := by
  have : ne M N M2 N2 A B = true := by rw [ne_iff]; tauto
  exact ⟨this, by unfold eq; rw [this]; rfl⟩

/-- `submatrix` returns the window at the offset, for every window inside the matrix. -/
theorem C16_submatrix {α : Type} (M N R S : ℕ) (A : Mem α) (row col : ℕ) (junk : Mem α) (hr : row + R ≤ M)
    (hc : col + S ≤ N) : (submatrix R S A row col junk).mat R S =
      (A.mat M N).submatrix (fun i : Fin R => ⟨row + i, by omega⟩) (fun j : Fin S => ⟨col + j, by omega⟩) := by
  ext i j
  have := submatrix_eq R S A row col junk i.2 j.2
  rw [add_comm (i : ℕ), add_comm (j : ℕ)] at this
  exact this

/-- `sum` for a wrapping element type: the exact total of all elements, wrapped once. -/
theorem C16_sum {fa : Fmt} (ha : 1 ≤ fa.W) (hO : fa.O = .WRAP) (M N : ℕ) (A : Mem ℚ) (hA : AllRep fa M N A) :
    sum fa M N A = fa.cvt (∑ i, ∑ j, A.mat M N i j) :=
  sum_eq hO M N A fun i hi j hj => ((Fmt.rep_iff ha _).mp (hA i hi j hj)).2

/-- `scale` multiplies every element exactly and converts it once. -/
theorem C16_scale {fs fa : Fmt} (hs : 1 ≤ fs.W) (ha : 1 ≤ fa.W) (M N : ℕ) {s : ℚ} (hrs : fs.Rep s) (A junk : Mem ℚ)
    (hA : AllRep fa M N A) : (scale fs fa M N s A junk).mat M N = (s • A.mat M N).map fa.cvt := by
  ext i j; exact scale_eq hs ha M N hrs A junk hA i.2 j.2

theorem C16_addAssign {fa : Fmt} (ha : 1 ≤ fa.W) (M N : ℕ) (A B : Mem ℚ) (hA : AllRep fa M N A) (hB : AllRep fa M N B) :
    (addAssign fa M N A B).mat M N = (A.mat M N + B.mat M N).map fa.cvt := by
  ext i j; exact addAssign_eq ha M N A B hA hB i.2 j.2

theorem C16_subAssign {fa : Fmt} (ha : 1 ≤ fa.W) (M N : ℕ) (A B : Mem ℚ) (hA : AllRep fa M N A) (hB : AllRep fa M N B) :
    (subAssign fa M N A B).mat M N = (A.mat M N - B.mat M N).map fa.cvt := by
  ext i j; exact subAssign_eq ha M N A B hA hB i.2 j.2

theorem C16_initialize {α : Type} (M N : ℕ) (v : α) (junk : Mem α) :
    (initAll M N v junk).mat M N = fun _ _ => v := by
  ext i j
  have := fill_eq M N (fun _ _ => v) junk i j
  rwa [if_pos ⟨i.2, j.2⟩] at this

theorem C16_copy {α : Type} (M N : ℕ) (A junk : Mem α) : (copyContents M N A junk).mat M N = A.mat M N := by
  ext i j
  have := fill_eq M N (fun i j => A i j) junk i j
  rwa [if_pos ⟨i.2, j.2⟩] at this

/-- The built-in determinant of a 2x2 and of a 3x3 matrix is the exact determinant converted once. -/
theorem C16_det2 (fa : Fmt) (A : Mem ℚ) : det2 fa A = fa.cvt (A.mat 2 2).det := by
  rw [Matrix.det_fin_two]; rfl

theorem C16_det3 (fa : Fmt) (A : Mem ℚ) : det3 fa A = fa.cvt (A.mat 3 3).det := by
  rw [Matrix.det_fin_three]
  unfold det3 Mem.mat
  congr 1
  simp only [Fin.isValue, Fin.val_zero, Fin.val_one, Fin.val_two]
  ring

/-! ## C17: initializer lists -/

/-- For square matrices a full list is stored in row-major order.  Missing from the full property: matrices that are
not square, for which it is false (`C17_wide_out_of_bounds`, `C17_tall_unwritten`). -/
theorem C17_square_partial {α : Type} {N : ℕ} (hN : 1 ≤ N) (l : List α) (hl : l.length = N * N) (junk : Mem α) :
    ∃ A, ofList N N l junk = some A ∧ ∀ k (h : k < l.length), A (k / N) (k % N) = l[k] := by
  rw [ofList_eq, if_pos hl.le]
  obtain ⟨m, e1, e2, _⟩ := fillFrom_square hN l 0 junk (by omega)
  exact ⟨m, e1, fun k h => by simpa using e2 k h⟩

/-- A shorter list fills the first positions of a square matrix and leaves the others unwritten. -/
theorem C17_square_short_partial {α : Type} {N : ℕ} (hN : 1 ≤ N) (l : List α) (hl : l.length ≤ N * N) (junk : Mem α) :
    ∃ A, ofList N N l junk = some A ∧ (∀ k (h : k < l.length), A (k / N) (k % N) = l[k]) ∧
      ∀ i j, j < N → l.length ≤ i * N + j → A i j = junk i j := by
  rw [ofList_eq, if_pos hl]
  obtain ⟨m, e1, e2, e3⟩ := fillFrom_square hN l 0 junk (by omega)
  exact ⟨m, e1, fun k h => by simpa using e2 k h, fun i j hj h => e3 i j hj (Or.inr (by omega))⟩

/-- With fewer rows than columns a full list is written outside the array. -/
theorem C17_wide_out_of_bounds {α : Type} {M N : ℕ} (hM : 1 ≤ M) (hMN : M < N) (l : List α) (hl : l.length = M * N)
    (junk : Mem α) : ofList M N l junk = none := by
  rw [ofList_eq, if_pos hl.le]
  refine fillFrom_wide hM hMN l 0 junk (Nat.zero_le _) ?_
  rw [hl, Nat.zero_add]
  exact Nat.mul_lt_mul_of_pos_left hMN hM

/-- With more rows than columns a full list leaves every row from row `N` on unwritten. -/
theorem C17_tall_unwritten {α : Type} {M N : ℕ} (hN : 1 ≤ N) (hMN : N < M) (l : List α) (hl : l.length = M * N)
    (junk : Mem α) : ∃ A, ofList M N l junk = some A ∧ ∀ i j, N ≤ i → A i j = junk i j := by
  rw [ofList_eq, if_pos hl.le]
  exact fillFrom_tall hN hMN l 0 junk (by omega)

/-! ## C18: ac_matrixmul -/

/-- Every element of the output is the exact inner product, converted once to the output type. -/
theorem C18_matrixmul {fa fb : Fmt} (fc : Fmt) (ha : 1 ≤ fa.W) (hb : 1 ≤ fb.W) (M N P : ℕ) (A B C : Mem ℚ)
    (hA : AllRep fa M N A) (hB : AllRep fb N P B) :
    (Model.Matmul.arraymultiply fa fb fc M N P A B C).mat M P = (A.mat M N * B.mat N P).map fc.cvt := by
  ext i j
  have := fill_eq M P (fun i j => fc.cvt (Model.Matmul.acc fa fb N A B i j)) C i j
  rw [if_pos ⟨i.2, j.2⟩] at this
  rw [Proof.Matmul.acc_eq ha hb N A B i j (fun k hk => hA i i.2 k hk) (fun k hk => hB k hk j j.2)] at this
  exact this

/-- Nothing outside the output array is written. -/
theorem C18_frame (fa fb fc : Fmt) (M N P : ℕ) (A B C : Mem ℚ) (i j : ℕ) (h : ¬ (i < M ∧ j < P)) :
    Model.Matmul.arraymultiply fa fb fc M N P A B C i j = C i j := by
  have := fill_eq M P (fun i j => fc.cvt (Model.Matmul.acc fa fb N A B i j)) C i j
  rwa [if_neg h] at this

/-! ## The hypotheses are met -/

/-- `ac_fixed<8,4,true>` and `ac_fixed<4,4,false>` for the examples. -/
def f84 : Fmt := ⟨8, 4, true, .TRN, .WRAP⟩
def f44 : Fmt := ⟨4, 4, false, .TRN, .WRAP⟩

theorem rep84 : f84.Rep (-7 / 4) := ⟨-28, by decide, by decide, by norm_num [f84, Fmt.val, Fmt.F]⟩
theorem rep44 : f44.Rep 13 := ⟨13, by decide, by decide, by norm_num [f44, Fmt.val, Fmt.F]⟩

example : AllRep f84 5 4 (fun _ _ => -7 / 4) ∧ AllRep f44 4 3 (fun _ _ => 13) :=
  ⟨fun _ _ _ _ => rep84, fun _ _ _ _ => rep44⟩
/-- Inner dimensions with enough room: 4, 6, 7, 8, ... -/
example : (4 : ℕ) ≤ 2 ^ log2Ceil (4 - 1) ∧ 6 ≤ 2 ^ log2Ceil (6 - 1) ∧ 7 ≤ 2 ^ log2Ceil (7 - 1) := by decide
example : (mul f84 f44 5 4 3 (fun _ _ => -7 / 4) (fun _ _ => 13) (fun _ _ => 0)).mat 5 3 =
    Mem.mat 5 4 (fun _ _ => (-7 / 4 : ℚ)) * Mem.mat 4 3 (fun _ _ => (13 : ℚ)) :=
  C15_mul_partial (by decide) (by decide) 5 4 3 (by decide) (by decide) _ _ _ (fun _ _ _ _ => rep84) (fun _ _ _ _ => rep44)
/-- Unsigned 4-bit elements and inner dimension 3 or 5 meet the overflow condition. -/
example : (2 : ℤ) ^ (4 + 4 + log2Ceil (3 - 1)) ≤ (3 : ℕ) * (2 ^ 4 - 1) * (2 ^ 4 - 1) ∧
    (2 : ℤ) ^ (4 + 4 + log2Ceil (5 - 1)) ≤ (5 : ℕ) * (2 ^ 4 - 1) * (2 ^ 4 - 1) := by decide
example : (2 : ℕ) + 2 ≤ 5 ∧ 1 + 3 ≤ 4 := by decide
example : ([10, 11, 12, 13] : List ℤ).length = 2 * 2 := by decide
example : (ofList 2 2 [10, 11, 12, 13] (fun _ _ => (0 : ℤ))).map (fun A => (A 0 0, A 0 1, A 1 0, A 1 1)) =
    some (10, 11, 12, 13) := by decide
example : (ofList 3 2 [10, 11, 12, 13, 14, 15] (fun _ _ => (0 : ℤ))).map (fun A => (A 0 0, A 0 1, A 1 0, A 1 1, A 2 0, A 2 1)) =
    some (12, 11, 14, 15, 0, 0) := by decide
example : (Model.Matmul.arraymultiply f84 f44 f84 5 4 3 (fun _ _ => -7 / 4) (fun _ _ => 13) (fun _ _ => 0)).mat 5 3 =
    (Mem.mat 5 4 (fun _ _ => (-7 / 4 : ℚ)) * Mem.mat 4 3 (fun _ _ => (13 : ℚ))).map f84.cvt :=
  C18_matrixmul f84 (by decide) (by decide) 5 4 3 _ _ _ (fun _ _ _ _ => rep84) (fun _ _ _ _ => rep44)

end Props.Matrix
