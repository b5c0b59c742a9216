import Verif.Proof.InPlace
import Verif.Props.Matrix
import Verif.Props.MatrixComplex

/-! # C87: calls whose output array is one of the input arrays

`mulLeft fa fb M N A B` is the array `A` after `ac_matrixmul(A, B, A)`, `mulRight` the array `B` after `ac_matrixmul(A, B, B)`,
`square` the array `A` after `ac_matrixmul(A, A, A)`.  `chol o M A A` is `ac_chol_d(A, A)`: the second array is the output as it is
before the call. -/

namespace Props.InPlace
open Ac Model.InPlace
open Props.Matrix (AllRep)

/-! ## What is computed -/

/-- `ac_matrixmul(A, B, A)`: the elements of a row are replaced one after the other, so that the inner product for column `j` takes
the new elements of the row up to column `j` and the old ones from there on.  Nothing outside `A` is written. -/
theorem C87_left {fa fb : Fmt} (ha : 1 ≤ fa.W) (hb : 1 ≤ fb.W) (M N : ℕ) (A B : Mem ℚ) (hA : AllRep fa M N A) (hB : AllRep fb N N B) :
    (∀ i j, ¬ (i < M ∧ j < N) → mulLeft fa fb M N A B i j = A i j) ∧ ∀ i < M, ∀ j < N, mulLeft fa fb M N A B i j =
      fa.cvt (∑ k : Fin N, (if (k : ℕ) < j then mulLeft fa fb M N A B i k else A i k) * B k j) := by
  obtain ⟨R, e, h1, h2⟩ := Proof.InPlace.sweep M N (fun i j m => fa.cvt (Model.Matmul.acc fa fb N m B i j)) A
  rw [mulLeft, e]
  have rep : ∀ i < M, ∀ j < N, fa.Rep (R i j) := fun i hi j hj => by rw [h2 i hi j hj]; exact Fmt.rep_cvt ha _
  refine ⟨h1, fun i hi j hj => ?_⟩
  conv_lhs => rw [h2 i hi j hj]
  rw [Proof.InPlace.acc_congr fa fb (A' := fun _ k => if k < j then R i k else A i k) (B' := B) (fun k hk => ?_) fun _ _ => rfl,
    Proof.Matmul.acc_eq ha hb N _ B i j (fun k hk => ?_) fun k hk => hB k hk j hj]
  · split_ifs
    · exact rep i hi k hk
    · exact hA i hi k hk
  · by_cases h : k < j
    · rw [if_pos ⟨Or.inr ⟨rfl, h⟩, hk⟩, if_pos h]
    · rw [if_neg (by omega), if_neg h]

/-- `ac_matrixmul(A, B, B)`: the rows are replaced one after the other, so that the inner product for row `i` takes the new rows up
to row `i` and the old ones from there on. -/
theorem C87_right {fa fb : Fmt} (ha : 1 ≤ fa.W) (hb : 1 ≤ fb.W) (N P : ℕ) (A B : Mem ℚ) (hA : AllRep fa N N A) (hB : AllRep fb N P B) :
    (∀ i j, ¬ (i < N ∧ j < P) → mulRight fa fb N P A B i j = B i j) ∧ ∀ i < N, ∀ j < P, mulRight fa fb N P A B i j =
      fb.cvt (∑ k : Fin N, A i k * if (k : ℕ) < i then mulRight fa fb N P A B k j else B k j) := by
  obtain ⟨R, e, h1, h2⟩ := Proof.InPlace.sweep N P (fun i j m => fb.cvt (Model.Matmul.acc fa fb N A m i j)) B
  rw [mulRight, e]
  have rep : ∀ i < N, ∀ j < P, fb.Rep (R i j) := fun i hi j hj => by rw [h2 i hi j hj]; exact Fmt.rep_cvt hb _
  refine ⟨h1, fun i hi j hj => ?_⟩
  conv_lhs => rw [h2 i hi j hj]
  rw [Proof.InPlace.acc_congr fa fb (A' := A) (B' := fun k _ => if k < i then R k j else B k j) (fun _ _ => rfl) (fun k hk => ?_),
    Proof.Matmul.acc_eq ha hb N A _ i j (fun k hk => hA i hi k hk) (fun k hk => ?_)]
  · split_ifs
    · exact rep k hk j hj
    · exact hB k hk j hj
  · by_cases h : k < i
    · rw [if_pos ⟨Or.inl h, hj⟩, if_pos h]
    · rw [if_neg (by omega), if_neg h]

/-! ## Where that is the product -/

/-- `ac_matrixmul(A, B, A)` gives the product if `B` has no element above the diagonal.  Missing: other `B`, for which it is false,
see `C87_left_wrong`. -/
theorem C87_left_partial {fa fb : Fmt} (ha : 1 ≤ fa.W) (hb : 1 ≤ fb.W) (M N : ℕ) (A B : Mem ℚ) (hA : AllRep fa M N A)
    (hB : AllRep fb N N B) (h0 : ∀ k j, k < j → j < N → B k j = 0) :
    (mulLeft fa fb M N A B).mat M N = (A.mat M N * B.mat N N).map fa.cvt := by
  ext i j
  refine ((C87_left ha hb M N A B hA hB).2 i i.2 j j.2).trans ?_
  rw [Matrix.map_apply, Matrix.mul_apply]
  congr 1
  refine Finset.sum_congr rfl fun k _ => ?_
  rcases Nat.lt_or_ge k j with h | h
  · simp only [Mem.mat, h0 k j h j.2, mul_zero]
  · rw [if_neg (by omega)]; rfl

/-- `ac_matrixmul(A, B, B)` gives the product if `A` has no element below the diagonal.  Missing: other `A`, for which it is false,
see `C87_right_wrong`. -/
theorem C87_right_partial {fa fb : Fmt} (ha : 1 ≤ fa.W) (hb : 1 ≤ fb.W) (N P : ℕ) (A B : Mem ℚ) (hA : AllRep fa N N A)
    (hB : AllRep fb N P B) (h0 : ∀ i k, k < i → i < N → A i k = 0) :
    (mulRight fa fb N P A B).mat N P = (A.mat N N * B.mat N P).map fb.cvt := by
  ext i j
  refine ((C87_right ha hb N P A B hA hB).2 i i.2 j j.2).trans ?_
  rw [Matrix.map_apply, Matrix.mul_apply]
  congr 1
  refine Finset.sum_congr rfl fun k _ => ?_
  rcases Nat.lt_or_ge k i with h | h
  · simp only [Mem.mat, h0 i k h i.2, zero_mul]
  · rw [if_neg (by omega)]; rfl

def sg : Fmt := ⟨8, 4, true, .TRN, .WRAP⟩
/-- The matrix that exchanges two columns or rows. -/
def swap : Mem ℚ := fun i j => if i = j then 0 else 1
def exA : Mem ℚ := fun i j => 2 * i + j + 1
/-- A positive definite matrix, the square of a lower triangular one. -/
def spd : Mem ℚ := fun i j => if i = j then 4 + i else 2
def lower : Mem ℚ := fun i j => if i < j then 0 else i + 1

theorem rep_of (n : ℤ) (h1 : -8 ≤ n) (h2 : n ≤ 7) : sg.Rep (n : ℚ) :=
  ⟨n * 16, by simp [sg, minRaw]; omega, by simp [sg, maxRaw]; omega, by simp [sg, Fmt.val, Fmt.F]; norm_num [mul_assoc]⟩

theorem rep_ex : AllRep sg 2 2 exA ∧ AllRep sg 2 2 swap ∧ AllRep sg 2 2 lower := by
  refine ⟨fun i hi j hj => ?_, fun i hi j hj => ?_, fun i hi j hj => ?_⟩
  · have := rep_of (2 * i + j + 1) (by omega) (by omega)
    push_cast at this; exact this
  · unfold swap; split_ifs
    · exact_mod_cast rep_of 0 (by norm_num) (by norm_num)
    · exact_mod_cast rep_of 1 (by norm_num) (by norm_num)
  · unfold lower; split_ifs
    · exact_mod_cast rep_of 0 (by norm_num) (by norm_num)
    · have := rep_of (i + 1) (by omega) (by omega)
      push_cast at this; exact this

example : (mulLeft sg sg 2 2 exA lower).mat 2 2 = (exA.mat 2 2 * lower.mat 2 2).map sg.cvt :=
  C87_left_partial (by decide) (by decide) 2 2 exA lower rep_ex.1 rep_ex.2.2 fun k j h _ => if_pos h

/-- Exchanging the columns of a matrix in place duplicates one of them. -/
theorem C87_left_wrong : (mulLeft sg sg 2 2 exA swap).mat 2 2 = !![2, 2; 4, 4] ∧ (exA.mat 2 2 * swap.mat 2 2).map sg.cvt = !![2, 1; 4, 3] := by
  decide +kernel

/-- Exchanging the rows of a matrix in place duplicates one of them. -/
theorem C87_right_wrong : (mulRight sg sg 2 2 swap exA).mat 2 2 = !![3, 4; 3, 4] ∧ (swap.mat 2 2 * exA.mat 2 2).map sg.cvt = !![3, 4; 1, 2] := by
  decide +kernel

/-- Squaring in place is wrong, too. -/
theorem C87_square_wrong : (square sg 2 swap).mat 2 2 = !![1, 1; 1, 1] ∧ (swap.mat 2 2 * swap.mat 2 2).map sg.cvt = !![1, 0; 0, 1] := by
  decide +kernel

/-! ## Complex elements -/

open Model.DetComplex (Cx cvt)
open Props.MatrixComplex (ProdOk)

/-- `ac_matrixmul(A, B, A)` for complex elements: as `C87_left`. -/
theorem C87_left_complex {fa fb fp : Fmt} (hp : ProdOk fa fb fp) (ha : 1 ≤ fa.W) (M N : ℕ) (A B : Mem Cx)
    (hA : Props.MatrixComplex.AllRep fa M N A) (hB : Props.MatrixComplex.AllRep fb N N B) :
    ∀ i < M, ∀ j < N, mulLeftC fp fa M N A B i j =
      cvt fa (∑ k : Fin N, (if (k : ℕ) < j then mulLeftC fp fa M N A B i k else A i k) * B k j) := by
  obtain ⟨R, e, h1, h2⟩ := Proof.InPlace.sweep M N (fun i j m => cvt fa (Model.MatrixComplex.acc fp N m B i j)) A
  rw [mulLeftC, e]
  have rep : ∀ i < M, ∀ j < N, fa.Rep (R i j).re ∧ fa.Rep (R i j).im := fun i hi j hj => by
    rw [h2 i hi j hj]; exact ⟨Fmt.rep_cvt ha _, Fmt.rep_cvt ha _⟩
  intro i hi j hj
  conv_lhs => rw [h2 i hi j hj]
  rw [Proof.InPlace.accC_congr fp (A' := fun _ k => if k < j then R i k else A i k) (B' := B) (fun k hk => ?_) fun _ _ => rfl,
    Proof.MatrixComplex.acc_eq hp.wide hp.full N _ B i j fun k hk => hp.holds _ _ ?_ (hB k hk j hj)]
  · split_ifs
    · exact rep i hi k hk
    · exact hA i hi k hk
  · by_cases h : k < j
    · rw [if_pos ⟨Or.inr ⟨rfl, h⟩, hk⟩, if_pos h]
    · rw [if_neg (by omega), if_neg h]

/-- `ac_matrixmul(A, B, B)` for complex elements: as `C87_right`. -/
theorem C87_right_complex {fa fb fp : Fmt} (hp : ProdOk fa fb fp) (hb : 1 ≤ fb.W) (N P : ℕ) (A B : Mem Cx)
    (hA : Props.MatrixComplex.AllRep fa N N A) (hB : Props.MatrixComplex.AllRep fb N P B) :
    ∀ i < N, ∀ j < P, mulRightC fp fb N P A B i j =
      cvt fb (∑ k : Fin N, A i k * if (k : ℕ) < i then mulRightC fp fb N P A B k j else B k j) := by
  obtain ⟨R, e, h1, h2⟩ := Proof.InPlace.sweep N P (fun i j m => cvt fb (Model.MatrixComplex.acc fp N A m i j)) B
  rw [mulRightC, e]
  have rep : ∀ i < N, ∀ j < P, fb.Rep (R i j).re ∧ fb.Rep (R i j).im := fun i hi j hj => by
    rw [h2 i hi j hj]; exact ⟨Fmt.rep_cvt hb _, Fmt.rep_cvt hb _⟩
  intro i hi j hj
  conv_lhs => rw [h2 i hi j hj]
  rw [Proof.InPlace.accC_congr fp (A' := A) (B' := fun k _ => if k < i then R k j else B k j) (fun _ _ => rfl) (fun k hk => ?_),
    Proof.MatrixComplex.acc_eq hp.wide hp.full N A _ i j fun k hk => hp.holds _ _ (hA i hi k hk) ?_]
  · split_ifs
    · exact rep k hk j hj
    · exact hB k hk j hj
  · by_cases h : k < i
    · rw [if_pos ⟨Or.inl h, hj⟩, if_pos h]
    · rw [if_neg (by omega), if_neg h]

/-- The types of the examples, and a matrix of complex numbers, meet the hypotheses. -/
example : ProdOk sg sg (Proof.MatrixComplex.prodFmt sg sg) ∧ Props.MatrixComplex.AllRep sg 2 2 (fun i j => ⟨exA i j, swap i j⟩) :=
  ⟨Props.MatrixComplex.prodFmt_ok (by decide) (by decide), fun i hi j hj => ⟨rep_ex.1 i hi j hj, rep_ex.2.1 i hi j hj⟩⟩

/-! ## `ac_matrix`: `A += A`, `A -= A` -/

/-- `A += A` doubles the matrix. -/
theorem C87_add {fa : Fmt} (ha : 1 ≤ fa.W) (M N : ℕ) (A : Mem ℚ) (hA : AllRep fa M N A) :
    (addSelf fa M N A).mat M N = (A.mat M N + A.mat M N).map fa.cvt := by
  ext i j
  have e := update_eq M N (fun _ _ x => fa.cvt ((fa.plus fa).cvt (x + x))) A i j
  rw [if_pos ⟨i.2, j.2⟩, Fmt.cvt_rep (Proof.Matrix.plus_W ha) (by simp [Fmt.plus, Fmt.mk'])
    (Fmt.rep_plus ha ha (hA i i.2 j j.2) (hA i i.2 j j.2))] at e
  exact e

example : (addSelf sg 2 2 exA).mat 2 2 = !![2, 4; 6, -8] := by decide +kernel

/-- `A -= A` clears the matrix. -/
theorem C87_sub {fa : Fmt} (ha : 1 ≤ fa.W) (M N : ℕ) (A : Mem ℚ) : (subSelf fa M N A).mat M N = 0 := by
  ext i j
  have e := update_eq M N (fun _ _ x => fa.cvt ((fa.minus fa).cvt (x - x))) A i j
  rw [if_pos ⟨i.2, j.2⟩, sub_self, Fmt.cvt_zero' (Proof.Matrix.minus_W ha), Fmt.cvt_zero' ha] at e
  exact e

/-! ## Decompositions -/

/-- `ac_chol_d(A, A)` gives the same as `ac_chol_d(A, L)`, for every element type. -/
theorem C87_chol {α σd σ ρ : Type} (o : Model.Chol.Ops α α σd σ ρ) (M : ℕ) (A L : Mem α) (p0 : σd) :
    ∃ R R', Model.Chol.chol o M A A = some R ∧ Model.Chol.chol o M A L = some R' ∧ R.mat M M = R'.mat M M := by
  obtain ⟨R, R', e1, e2, h⟩ := Proof.InPlace.chol_old o M A A L p0
  exact ⟨R, R', e1, e2, by ext i j; exact h i i.2 j j.2⟩

example : ((Model.Chol.chol (Model.Chol.fixedOps ⟨sg, sg, ⟨16, 8, true, .RND, .SAT⟩⟩ 0) 2 spd spd).map fun R => (R 0 0, R 0 1, R 1 0, R 1 1)) =
    some (2, 0, 1, 2) := by decide +kernel

/-- `ac_cholinv(A, A)` gives the same as `ac_cholinv(A, Ainv)`. -/
theorem C87_cholinv {α τ σd σ ρ : Type} (c : Model.Chol.Ops α τ σd σ ρ) (o : Model.CholInv.Ops τ α) (M : ℕ) (A X : Mem α) (L0 : Mem τ)
    (p0 : σd) : ∃ R R', Model.CholInv.cholinv c o M A L0 A = some R ∧ Model.CholInv.cholinv c o M A L0 X = some R' ∧ R.mat M M = R'.mat M M := by
  obtain ⟨R, R', e1, e2, h⟩ := Proof.InPlace.cholinv_old c o M A L0 A X p0
  exact ⟨R, R', e1, e2, by ext i j; exact h i i.2 j j.2⟩

/-- `ac_qrd(A, A, R)` and `ac_qrd(A, Q, A)` give the same as `ac_qrd(A, Q, R)`. -/
theorem C87_qrd {β α κ : Type} (o : Model.QrdFixed.Ops β α κ β) (M : ℕ) (A Q R : Mem β) (junk : Mem α) :
    ((Model.QrdFixed.qrd o M A junk A R).1.mat M M = (Model.QrdFixed.qrd o M A junk Q R).1.mat M M ∧
      (Model.QrdFixed.qrd o M A junk A R).2.mat M M = (Model.QrdFixed.qrd o M A junk Q R).2.mat M M) ∧
    (Model.QrdFixed.qrd o M A junk Q A).1.mat M M = (Model.QrdFixed.qrd o M A junk Q R).1.mat M M ∧
      (Model.QrdFixed.qrd o M A junk Q A).2.mat M M = (Model.QrdFixed.qrd o M A junk Q R).2.mat M M := by
  have h := fun (Q R : Mem β) (i j : Fin M) =>
    Proof.QrdRound.separate_eq o M (Model.QrdFixed.colLoop o M (Model.QrdFixed.initMat o M A junk)).1 Q R i.2 j.2
  refine ⟨⟨?_, ?_⟩, ?_, ?_⟩ <;> ext i j
  · exact (h A R i j).1.trans (h Q R i j).1.symm
  · exact (h A R i j).2.trans (h Q R i j).2.symm
  · exact (h Q A i j).1.trans (h Q R i j).1.symm
  · exact (h Q A i j).2.trans (h Q R i j).2.symm

end Props.InPlace
