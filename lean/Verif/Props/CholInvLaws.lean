import Verif.Props.CholLaws
import Verif.Props.CholInv
import Verif.Model.CholInvFns

/-! # C99: laws of the matrix inverse by Cholesky decomposition

`cholinv c o M A L0 R0` is the output of `ac_cholinv` for the `M` by `M` matrix `A`: `c` is the arithmetic of the
decomposition, `o` that of the inverse, `L0` and `R0` what the arrays hold before the call. -/

namespace Props.CholInvLaws
open Ac Model.CholInv Matrix
open Props.Chol (forUp_foldl)
open scoped ComplexOrder ComplexConjugate

variable {α τ ω σd σ ρ : Type}

/-- Forward substitution reads only the elements on and below the diagonal. -/
theorem col_unique {o : Ops τ ω} {M : ℕ} {L L' F F' : Mem τ} (hL : ∀ i < M, ∀ j < M, L i j = L' i j)
    {i : ℕ} (h : Proof.CholInv.Col o L F i M) (h' : Proof.CholInv.Col o L' F' i M) :
    ∀ k < M, i ≤ k → F k i = F' k i := by
  intro k
  induction k using Nat.strong_induction_on with
  | _ k ih =>
    intro hk hik
    rcases eq_or_lt_of_le hik with rfl | hlt
    · rw [h.1, h'.1, hL i hk i hk]
    · rw [h.2 k hk hlt, h'.2 k hk hlt, hL k hk k hk]
      congr 1
      unfold Proof.CholInv.sumOf
      congr 1
      rw [forUp_foldl, forUp_foldl]
      refine List.foldl_ext _ _ _ fun s m hm => ?_
      have hm := List.mem_range.1 hm
      split_ifs with him
      · rw [hL k hk m (by omega), ih m hm (by omega) him]
      · rfl

/-- **C99**, only the elements on and below the diagonal matter: two matrices that agree there have the same inverse, bit
for bit, whatever the element types, their rounding and the functions used. What the arrays held before does not matter. -/
theorem C99_lower [Nonempty σd] (c : Model.Chol.Ops α τ σd σ ρ) (o : Ops τ ω) (M : ℕ) {A A' : Mem α}
    (hA : ∀ i < M, ∀ j ≤ i, A i j = A' i j) (L0 L0' : Mem τ) (R0 R0' : Mem ω) :
    ∃ R R', cholinv c o M A L0 R0 = some R ∧ cholinv c o M A' L0' R0' = some R' ∧ ∀ i < M, ∀ j < M, R i j = R' i j := by
  obtain ⟨L, L', e, e', hL⟩ := CholLaws.C98_lower c M hA L0 L0'
  obtain ⟨N, F, f1, f2, f3⟩ := Proof.CholInv.columns_eq o M L
  obtain ⟨N', F', f1', f2', f3'⟩ := Proof.CholInv.columns_eq o M L'
  refine ⟨_, _, by rw [cholinv, e, Option.bind_some, f1, Option.bind_some, Proof.CholInv.product_eq _ f3],
    by rw [cholinv, e', Option.bind_some, f1', Option.bind_some, Proof.CholInv.product_eq _ f3'], fun i hi j hj => ?_⟩
  simp only [hi, hj, and_self, if_true]
  congr 1
  unfold Proof.CholInv.prodOf
  rw [forUp_foldl, forUp_foldl]
  refine List.foldl_ext _ _ _ fun s k hk => ?_
  have hk := List.mem_range.1 hk
  split_ifs with hc
  · rfl
  · rw [col_unique hL (f2 i hi) (f2' i hi) k hk (by omega), col_unique hL (f2 j hj) (f2' j hj) k hk (by omega)]

/-- The type of the examples, `ac_fixed<16,8,true>`. -/
def t16 : Fmt := ⟨16, 8, true, .TRN, .WRAP⟩

/-- The intermediate type with `k` added bits (`add2w`) and the default rounding and overflow. -/
def imd (k : ℕ) : Fmt := tFmt t16 k 0 .RND .SAT

/-- The types of the decomposition. -/
def c16 (k : ℕ) : Model.Chol.Types := ⟨t16, imd k, Model.Chol.imdFmt (imd k) 0 0 .RND .SAT⟩

/-- The computed inverse of (4, 2; 2, 10), that is (5/18, -1/18; -1/18, 1/9), with something else above the diagonal. -/
example : ∀ x ∈ [2, 77, -5],
    ((cholinv (Model.Chol.realOps (c16 0) (Model.Chol.fns false (c16 0) 0)) (realOps false t16 (imd 0) 0) 2
      (fun i j => if i = 0 ∧ j = 0 then 4 else if i = 1 ∧ j = 1 then 10 else if j < i then 2 else x) (fun _ _ => 7)
      (fun _ _ => 7)).map fun R => (R 0 0, R 0 1, R 1 0, R 1 1)) =
      some (71 / 256, -7 / 128, -7 / 128, 7 / 64) := by
  decide +kernel

/-- **C99**, symmetry: for real elements the output is symmetric, bit for bit, for every input (symmetric or not), all types
and roundings, exact or PWL functions. -/
theorem C99_symmetric [Nonempty σd] (c : Model.Chol.Ops α ℚ σd σ ρ) (pwl : Bool) (out t : Fmt) (junk : ℚ) (M : ℕ) (A : Mem α)
    (L0 R0 : Mem ℚ) :
    ∃ R, cholinv c (realOps pwl out t junk) M A L0 R0 = some R ∧ ∀ i < M, ∀ j < M, R i j = R j i := by
  obtain ⟨L, -, e, -, -⟩ := CholLaws.C98_lower c M (A := A) (A' := A) (fun _ _ _ _ => rfl) L0 L0
  obtain ⟨N, F, f1, f2, f3⟩ := Proof.CholInv.columns_eq (realOps pwl out t junk) M L
  refine ⟨_, by rw [cholinv, e, Option.bind_some, f1, Option.bind_some, Proof.CholInv.product_eq _ f3], fun i hi j hj => ?_⟩
  simp only [hi, hj, and_self, if_true]
  congr 1
  unfold Proof.CholInv.prodOf
  congr 1
  funext k s
  by_cases h : k < j ∨ k < i
  · rw [if_pos h, if_pos h.symm]
  · rw [if_neg h, if_neg fun h' => h h'.symm]
    change t.cvt (s + F k i * F k j) = t.cvt (s + F k j * F k i)
    rw [mul_comm]

theorem prodOf_re (pwl : Bool) (out t fm : Fmt) (junk : ℚ) (F : Mem (ℚ × ℚ)) (i j n : ℕ) :
    (Proof.CholInv.prodOf (complexOps pwl out t fm junk) n F i j).1 =
      (Proof.CholInv.prodOf (complexOps pwl out t fm junk) n F j i).1 := by
  unfold Proof.CholInv.prodOf
  induction n with
  | zero => rfl
  | succ n ih =>
    rw [forUp, forUp]
    by_cases h : n < j ∨ n < i
    · rw [if_pos h, if_pos h.symm]
      change t.cvt (_ + 0) = t.cvt (_ + 0)
      rw [ih]
    · rw [if_neg h, if_neg fun h' => h h'.symm]
      change t.cvt (_ + ((F n i).1 * (F n j).1 + (F n i).2 * (F n j).2)) = t.cvt (_ + ((F n j).1 * (F n i).1 + (F n j).2 * (F n i).2))
      rw [ih, mul_comm (F n i).1, mul_comm (F n i).2]

theorem prodOf_im (pwl : Bool) (out : Fmt) {t : Fmt} (ht : 1 ≤ t.W) (fm : Fmt) (junk : ℚ) (F : Mem (ℚ × ℚ)) (i n : ℕ) :
    (Proof.CholInv.prodOf (complexOps pwl out t fm junk) n F i i).2 = 0 := by
  unfold Proof.CholInv.prodOf
  induction n with
  | zero => rfl
  | succ n ih =>
    rw [forUp]
    split_ifs
    · change t.cvt (_ + 0) = 0
      rw [ih, add_zero, Fmt.cvt_zero' ht]
    · change t.cvt (_ + ((F n i).1 * (F n i).2 - (F n i).2 * (F n i).1)) = 0
      rw [ih, mul_comm, sub_self, add_zero, Fmt.cvt_zero' ht]

/-- **C99**, symmetry for complex elements: the real parts of the output are symmetric and the diagonal is real, bit for
bit, for every input. -/
theorem C99_complex [Nonempty σd] (c : Model.Chol.Ops α (ℚ × ℚ) σd σ ρ) (pwl : Bool) {out t : Fmt} (ho : 1 ≤ out.W) (ht : 1 ≤ t.W)
    (fm : Fmt) (junk : ℚ) (M : ℕ) (A : Mem α) (L0 R0 : Mem (ℚ × ℚ)) :
    ∃ R, cholinv c (complexOps pwl out t fm junk) M A L0 R0 = some R ∧
      (∀ i < M, ∀ j < M, (R i j).1 = (R j i).1) ∧ ∀ i < M, (R i i).2 = 0 := by
  obtain ⟨L, -, e, -, -⟩ := CholLaws.C98_lower c M (A := A) (A' := A) (fun _ _ _ _ => rfl) L0 L0
  obtain ⟨N, F, f1, f2, f3⟩ := Proof.CholInv.columns_eq (complexOps pwl out t fm junk) M L
  refine ⟨_, by rw [cholinv, e, Option.bind_some, f1, Option.bind_some, Proof.CholInv.product_eq _ f3],
    fun i hi j hj => ?_, fun i hi => ?_⟩
  · simp only [hi, hj, and_self, if_true]
    change out.cvt _ = out.cvt _
    congr 1
    exact prodOf_re pwl out t fm junk F i j M
  · simp only [hi, and_self, if_true]
    change out.cvt _ = 0
    rw [prodOf_im pwl out ht fm junk F i M, Fmt.cvt_zero' ho]

/-- **The output for a Hermitian matrix need not be Hermitian**: for (8, 1-i; 1+i, 8) with parts of `ac_fixed<16,8,true>` and
8 bits added to the intermediate type, the imaginary parts outside the diagonal are 4/256 and -5/256, as truncation is not
symmetric. -/
theorem C99_hermitian_wrong :
    ((cholinv (Model.Chol.complexOps (c16 8) (Model.Chol.fns false (c16 8) 0)) (complexOps false t16 (imd 8) t16 0) 2
      (fun i j => if i = j then (8, 0) else if j < i then (1, 1) else (1, -1)) (fun _ _ => (0, 0)) (fun _ _ => (0, 0))).map
      fun R => [R 0 0, R 0 1, R 1 0, R 1 1]) =
      some [(33 / 256, 0), (-5 / 256, 4 / 256), (-5 / 256, -5 / 256), (33 / 256, 0)] := by
  decide +kernel

/-- **C99**, the inverse of the inverse: with exact arithmetic, applied to the inverse of a positive definite matrix,
ac_cholinv gives the matrix back. -/
theorem C99_again {𝕜 : Type} [RCLike 𝕜] (sat sat' : 𝕜) (M : ℕ) (A L0 R0 L0' R0' : Mem 𝕜) (hA : (A.mat M M).PosDef) :
    ∃ R R', cholinv (Model.Chol.exactOps 𝕜) (exactOps 𝕜 sat) M A L0 R0 = some R ∧
      cholinv (Model.Chol.exactOps 𝕜) (exactOps 𝕜 sat') M R L0' R0' = some R' ∧ ∀ i < M, ∀ j < M, R' i j = A i j := by
  obtain ⟨R, e, h1, h2⟩ := CholInv.C23_inverse_partial sat M A L0 R0 hA
  have hR : (R.mat M M).PosDef := by
    have : R.mat M M = (A.mat M M)⁻¹ := (Matrix.inv_eq_right_inv h1).symm
    rw [this]; exact hA.inv
  obtain ⟨R', e', h1', h2'⟩ := CholInv.C23_inverse_partial sat' M R L0' R0' hR
  refine ⟨R, R', e, e', fun i hi j hj => ?_⟩
  have : R'.mat M M = A.mat M M := by
    have := congrArg (A.mat M M * ·) h1'
    simp only [← Matrix.mul_assoc, h1, Matrix.one_mul, Matrix.mul_one] at this
    exact this
  exact congrFun (congrFun this ⟨i, hi⟩) ⟨j, hj⟩

/-- The hypothesis is met by the 3 by 3 matrix with 2 on the diagonal. -/
example : (Mem.mat 3 3 (fun i j => if i = j then (2 : ℝ) else 0)).PosDef := by
  have : Mem.mat 3 3 (fun i j => if i = j then (2 : ℝ) else 0) = Matrix.diagonal fun _ => 2 := by
    ext i j; simp [Mem.mat, Matrix.diagonal_apply, Fin.ext_iff]
  rw [this]
  exact Matrix.PosDef.diagonal fun _ => by norm_num

end Props.CholInvLaws
