import Verif.Proof.CholInv
import Verif.Props.Chol
import Verif.Props.DivFixed
import Mathlib.LinearAlgebra.Matrix.NonsingularInverse

/-! # C23: ac_cholinv -/

namespace Props.CholInv
open Ac Model.CholInv Matrix
open scoped ComplexOrder ComplexConjugate

/-- **C23.** With exact real or complex arithmetic, for every size: the output for a positive definite matrix is its
inverse.  (Missing from the full property: zeros for other matrices, which is false, see below.)  No element of an intermediate array is read before it is written. -/
theorem C23_inverse_partial {𝕜 : Type} [RCLike 𝕜] (sat : 𝕜) (M : ℕ) (A L0 R0 : Mem 𝕜) (hA : (A.mat M M).PosDef) :
    ∃ R, cholinv (Model.Chol.exactOps 𝕜) (exactOps 𝕜 sat) M A L0 R0 = some R ∧
      A.mat M M * R.mat M M = 1 ∧ R.mat M M * A.mat M M = 1 := by
  obtain ⟨L, h1, h2, -⟩ := Props.Chol.C22_factor M A L0 hA.isHermitian
  obtain ⟨hLL, htri, hpos⟩ := h2 hA
  obtain ⟨N, F, f1, f2, f3⟩ := Proof.CholInv.columns_eq (exactOps 𝕜 sat) M L
  have hinv := Proof.CholInv.col_inverse sat (M := M) (L := L) (F := F)
    (fun i hi j hj hij => htri ⟨i, hi⟩ ⟨j, hj⟩ hij) (fun i hi => (hpos ⟨i, hi⟩).ne') f2
  refine ⟨_, by rw [cholinv, h1, Option.bind_some, f1, Option.bind_some, Proof.CholInv.product_eq _ f3], ?_⟩
  set T := Proof.Chol.low M M F
  have hR : Mem.mat M M (fun i j => if i < M ∧ j < M then
      (exactOps 𝕜 sat).out (Proof.CholInv.prodOf (exactOps 𝕜 sat) M F i j) else R0 i j) = Tᴴ * T := by
    ext i j
    simp only [Mem.mat]
    rw [if_pos ⟨i.2, j.2⟩]
    exact Proof.CholInv.prod_matrix sat M F i j
  rw [hR]
  have hTL : T * L.mat M M = 1 := mul_eq_one_comm.mp hinv
  have h3 : (Tᴴ * T) * A.mat M M = 1 := by
    rw [← hLL, Matrix.mul_assoc, ← Matrix.mul_assoc T, hTL, Matrix.one_mul, ← Matrix.conjTranspose_mul, hinv,
      Matrix.conjTranspose_one]
  exact ⟨mul_eq_one_comm.mp h3, h3⟩

/-- The hypotheses hold for the 3 by 3 matrix with 2 on the diagonal. -/
example : (Mem.mat 3 3 (fun i j => if i = j then (2 : ℝ) else 0)).PosDef := by
  have : Mem.mat 3 3 (fun i j => if i = j then (2 : ℝ) else 0) = Matrix.diagonal fun _ => 2 := by
    ext i j; simp [Mem.mat, Matrix.diagonal_apply, Fin.ext_iff]
  rw [this]
  exact Matrix.PosDef.diagonal fun _ => by norm_num

/-- **C23 is false of the code for matrices that are not positive definite.** For a signed output type (exact
functions), every size and every input rejected by the decomposition: the result is not the documented zero matrix but
has on its diagonal the square of the largest value of the intermediate type. -/
theorem C23_rejected {out t : Fmt} (ht : 1 ≤ t.W) {M : ℕ} {α σd σ ρ : Type} (c : Model.Chol.Ops α ℚ σd σ ρ)
    (A : Mem α) (L0 R0 L : Mem ℚ) (junk : ℚ) (hL : Model.Chol.chol c M A L0 = some L)
    (hz : ∀ i < M, ∀ j < M, L i j = 0) (ho : 1 ≤ out.W) :
    ∃ R, cholinv c (fixedOps out t junk) M A L0 R0 = some R ∧
      ∀ i < M, ∀ j < M, R i j = if i = j then out.cvt (t.cvt (t.maxVal * t.maxVal)) else 0 := by
  set o := fixedOps out t junk with ho'
  obtain ⟨N, F, f1, f2, f3⟩ := Proof.CholInv.columns_eq o M L
  refine ⟨_, by rw [cholinv, hL, Option.bind_some, f1, Option.bind_some, Proof.CholInv.product_eq _ f3], ?_⟩
  have hrec : ∀ k < M, o.recip (L k k) = t.maxVal := by
    intro k hk
    rw [hz k hk k hk]
    change (Model.DivFixed.divS false ⟨2, 2, true, .TRN, .WRAP⟩ t t 1 (t.raw 0) junk).1 = _
    rw [show t.raw 0 = 0 by simp [Fmt.raw], Props.DivFixed.C04_signed_zero]
    rfl
  have h0 : t.cvt (0 : ℚ) = 0 := Fmt.cvt_zero' ht
  have hsum : ∀ i < M, ∀ j < M, Proof.CholInv.sumOf o L F i j = 0 := by
    intro i _ j hj
    have key : ∀ n ≤ j, forUp (fun k s => if i ≤ k then o.acc s (L j k) (F k i) else o.acc0 s) n o.zero = 0 := by
      intro n
      induction n with
      | zero => intro _; rfl
      | succ n ih =>
        intro hn
        rw [forUp, ih (by omega), hz j hj n (by omega)]
        have e1 : o.acc 0 0 (F n i) = 0 := by
          change t.cvt (0 + 0 * F n i) = 0
          rw [zero_mul, add_zero, h0]
        have e2 : o.acc0 0 = 0 := by
          change t.cvt ((0 : ℚ) + 0) = 0
          rw [add_zero, h0]
        rw [e1, e2, ite_self]
    unfold Proof.CholInv.sumOf
    rw [key j le_rfl]
    change t.cvt ((0 : ℚ) + 0) = 0
    rw [add_zero, h0]
  have hF : ∀ i < M, ∀ j < M, i < j → F j i = 0 := by
    intro i hi j hj hij
    rw [(f2 i hi).2 j hj hij, hsum i hi j hj]
    change t.cvt (-(0 * _)) = 0
    rw [zero_mul, neg_zero, h0]
  have hD : ∀ i < M, F i i = t.maxVal := fun i hi => by rw [(f2 i hi).1, hrec i hi]
  have e2 : o.acc0 0 = 0 := by
    change t.cvt ((0 : ℚ) + 0) = 0
    rw [add_zero, h0]
  intro i hi j hj
  rw [if_pos ⟨hi, hj⟩]
  have key : ∀ n ≤ M, forUp (fun k s => if k < j ∨ k < i then o.acc0 s else o.accC s (F k i) (F k j)) n o.zero =
      if i = j ∧ i < n then t.cvt (t.maxVal * t.maxVal) else 0 := by
    intro n
    induction n with
    | zero => intro _; rw [if_neg (by omega)]; rfl
    | succ n ih =>
      intro hn
      rw [forUp, ih (by omega)]
      by_cases h1 : n < j ∨ n < i
      · rw [if_pos h1, if_neg (by omega), e2, if_neg (by omega)]
      · rw [if_neg h1]
        by_cases hij : i = j
        · subst hij
          rcases Nat.eq_or_lt_of_le (show i ≤ n by omega) with rfl | hlt
          · rw [if_neg (by omega), if_pos ⟨rfl, by omega⟩, hD i hi]
            change t.cvt (0 + t.maxVal * t.maxVal) = _
            rw [zero_add]
          · rw [if_pos ⟨rfl, hlt⟩, if_pos ⟨rfl, by omega⟩, hF i hi n (by omega) hlt]
            change t.cvt (t.cvt (t.maxVal * t.maxVal) + 0 * 0) = _
            rw [mul_zero, add_zero, Fmt.cvt_idem ht]
        · rw [if_neg (by tauto), if_neg (by tauto)]
          have : F n i * F n j = 0 := by
            rcases Nat.lt_or_ge i n with h | h
            · rw [hF i hi n (by omega) h, zero_mul]
            · rw [hF j hj n (by omega) (by omega), mul_zero]
          change t.cvt (0 + F n i * F n j) = 0
          rw [this, zero_add, h0]
  unfold Proof.CholInv.prodOf
  rw [key M le_rfl]
  change out.cvt _ = _
  by_cases hij : i = j
  · rw [if_pos ⟨hij, hi⟩, if_pos hij]
  · rw [if_neg (by tauto), if_neg hij, Fmt.cvt_zero' ho]

/-- The output type of the usage example in the header, `ac_fixed<64,32,true,AC_RND,AC_SAT>`. -/
def t64 : Fmt := ⟨64, 32, true, .RND, .SAT⟩

/-- **C23 counterexample.** With the types of the header's usage example, for every size, a matrix whose first diagonal
element is not positive gives the largest value of the output type on the diagonal. -/
theorem C23_not_posdef_wrong {M : ℕ} (hM : 0 < M) (A L0 R0 : Mem ℚ) (junk : ℚ) (fin : Fmt) (hA : A 0 0 ≤ 0) :
    ∃ R, cholinv (Model.Chol.fixedOps ⟨fin, t64, Model.Chol.imdFmt t64 0 0 .RND .SAT⟩ junk) (fixedOps t64 t64 junk) M A
      L0 R0 = some R ∧ R 0 0 = t64.maxVal ∧ R 0 0 ≠ 0 := by
  obtain ⟨L, h1, h2⟩ := Props.Chol.C21_fixed_first ⟨fin, t64, Model.Chol.imdFmt t64 0 0 .RND .SAT⟩ junk hM A L0
    (by
      have h := Fmt.cvt_mono (f := Model.Chol.imdFmt t64 0 0 .RND .SAT) (by decide) hA
      rwa [Fmt.cvt_zero' (by decide)] at h)
  obtain ⟨R, e1, e2⟩ := C23_rejected (out := t64) (t := t64) (by decide) _ A L0 R0 L junk h1 h2 (by decide)
  refine ⟨R, e1, ?_, ?_⟩
  · rw [e2 0 hM 0 hM]; decide +kernel
  · rw [e2 0 hM 0 hM]; decide +kernel

example : ∃ R, cholinv (Model.Chol.fixedOps ⟨⟨30, 15, true, .RND, .SAT⟩, t64, Model.Chol.imdFmt t64 0 0 .RND .SAT⟩ 0)
    (fixedOps t64 t64 0) 7 (fun _ _ => -1) (fun _ _ => 0) (fun _ _ => 0) = some R ∧ R 0 0 = t64.maxVal ∧ R 0 0 ≠ 0 :=
  C23_not_posdef_wrong (by decide) _ _ _ 0 _ (by norm_num)

end Props.CholInv
