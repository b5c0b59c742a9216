import Verif.Proof.Matrix
import Verif.Model.Matmul

/-! # Proofs about ac_matrixmul -/

namespace Proof.Matmul
open Ac Model.Matmul Proof.Matrix

theorem acc_eq {fa fb : Fmt} (ha : 1 ≤ fa.W) (hb : 1 ≤ fb.W) (N : ℕ) (A B : Mem ℚ) (i j : ℕ)
    (hA : ∀ k < N, fa.Rep (A i k)) (hB : ∀ k < N, fb.Rep (B k j)) :
    acc fa fb N A B i j = ∑ k : Fin N, A i k * B k j := by
  have hW : 1 ≤ (fa.mult fb).W := mult_W ha
  have hW' : 1 ≤ (accFmt fa fb N).W := by unfold accFmt Fmt.sumOf; simp only; omega
  have hO : (accFmt fa fb N).O ≠ .SAT_SYM := by simp [accFmt, Fmt.sumOf]
  have hrep : ∀ k < N, (fa.mult fb).Rep (A i k * B k j) := fun k hk => Fmt.rep_mult ha hb (hA k hk) (hB k hk)
  have hzero : (accFmt fa fb N).Rep 0 := by
    refine ⟨0, ?_, ?_, by simp [Fmt.val]⟩
    · unfold minRaw; split_ifs <;> simp
    · unfold maxRaw; split_ifs
      · have : (0 : ℤ) < 2 ^ ((accFmt fa fb N).W - 1) := by positivity
        omega
      · have : (0 : ℤ) < 2 ^ (accFmt fa fb N).W := by positivity
        omega
  have hpre : ∀ n ≤ N, (accFmt fa fb N).Rep (∑ k : Fin n, A i k * B k j) := by
    intro n hn
    rcases Nat.eq_zero_or_pos n with rfl | hpos
    · simpa using hzero
    · exact Fmt.rep_sum hW (le_trans hn (Fmt.log2Ceil_le N)) (fun k : Fin n => A i k * B k j)
        (fun k => hrep k (by omega)) hpos
  have key : ∀ n ≤ N, forUp (fun k add => (accFmt fa fb N).cvt (((accFmt fa fb N).plus (fa.mult fb)).cvt
      (add + (fa.mult fb).cvt (A i k * B k j)))) n ((accFmt fa fb N).cvt (0 : ℚ)) = ∑ k : Fin n, A i k * B k j := by
    intro n hn
    induction n with
    | zero => simpa [forUp] using Fmt.cvt_rep hW' hO hzero
    | succ n ih =>
      have h1 := hpre n (by omega)
      have h2 := hrep n (by omega)
      have h3 := hpre (n + 1) hn
      have e : ∑ k : Fin (n + 1), A i k * B k j = ∑ k : Fin n, A i k * B k j + A i n * B n j := by
        rw [Fin.sum_univ_castSucc]; rfl
      rw [forUp, ih (by omega), Fmt.cvt_rep hW (by simp [Fmt.mult]) h2,
        Fmt.cvt_rep (plus_W hW') (by simp [Fmt.plus, Fmt.mk']) (Fmt.rep_plus hW' hW h1 h2), e]
      rw [e] at h3
      exact Fmt.cvt_rep hW' hO h3
  exact key N le_rfl

end Proof.Matmul
