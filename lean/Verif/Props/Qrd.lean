import Verif.Proof.Qrd
import Mathlib.Analysis.Complex.Basic
import Mathlib.LinearAlgebra.Matrix.NonsingularInverse
import Mathlib.Tactic.NormNum

/-! # C24: ac_qrd -/

namespace Props.Qrd
open Ac Model.Qrd Matrix
open scoped ComplexConjugate ComplexOrder

variable {𝕜 : Type} [RCLike 𝕜]

/-- A QR decomposition: A = QR, Q unitary (orthogonal for real matrices), R upper triangular. -/
structure IsQR {n : ℕ} (A Q R : Matrix (Fin n) (Fin n) 𝕜) : Prop where
  product : Q * R = A
  unitary : Qᴴ * Q = 1
  upper : ∀ i j, j < i → R i j = 0

theorem good_mat {M : ℕ} {A A1 Q R : Mem 𝕜} (h : Proof.Qrd.Good M A A1)
    (hQ : ∀ i < M, ∀ j < M, Q i j = A1 j (i + M)) (hR : ∀ i < M, ∀ j < M, R i j = A1 i j) :
    Q.mat M M * R.mat M M = A.mat M M ∧ Q.mat M M * (Q.mat M M)ᴴ = 1 := by
  constructor
  · ext j l
    rw [Matrix.mul_apply]
    have e : ∀ k : Fin M, Q.mat M M j k * R.mat M M k l = (fun k : ℕ => A1 k (j + M) * A1 k l) k := fun k => by
      simp only [Mem.mat]
      rw [hQ j j.2 k k.2, hR k k.2 l l.2]
    rw [Finset.sum_congr rfl fun k _ => e k, Fin.sum_univ_eq_sum_range (fun k : ℕ => A1 k (j + M) * A1 k l)]
    exact h.prod j j.2 l l.2
  · ext l j
    rw [Matrix.mul_apply]
    have e : ∀ k : Fin M, Q.mat M M l k * (Q.mat M M)ᴴ k j = (fun k : ℕ => conj (A1 k (j + M)) * A1 k (l + M)) k :=
      fun k => by
        rw [Matrix.conjTranspose_apply]
        simp only [Mem.mat]
        rw [hQ j j.2 k k.2, hQ l l.2 k k.2, mul_comm]
        rfl
    rw [Finset.sum_congr rfl fun k _ => e k,
      Fin.sum_univ_eq_sum_range (fun k : ℕ => conj (A1 k (j + M)) * A1 k (l + M)), h.orth j j.2 l l.2,
      Matrix.one_apply]
    simp only [Fin.ext_iff, eq_comm]

/-- **C24**, for the runs that meet no division by zero (with the macro ASSERT_ON_INVALID_INPUT: no assertion fails).
Exact real or complex arithmetic, every size: Q and R are a QR decomposition of A, the diagonal of R is real and not
negative, including the last element if `real_diag` is set; and the macro makes no difference.  Missing from the full
property: matrices that lead to a division by zero, for which it is false (`C24_zero_pair_wrong`). -/
theorem C24_decomposition_partial {M : ℕ} (hM : 2 * M < 2 ^ 32) (rd : Bool) (sat : ℝ) (A junk Q0 R0 Q R : Mem 𝕜)
    (h : qrd true rd sat M A junk Q0 R0 = some (Q, R)) :
    IsQR (A.mat M M) (Q.mat M M) (R.mat M M) ∧
      (∀ i : Fin M, (rd = true ∨ i.1 + 1 < M) → 0 ≤ R.mat M M i i) ∧
      qrd false rd sat M A junk Q0 R0 = some (Q, R) := by
  unfold qrd at h ⊢
  cases hc : colLoop true sat M (initMat M A junk) with
  | none => rw [hc] at h; simp at h
  | some A1 =>
    obtain ⟨hG, hT, hD, hf⟩ := Proof.Qrd.colLoop_some (chk := false) (Proof.Qrd.good_init hM A junk) hc
    rw [hc, Option.bind_some] at h
    rw [hf, Option.bind_some]
    cases rd with
    | false =>
      simp only [Bool.false_eq_true, if_false, Option.some.injEq] at h ⊢
      have hs := fun i j => Proof.Qrd.separate_eq false M A1 1 Q0 R0 i j
      rw [h] at hs
      have hQ : ∀ i < M, ∀ j < M, Q i j = A1 j (i + M) := fun i hi j hj => by
        have := (hs i j).1
        simpa [hi, hj] using this
      have hR : ∀ i < M, ∀ j < M, R i j = A1 i j := fun i hi j hj => by
        have := (hs i j).2
        simpa [hi, hj] using this
      obtain ⟨g1, g2⟩ := good_mat hG hQ hR
      refine ⟨⟨g1, mul_eq_one_comm.mp g2, ?_⟩, ?_, h⟩
      · intro i j hij
        simp only [Mem.mat]
        rw [hR i i.2 j j.2]
        exact hT j j.2 i i.2 hij
      · intro i hi
        simp only [Mem.mat, false_or] at hi ⊢
        rw [hR i i.2 i i.2]
        exact hD i hi
    | true =>
      simp only [if_true] at h ⊢
      unfold realDiag recip at h ⊢
      set br := A1 (M - 1) (M - 1) with hbr
      simp only [] at h ⊢
      by_cases h0 : Real.sqrt (RCLike.normSq br) = 0
      · rw [if_pos h0] at h; simp at h
      · rw [if_neg h0] at h ⊢
        simp only [Option.map_some, Option.some.injEq] at h ⊢
        set mag := Real.sqrt (RCLike.normSq br) with hmag
        set e : 𝕜 := br * ((1 / mag : ℝ) : 𝕜) with he
        have hs := fun i j => Proof.Qrd.separate_eq true M (A1.put (M - 1) (M - 1) (mag : 𝕜)) e Q0 R0 i j
        rw [h] at hs
        have hmag' : (mag : 𝕜) ≠ 0 := by rw [Ne, RCLike.ofReal_eq_zero]; exact h0
        have hebr : e * (mag : 𝕜) = br := by
          rw [he, RCLike.ofReal_div, RCLike.ofReal_one]; field_simp
        have hee : e * conj e = 1 := by
          have hn : br * conj br = ((RCLike.normSq br : ℝ) : 𝕜) := by
            rw [RCLike.mul_conj, RCLike.normSq_eq_def']; simp
          have h2 : mag * mag = RCLike.normSq br := Real.mul_self_sqrt (RCLike.normSq_nonneg _)
          have : e * conj e = (br * conj br) * ((1 / mag : ℝ) : 𝕜) * ((1 / mag : ℝ) : 𝕜) := by
            rw [he, map_mul, RCLike.conj_ofReal]; ring
          rw [this, hn, ← h2, ← RCLike.ofReal_mul, ← RCLike.ofReal_mul]
          have : mag * mag * (1 / mag) * (1 / mag) = 1 := by field_simp
          rw [this, RCLike.ofReal_one]
        have hQ : ∀ i < M, ∀ j < M, Q i j = A1 j (i + M) * (if j = M - 1 then e else 1) := fun i hi j hj => by
          have := (hs i j).1
          rw [if_pos ⟨hi, hj⟩] at this
          simp only [] at this
          rw [this]
          have hne : ¬ (i + M = M - 1) := by omega
          by_cases hjM : j = M - 1
          · simp [hjM, Mem.put, hne]
          · simp [hjM, Mem.put]
        have hR : ∀ i < M, ∀ j < M, R i j = if i = M - 1 ∧ j = M - 1 then (mag : 𝕜) else A1 i j := fun i hi j hj => by
          have := (hs i j).2
          rw [if_pos ⟨hi, hj⟩] at this
          exact this
        have hprod : ∀ k < M, ∀ j < M, ∀ l < M, Q j k * R k l = A1 k (j + M) * A1 k l := by
          intro k hk j hj l hl
          rw [hQ j hj k hk, hR k hk l hl]
          by_cases hk1 : k = M - 1
          · rw [if_pos hk1]
            by_cases hl1 : l = M - 1
            · rw [if_pos ⟨hk1, hl1⟩, mul_assoc, hebr, hbr, ← hk1, hl1, ← hk1]
            · rw [if_neg (by tauto), hT l hl k hk (by omega), mul_zero, mul_zero]
          · rw [if_neg hk1, if_neg (by tauto), mul_one]
        refine ⟨⟨?_, mul_eq_one_comm.mp ?_, ?_⟩, ?_, h⟩
        · ext j l
          rw [Matrix.mul_apply]
          have e : ∀ k : Fin M, Q.mat M M j k * R.mat M M k l = (fun k : ℕ => A1 k (j + M) * A1 k l) k :=
            fun k => hprod k k.2 j j.2 l l.2
          rw [Finset.sum_congr rfl fun k _ => e k, Fin.sum_univ_eq_sum_range (fun k : ℕ => A1 k (j + M) * A1 k l)]
          exact hG.prod j j.2 l l.2
        · ext l j
          rw [Matrix.mul_apply]
          have e : ∀ k : Fin M, Q.mat M M l k * (Q.mat M M)ᴴ k j =
              (fun k : ℕ => conj (A1 k (j + M)) * A1 k (l + M)) k := fun k => by
            rw [Matrix.conjTranspose_apply]
            simp only [Mem.mat]
            rw [hQ j j.2 k k.2, hQ l l.2 k k.2]
            change _ * conj (_ * _) = _
            rw [map_mul]
            by_cases hk1 : k.1 = M - 1
            · rw [if_pos hk1]; linear_combination (A1 k (l + M) * conj (A1 k (j + M))) * hee
            · rw [if_neg hk1, map_one, mul_one, mul_one, mul_comm]
          rw [Finset.sum_congr rfl fun k _ => e k,
            Fin.sum_univ_eq_sum_range (fun k : ℕ => conj (A1 k (j + M)) * A1 k (l + M)), hG.orth j j.2 l l.2,
            Matrix.one_apply]
          simp only [Fin.ext_iff, eq_comm]
        · intro i j hij
          have hij' : j.1 < i.1 := hij
          simp only [Mem.mat]
          rw [hR i i.2 j j.2, if_neg (by omega)]
          exact hT j j.2 i i.2 hij
        · intro i _
          simp only [Mem.mat]
          rw [hR i i.2 i i.2]
          split_ifs with hi
          · rw [RCLike.ofReal_nonneg]; exact Real.sqrt_nonneg _
          · exact hD i (by omega)

/-- **C24 is false of the code** whenever a division by zero is met: for every size, the run without assertions then
ends with a singular Q, which is not orthogonal. -/
theorem C24_zero_pair_wrong {M : ℕ} (hM : 2 * M < 2 ^ 32) (sat : ℝ) (A junk Q0 R0 : Mem 𝕜)
    (h : qrd true false sat M A junk Q0 R0 = none) :
    ∃ Q R, qrd false false sat M A junk Q0 R0 = some (Q, R) ∧ (Q.mat M M).det = 0 ∧
      ¬ IsQR (A.mat M M) (Q.mat M M) (R.mat M M) := by
  unfold qrd at h ⊢
  have hc : colLoop true sat M (initMat M A junk) = none := by
    cases hc : colLoop true sat M (initMat M A junk) with
    | none => rfl
    | some A1 => rw [hc] at h; simp at h
  obtain ⟨A2, h1, v, ⟨j, hj, hvj⟩, h0⟩ := Proof.Qrd.colLoop_none (Proof.Qrd.good_init hM A junk) hc
  rw [h1, Option.bind_some]
  simp only [Bool.false_eq_true, if_false]
  have hs := fun i j => Proof.Qrd.separate_eq false M A2 1 Q0 R0 i j
  refine ⟨(separate false M A2 1 Q0 R0).1, (separate false M A2 1 Q0 R0).2, rfl, ?_⟩
  have hdet : (Mem.mat M M (separate false M A2 1 Q0 R0).1).det = 0 := by
    apply Matrix.exists_vecMul_eq_zero_iff.mp
    refine ⟨fun k => v k, fun hv => hvj (congrFun hv ⟨j, hj⟩), ?_⟩
    funext i
    have := h0 i i.2
    rw [← Fin.sum_univ_eq_sum_range (fun k => A2 i (k + M) * v k)] at this
    simp only [Matrix.vecMul, dotProduct, Mem.mat, Pi.zero_apply]
    rw [← this]
    apply Finset.sum_congr rfl
    intro k _
    rw [(hs k i).1, if_pos ⟨k.2, i.2⟩]
    simp [mul_comm]
  refine ⟨hdet, fun hqr => ?_⟩
  have := congrArg Matrix.det hqr.unitary
  rw [Matrix.det_mul, hdet, mul_zero, Matrix.det_one] at this
  exact zero_ne_one this

/-- The identity matrix of size three meets a division by zero: the two lower elements of its first column vanish. -/
theorem C24_identity_wrong (sat : ℝ) (junk Q0 R0 : Mem ℝ) :
    ∃ Q R, qrd false false sat 3 (fun i j => if i = j then 1 else 0) junk Q0 R0 = some (Q, R) ∧
      (Q.mat 3 3).det = 0 ∧ ¬ IsQR (Mem.mat 3 3 fun i j => if i = j then (1 : ℝ) else 0) (Q.mat 3 3) (R.mat 3 3) := by
  apply C24_zero_pair_wrong (by norm_num)
  have h2 := (Proof.Qrd.initMat_eq (M := 3) (by norm_num) (fun i j => if i = j then (1 : ℝ) else 0) junk
    (i := 2) (j := 0) (by omega) (by omega)).1
  have h1 := (Proof.Qrd.initMat_eq (M := 3) (by norm_num) (fun i j => if i = j then (1 : ℝ) else 0) junk
    (i := 1) (j := 0) (by omega) (by omega)).1
  have hstep : rowLoop true sat 3 0 2 (initMat 3 (fun i j => if i = j then (1 : ℝ) else 0) junk) = none := by
    rw [rowLoop, if_neg (by omega), step, diagonalPE]
    norm_num [h1, h2, recip]
  unfold qrd colLoop
  simp [forUp, hstep]

theorem two_some (sat : ℝ) (A junk Q0 R0 : Mem 𝕜) (h : A 0 0 ≠ 0 ∨ A 1 0 ≠ 0) :
    ∃ QR, qrd true false sat 2 A junk Q0 R0 = some QR := by
  have h0 := (Proof.Qrd.initMat_eq (M := 2) (by norm_num) A junk (i := 0) (j := 0) (by omega) (by omega)).1
  have h1 := (Proof.Qrd.initMat_eq (M := 2) (by norm_num) A junk (i := 1) (j := 0) (by omega) (by omega)).1
  have hne : Real.sqrt (RCLike.normSq (A 1 0) + RCLike.normSq (A 0 0)) ≠ 0 := by
    intro hz
    have hle := Real.sqrt_eq_zero'.mp hz
    have p1 := RCLike.normSq_nonneg (A 1 0)
    have p0 := RCLike.normSq_nonneg (A 0 0)
    rcases h with h | h
    · exact h (RCLike.normSq_eq_zero.mp (by linarith))
    · exact h (RCLike.normSq_eq_zero.mp (by linarith))
  have hcol0 : ∃ A2, rowLoop true sat 2 0 1 (initMat 2 A junk) = some A2 := by
    rw [rowLoop, if_neg (by omega), step, diagonalPE, recip, Nat.add_sub_cancel, h0]
    norm_num [h1]
    rw [if_neg hne]
    exact ⟨_, rfl⟩
  obtain ⟨A2, hA2⟩ := hcol0
  have hcol1 : rowLoop true sat 2 1 1 A2 = some A2 := by rw [rowLoop, if_pos rfl]
  unfold qrd colLoop
  exact ⟨_, by simp [forUp, hA2, hcol1]; rfl⟩

/-- For matrices of size two the hypothesis of `C24_decomposition_partial` only excludes a zero first column. -/
theorem C24_two (sat : ℝ) (A junk Q0 R0 : Mem 𝕜) (h : A 0 0 ≠ 0 ∨ A 1 0 ≠ 0) :
    ∃ Q R, qrd false false sat 2 A junk Q0 R0 = some (Q, R) ∧ IsQR (A.mat 2 2) (Q.mat 2 2) (R.mat 2 2) := by
  obtain ⟨⟨Q, R⟩, hQR⟩ := two_some sat A junk Q0 R0 h
  obtain ⟨g1, -, g3⟩ := C24_decomposition_partial (by norm_num) false sat A junk Q0 R0 Q R hQR
  exact ⟨Q, R, g3, g1⟩

example : ∃ Q R, qrd false false 0 2 (fun i j => (i : ℂ) + 2 * j + Complex.I) (fun _ _ => 0) (fun _ _ => 0)
    (fun _ _ => 0) = some (Q, R) ∧ IsQR (Mem.mat 2 2 fun i j => (i : ℂ) + 2 * j + Complex.I) (Q.mat 2 2) (R.mat 2 2) :=
  C24_two 0 _ _ _ _ (Or.inl (by simp))

end Props.Qrd
