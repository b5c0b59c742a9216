import Verif.Proof.CholExact
import Mathlib.Analysis.Complex.Basic
import Mathlib.Data.Set.Function
import Mathlib.Tactic.NormNum
import Mathlib.Tactic.IntervalCases

/-! # C20, C21, C22: ac_chol_d -/

namespace Props.Chol
open Ac Model.Chol Matrix
open scoped ComplexOrder ComplexConjugate

variable {α τ σd σ ρ : Type}

/-- **C20.** For every size, the index conversion is a bijection from the positions on and below the diagonal to the
offsets of an array of M(M+1)/2 elements. -/
theorem C20_bijective (M : ℕ) : Set.BijOn (fun p : ℕ × ℕ => indConv M p.1 p.2) {p | p.2 ≤ p.1 ∧ p.1 < M}
    {k | k < M * (M + 1) / 2} := by
  refine ⟨fun p hp => Proof.Chol.indConv_lt hp.2 hp.1, fun p hp q hq h => ?_, fun k hk => ?_⟩
  · have := Proof.Chol.indConv_inj hp.2 hp.1 hq.2 hq.1 h
    exact Prod.ext this.1 this.2
  · obtain ⟨i, j, h1, h2, h3⟩ := Proof.Chol.indConv_surj hk
    exact ⟨(i, j), ⟨h2, h1⟩, h3⟩

example : indConv 4 3 1 = 7 ∧ indConv 4 2 2 = 5 ∧ indConv 4 3 3 = 9 := by decide

/-- **C20**, the formula: no wrap-around in the index type. -/
theorem C20_offset {M i j : ℕ} (hi : i < M) (hj : j ≤ i) : indConv M i j = i * (i + 1) / 2 + j :=
  Proof.Chol.indConv_eq hi hj

example : indConv 300 299 299 = 299 * 300 / 2 + 299 := C20_offset (by decide) (by decide)

/-- `F` and the pivots `p` are what the textbook Cholesky-Crout recurrences give for `A`, in the arithmetic `o`: the
pivot of column `j` is `A[j][j]` less the squares left of it, the diagonal element is its root, and an element below
the diagonal is `A[i][j]` less the products left of it, times the reciprocal of the diagonal element. -/
structure Recurrence (o : Ops α τ σd σ ρ) (M : ℕ) (A : Mem α) (F : Mem τ) (p : ℕ → σd) : Prop where
  pivot : ∀ j < M, p j = (List.range j).foldl (fun s k => o.dStep s (F j k)) (o.dInit (A j j))
  diag : ∀ j < M, F j j = o.diag (p j)
  below : ∀ i < M, ∀ j < i, F i j = o.off (o.recip (p j))
    ((List.range j).foldl (fun s k => o.oStep s (F i k) (F j k)) (o.oInit (A i j)))

theorem forUp_foldl {β : Type*} (f : ℕ → β → β) (n : ℕ) (s : β) :
    forUp f n s = (List.range n).foldl (fun s k => f k s) s := by
  induction n with
  | zero => rfl
  | succ n ih => rw [forUp, List.range_succ, List.foldl_append, ← ih]; rfl

theorem recurrence_of_crout {o : Ops α τ σd σ ρ} {M : ℕ} {A : Mem α} {F : Mem τ} {p : ℕ → σd}
    (h : Proof.Chol.Crout o M A F p M) : Recurrence o M A F p where
  pivot j hj := by rw [h.pivot j hj, forUp_foldl]
  diag := h.diag
  below i hi j hj := by rw [h.below j (by omega) i hi hj, forUp_foldl]

/-- **C21.** For every size, arithmetic (every element type, PWL or exact functions) and input, the call reads no
element it has not written, leaves nothing outside the matrix changed, writes the result of the recurrences on and
below the diagonal and zero above it if every pivot is positive, and zero everywhere if some pivot is not. -/
theorem C21_output [Nonempty σd] (o : Ops α τ σd σ ρ) (M : ℕ) (A : Mem α) (L : Mem τ) :
    ∃ R F p, chol o M A L = some R ∧ Recurrence o M A F p ∧
      (∀ i < M, ∀ j < M, i < j → R i j = o.zero) ∧
      ((∃ k < M, o.nonPos (p k) = true) → ∀ i < M, ∀ j < M, R i j = o.zero) ∧
      ((∀ k < M, o.nonPos (p k) = false) → ∀ i < M, ∀ j ≤ i, R i j = F i j) ∧
      (∀ i j, ¬ (i < M ∧ j < M) → R i j = L i j) := by
  obtain ⟨R, F, p, h1, h2, h3⟩ := Proof.Chol.chol_eq o M A L (fun _ => Classical.arbitrary σd)
  refine ⟨R, F, p, h1, recurrence_of_crout h2, ?_, ?_, ?_, ?_⟩
  · intro i hi j hj hij
    rw [h3, if_pos ⟨hi, hj⟩, if_pos (Or.inl hij)]
  · rintro ⟨k, hk, hk'⟩ i hi j hj
    rw [h3, if_pos ⟨hi, hj⟩, if_pos (Or.inr fun h => by simp [h k hk] at hk')]
  · intro h i hi j hj
    rw [h3, if_pos ⟨hi, by omega⟩, if_neg]
    rintro (h' | h')
    · omega
    · exact h' h
  · intro i j h
    rw [h3, if_neg h]

/-- Element types for the examples: `ac_fixed<16,8,true>` throughout. -/
def t16 : Types := ⟨⟨16, 8, true, .TRN, .WRAP⟩, ⟨16, 8, true, .TRN, .WRAP⟩, imdFmt ⟨16, 8, true, .TRN, .WRAP⟩ 0 0 .RND .SAT⟩

/-- The matrix [[4,2],[2,10]] and its factor [[2,0],[1,3]]. -/
example : ((chol (fixedOps t16 0) 2 (fun i j => if i = 0 ∧ j = 0 then 4 else if i = 1 ∧ j = 1 then 10 else 2)
    (fun _ _ => 7)).map fun R => (R 0 0, R 0 1, R 1 0, R 1 1)) = some (2, 0, 1, 3) := by decide +kernel

/-- The matrix [[4,2],[2,1]] is rejected. -/
example : ((chol (fixedOps t16 0) 2 (fun i j => if i = 0 ∧ j = 0 then 4 else if i = 1 ∧ j = 1 then 1 else 2)
    (fun _ _ => 7)).map fun R => (R 0 0, R 0 1, R 1 0, R 1 1)) = some (0, 0, 0, 0) := by decide +kernel

/-- **C21** for ac_fixed: an input element on the diagonal that is not positive makes the whole output zero.  (The
later pivots start from it and only decrease when nothing wraps; here the first one is stated.) -/
theorem C21_fixed_first (t : Types) (junk : ℚ) {M : ℕ} (hM : 0 < M) (A L : Mem ℚ) (h : t.imd.cvt (A 0 0) ≤ 0) :
    ∃ R, chol (fixedOps t junk) M A L = some R ∧ ∀ i < M, ∀ j < M, R i j = 0 := by
  obtain ⟨R, F, p, h1, h2, -, h4, -⟩ := C21_output (fixedOps t junk) M A L
  refine ⟨R, h1, h4 ⟨0, hM, ?_⟩⟩
  rw [h2.pivot 0 hM]
  exact decide_eq_true h

example : ∃ R, chol (fixedOps t16 0) 5 (fun _ _ => -3) (fun _ _ => 0) = some R ∧ ∀ i < 5, ∀ j < 5, R i j = 0 :=
  C21_fixed_first t16 0 (by decide) _ _ (by decide +kernel)

/-- **C22.** With exact real or complex arithmetic, for every size and every Hermitian matrix: if it is positive
definite the output is lower triangular with positive diagonal and L*Lᴴ is the input; if not, the output is zero. -/
theorem C22_factor {𝕜 : Type} [RCLike 𝕜] (M : ℕ) (A L : Mem 𝕜) (hA : (A.mat M M).IsHermitian) :
    ∃ R, chol (exactOps 𝕜) M A L = some R ∧
      ((A.mat M M).PosDef → R.mat M M * (R.mat M M)ᴴ = A.mat M M ∧ (∀ i j, i < j → R.mat M M i j = 0) ∧
        ∀ i, 0 < R.mat M M i i) ∧
      (¬ (A.mat M M).PosDef → R.mat M M = 0) := by
  obtain ⟨R, F, p, h1, h2, h3⟩ := Proof.Chol.chol_eq (exactOps 𝕜) M A L (fun _ => 0)
  have hnp : ∀ k, (exactOps 𝕜).nonPos (p k) = false ↔ 0 < p k := by
    intro k
    change decide (p k ≤ 0) = false ↔ _
    rw [decide_eq_false_iff_not, not_le]
  have hz : (exactOps 𝕜).zero = (0 : 𝕜) := rfl
  refine ⟨R, h1, ?_, ?_⟩
  · intro hpd
    have hp := Proof.Chol.pivots_of_posDef hpd h2
    have hR : R.mat M M = Proof.Chol.low M M F := by
      ext i j
      change R i j = _
      rw [h3, if_pos ⟨i.2, j.2⟩]
      simp only [Proof.Chol.low]
      by_cases hij : j.1 ≤ i.1
      · rw [if_neg, if_pos ⟨hij, j.2⟩]
        rintro (h | h)
        · omega
        · exact h fun k hk => (hnp k).mpr (hp k hk)
      · rw [if_pos (Or.inl (by omega)), if_neg (by omega), hz]
    rw [hR]
    refine ⟨Proof.Chol.factor hA h2 hp, ?_, ?_⟩
    · intro i j hij
      have : i.1 < j.1 := hij
      simp only [Proof.Chol.low]
      rw [if_neg (by omega)]
    · intro i
      simp only [Proof.Chol.low]
      rw [if_pos ⟨le_rfl, i.2⟩, h2.diag i i.2]
      change (0 : 𝕜) < ((Real.sqrt (p i) : ℝ) : 𝕜)
      rw [RCLike.ofReal_pos]
      exact Real.sqrt_pos.mpr (hp i i.2)
  · intro hnpd
    ext i j
    change R i j = 0
    rw [h3, if_pos ⟨i.2, j.2⟩, if_pos (Or.inr ?_), hz]
    intro h
    exact hnpd (Proof.Chol.posDef_of_pivots hA h2 fun k hk => (hnp k).mp (h k hk))

/-- **C22**, the accept/reject boundary: a nonzero output means a positive definite input, and the other way round. -/
theorem C22_accepts_iff {𝕜 : Type} [RCLike 𝕜] {M : ℕ} (hM : 0 < M) (A L R : Mem 𝕜) (hA : (A.mat M M).IsHermitian)
    (hR : chol (exactOps 𝕜) M A L = some R) : R.mat M M ≠ 0 ↔ (A.mat M M).PosDef := by
  obtain ⟨R', h1, h2, h3⟩ := C22_factor M A L hA
  obtain rfl : R' = R := Option.some.inj (h1.symm.trans hR)
  refine ⟨fun h => by_contra fun h' => h (h3 h'), fun h h' => ?_⟩
  have := (h2 h).2.2 ⟨0, hM⟩
  rw [h'] at this
  exact lt_irrefl _ this

/-- **C22** for real matrices: L*Lᵀ = A. -/
theorem C22_real (M : ℕ) (A L : Mem ℝ) (hA : (A.mat M M).IsSymm) (hpd : ∀ x : Fin M → ℝ, x ≠ 0 →
    0 < x ⬝ᵥ (A.mat M M *ᵥ x)) : ∃ R, chol (exactOps ℝ) M A L = some R ∧
      R.mat M M * (R.mat M M)ᵀ = A.mat M M ∧ (∀ i j, i < j → R.mat M M i j = 0) ∧ ∀ i, 0 < R.mat M M i i := by
  have hH : (A.mat M M).IsHermitian := by
    rw [Matrix.IsHermitian, Matrix.conjTranspose_eq_transpose_of_trivial]; exact hA
  have hPD : (A.mat M M).PosDef := Matrix.PosDef.of_dotProduct_mulVec_pos hH fun {x} hx => by
    rw [star_trivial]; exact hpd x hx
  obtain ⟨R, h1, h2, -⟩ := C22_factor M A L hH
  refine ⟨R, h1, ?_, (h2 hPD).2⟩
  rw [← Matrix.conjTranspose_eq_transpose_of_trivial]
  exact (h2 hPD).1

/-- A positive definite complex matrix meets the hypotheses. -/
example : ∃ A : Mem ℂ, (A.mat 3 3).IsHermitian ∧ (A.mat 3 3).PosDef ∧ A 1 2 ≠ 0 ∧ (A 1 2).im ≠ 0 := by
  let T : Matrix (Fin 3) (Fin 3) ℂ := !![1, 0, 0; 0, 1, 0; 0, -Complex.I, 1]
  let A : Mem ℂ := fun i j => if h : i < 3 ∧ j < 3 then (T * Tᴴ) ⟨i, h.1⟩ ⟨j, h.2⟩ else 0
  have hA : A.mat 3 3 = T * Tᴴ := by
    ext i j
    simp only [Mem.mat, A]
    rw [dif_pos ⟨i.2, j.2⟩]
  have hdet : T.det ≠ 0 := by simp [T, Matrix.det_fin_three]
  have hpd : (A.mat 3 3).PosDef := by
    rw [hA]
    apply Matrix.PosDef.mul_conjTranspose_self
    exact Matrix.vecMul_injective_of_isUnit ((Matrix.isUnit_iff_isUnit_det _).mpr (isUnit_iff_ne_zero.mpr hdet))
  have h12 : A 1 2 = Complex.I := by
    have : A 1 2 = (T * Tᴴ) 1 2 := by simp [A]
    rw [this]
    simp [T, Matrix.mul_apply, Fin.sum_univ_three]
  refine ⟨A, hpd.isHermitian, hpd, ?_, ?_⟩ <;> rw [h12] <;> simp

end Props.Chol
