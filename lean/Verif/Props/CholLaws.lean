import Verif.Props.Chol

/-! # C98: laws of the Cholesky decomposition

`chol o M A L` is the output of `ac_chol_d` for the `M` by `M` matrix `A`, with the arithmetic `o` of the element type
(`fixedOps t` for ac_fixed, the others in C72, C79 and C81); `L` is what the output array holds before the call. -/

namespace Props.CholLaws
open Ac Model.Chol Props.Chol
open scoped ComplexOrder ComplexConjugate

variable {α τ σd σ ρ : Type}

/-- The recurrences determine the elements and pivots in the first `N` rows from the elements of `A` in these rows, on and
below the diagonal. -/
theorem recurrence_unique {o : Ops α τ σd σ ρ} {M M' N : ℕ} {A A' : Mem α} {F F' : Mem τ} {p p' : ℕ → σd}
    (h : Recurrence o M A F p) (h' : Recurrence o M' A' F' p') (hN : N ≤ M) (hN' : N ≤ M')
    (hA : ∀ i < N, ∀ j ≤ i, A i j = A' i j) :
    ∀ j < N, p j = p' j ∧ ∀ i < N, j ≤ i → F i j = F' i j := by
  intro j
  induction j using Nat.strong_induction_on with
  | _ j ih =>
    intro hj
    have hp : p j = p' j := by
      rw [h.pivot j (by omega), h'.pivot j (by omega), hA j hj j le_rfl]
      refine List.foldl_ext _ _ _ fun s k hk => ?_
      have hk := List.mem_range.1 hk
      rw [(ih k hk (by omega)).2 j hj (by omega)]
    refine ⟨hp, fun i hi hji => ?_⟩
    rcases eq_or_lt_of_le hji with rfl | hlt
    · rw [h.diag j (by omega), h'.diag j (by omega), hp]
    · rw [h.below i (by omega) j hlt, h'.below i (by omega) j hlt, hp, hA i hi j hji]
      congr 1
      refine List.foldl_ext _ _ _ fun s k hk => ?_
      have hk := List.mem_range.1 hk
      rw [(ih k hk (by omega)).2 j hj (by omega), (ih k hk (by omega)).2 i hi (by omega)]

/-- **C98**, only the elements on and below the diagonal matter: two matrices that agree there have the same factor, bit for
bit, whatever the element type and its rounding. What the output array held before does not matter either. -/
theorem C98_lower [Nonempty σd] (o : Ops α τ σd σ ρ) (M : ℕ) {A A' : Mem α} (hA : ∀ i < M, ∀ j ≤ i, A i j = A' i j)
    (L L' : Mem τ) : ∃ R R', chol o M A L = some R ∧ chol o M A' L' = some R' ∧ ∀ i < M, ∀ j < M, R i j = R' i j := by
  obtain ⟨R, F, p, e, h, u, z, a, -⟩ := C21_output o M A L
  obtain ⟨R', F', p', e', h', u', z', a', -⟩ := C21_output o M A' L'
  have hu := recurrence_unique h h' le_rfl le_rfl hA
  refine ⟨R, R', e, e', fun i hi j hj => ?_⟩
  by_cases hr : ∃ k < M, o.nonPos (p k) = true
  · obtain ⟨k, hk, hk'⟩ := hr
    rw [z ⟨k, hk, hk'⟩ i hi j hj, z' ⟨k, hk, (hu k hk).1 ▸ hk'⟩ i hi j hj]
  · push Not at hr
    have hr1 : ∀ k < M, o.nonPos (p k) = false := fun k hk => by simpa using hr k hk
    have hr2 : ∀ k < M, o.nonPos (p' k) = false := fun k hk => (hu k hk).1 ▸ hr1 k hk
    rcases lt_or_ge i j with hij | hij
    · rw [u i hi j hj hij, u' i hi j hj hij]
    · rw [a hr1 i hi j hij, a' hr2 i hi j hij, (hu j hj).2 i hi hij]

/-- **C98**, leading blocks: unless the whole matrix is rejected, the first `N` rows and columns of its factor are the factor
of its first `N` rows and columns, bit for bit. -/
theorem C98_leading [Nonempty σd] (o : Ops α τ σd σ ρ) {M N : ℕ} (hN : N ≤ M) (A : Mem α) (L L' : Mem τ) :
    ∃ R R', chol o M A L = some R ∧ chol o N A L' = some R' ∧
      ((∀ i < M, ∀ j < M, R i j = o.zero) ∨ ∀ i < N, ∀ j < N, R i j = R' i j) := by
  obtain ⟨R, F, p, e, h, u, z, a, -⟩ := C21_output o M A L
  obtain ⟨R', F', p', e', h', u', z', a', -⟩ := C21_output o N A L'
  have hu := recurrence_unique h h' hN le_rfl fun _ _ _ _ => rfl
  refine ⟨R, R', e, e', ?_⟩
  by_cases hr : ∃ k < M, o.nonPos (p k) = true
  · exact Or.inl (z hr)
  · right
    push Not at hr
    have hr1 : ∀ k < M, o.nonPos (p k) = false := fun k hk => by simpa using hr k hk
    have hr2 : ∀ k < N, o.nonPos (p' k) = false := fun k hk => (hu k hk).1 ▸ hr1 k (by omega)
    intro i hi j hj
    rcases lt_or_ge i j with hij | hij
    · rw [u i (by omega) j (by omega) hij, u' i hi j hj hij]
    · rw [a hr1 i (by omega) j hij, a' hr2 i hi j hij, (hu j hj).2 i hi hij]

/-- **C98**, rejection: if the first `N` rows and columns are rejected, so is the whole matrix. The condition on the
arithmetic is that the root of a positive pivot does not round to zero. -/
theorem C98_reject [Nonempty σd] (o : Ops α τ σd σ ρ) (ho : ∀ s, o.nonPos s = false → o.diag s ≠ o.zero) {M N : ℕ} (hN0 : 1 ≤ N)
    (hN : N ≤ M) (A : Mem α) (L L' : Mem τ) :
    ∃ R R', chol o M A L = some R ∧ chol o N A L' = some R' ∧
      ((∀ i < N, ∀ j < N, R' i j = o.zero) → ∀ i < M, ∀ j < M, R i j = o.zero) := by
  obtain ⟨R, F, p, e, h, u, z, a, -⟩ := C21_output o M A L
  obtain ⟨R', F', p', e', h', u', z', a', -⟩ := C21_output o N A L'
  have hu := recurrence_unique h h' hN le_rfl fun _ _ _ _ => rfl
  refine ⟨R, R', e, e', fun hz => ?_⟩
  by_cases hr : ∃ k < N, o.nonPos (p' k) = true
  · obtain ⟨k, hk, hk'⟩ := hr
    exact z ⟨k, by omega, (hu k hk).1 ▸ hk'⟩
  · exfalso
    push Not at hr
    have hr2 : ∀ k < N, o.nonPos (p' k) = false := fun k hk => by simpa using hr k hk
    have h0 := hz 0 (by omega) 0 (by omega)
    rw [a' hr2 0 (by omega) 0 le_rfl, h'.diag 0 (by omega)] at h0
    exact ho _ (hr2 0 (by omega)) h0

/-- A 3x3 matrix of `ac_fixed<16,8,true>` whose elements above the diagonal are not those of a symmetric matrix, its factor,
and that of its first two rows and columns. -/
example : let A : Mem ℚ := fun i j => if i = 0 ∧ j = 0 then 4 else if i = 1 ∧ j = 1 then 10 else if i = 2 ∧ j = 2 then 9 else
      if j < i then 2 else 77
    ((chol (fixedOps t16 0) 3 A (fun _ _ => 7)).map fun R => (R 0 0, R 0 1, R 1 0, R 1 1)) = some (2, 0, 1, 3) ∧
    ((chol (fixedOps t16 0) 2 A (fun _ _ => 0)).map fun R => (R 0 0, R 0 1, R 1 0, R 1 1)) = some (2, 0, 1, 3) := by
  decide +kernel

/-- The condition of `C98_reject` is met by exact arithmetic; and a rejected 2x2 block of `ac_fixed<16,8,true>` with the
rejected 3x3 matrix around it. -/
example : (∀ s, (exactOps ℝ).nonPos s = false → (exactOps ℝ).diag s ≠ (exactOps ℝ).zero) ∧
    let A : Mem ℚ := fun i j => if i = 0 ∧ j = 0 then 4 else if i = 1 ∧ j = 1 then 1 else if i = 2 ∧ j = 2 then 9 else 2
    ((chol (fixedOps t16 0) 2 A (fun _ _ => 7)).map fun R => (R 0 0, R 0 1, R 1 0, R 1 1)) = some (0, 0, 0, 0) ∧
    ((chol (fixedOps t16 0) 3 A (fun _ _ => 7)).map fun R => (R 0 0, R 1 0, R 1 1, R 2 0, R 2 1, R 2 2)) =
      some (0, 0, 0, 0, 0, 0) := by
  refine ⟨fun s h => ?_, by decide +kernel⟩
  have h : ¬ s ≤ 0 := of_decide_eq_false h
  change ((Real.sqrt s : ℝ) : ℝ) ≠ 0
  exact (Real.sqrt_pos.2 (not_le.1 h)).ne'

/-- The condition is needed: with an integer output type the root of 1/4 is written as 0, which looks like a rejection, and
yet the 2x2 matrix diag(1/4, 4) is accepted. -/
theorem C98_reject_wrong :
    let t : Types := ⟨⟨16, 8, true, .TRN, .WRAP⟩, ⟨8, 8, true, .TRN, .WRAP⟩, imdFmt ⟨16, 8, true, .TRN, .WRAP⟩ 0 0 .RND .SAT⟩
    let A : Mem ℚ := fun i j => if i = 0 ∧ j = 0 then 1 / 4 else if i = 1 ∧ j = 1 then 4 else 0
    ((chol (fixedOps t 0) 1 A (fun _ _ => 7)).map fun R => R 0 0) = some 0 ∧
    ((chol (fixedOps t 0) 2 A (fun _ _ => 7)).map fun R => (R 0 0, R 0 1, R 1 0, R 1 1)) = some (0, 0, 0, 2) := by
  decide +kernel

/-- **C98**, uniqueness: with exact arithmetic the output is the only lower triangular matrix with positive diagonal whose
product with its conjugate transpose is the input. -/
theorem C98_unique {𝕜 : Type} [RCLike 𝕜] (M : ℕ) (A L G : Mem 𝕜) (hG : ∀ i < M, ∀ j < M, i < j → G i j = 0)
    (hd : ∀ i < M, ∃ d : ℝ, 0 < d ∧ G i i = (d : 𝕜))
    (hA : ∀ i < M, ∀ j < M, A i j = ∑ k ∈ Finset.range M, G i k * conj (G j k)) :
    ∃ R, chol (exactOps 𝕜) M A L = some R ∧ ∀ i < M, ∀ j < M, R i j = G i j := by
  obtain ⟨R, F, p, e, h, u, z, a, -⟩ := C21_output (exactOps 𝕜) M A L
  have hsum : ∀ i < M, ∀ j ≤ i, A i j = ∑ k ∈ Finset.range (j + 1), G i k * conj (G j k) := by
    intro i hi j hj
    rw [hA i hi j (by omega)]
    symm
    refine Finset.sum_subset (by intro k hk; simp only [Finset.mem_range] at hk ⊢; omega) fun k hk hk' => ?_
    simp only [Finset.mem_range, not_lt] at hk hk'
    rw [hG j (by omega) k hk (by omega), map_zero, mul_zero]
  have hsub : ∀ (n : ℕ) (g : ℕ → 𝕜) (s : 𝕜), (List.range n).foldl (fun s k => s - g k) s = s - ∑ k ∈ Finset.range n, g k := by
    intro n g s; rw [← forUp_foldl (fun k s => s - g k), Proof.Chol.forUp_sub]
  have hsubR : ∀ (n : ℕ) (g : ℕ → ℝ) (s : ℝ), (List.range n).foldl (fun s k => s - g k) s = s - ∑ k ∈ Finset.range n, g k := by
    intro n g s; rw [← forUp_foldl (fun k s => s - g k), Proof.Chol.forUp_sub]
  choose! d hd0 hdG using hd
  have hrec : Recurrence (exactOps 𝕜) M A G (fun j => d j ^ 2) := by
    refine ⟨fun j hj => ?_, fun j hj => ?_, fun i hi j hj => ?_⟩
    · change d j ^ 2 = (List.range j).foldl (fun s k => s - RCLike.normSq (G j k)) (RCLike.re (A j j))
      rw [hsubR j (fun k => RCLike.normSq (G j k)), hsum j hj j le_rfl, Finset.sum_range_succ, map_add, map_sum]
      have h1 : ∀ x : 𝕜, RCLike.re (x * conj x) = RCLike.normSq x := by
        intro x; rw [RCLike.mul_conj, ← RCLike.ofReal_pow, RCLike.ofReal_re, RCLike.normSq_eq_def']
      simp only [h1]
      rw [hdG j hj, RCLike.normSq_eq_def', RCLike.norm_ofReal, sq_abs]
      ring
    · change G j j = ((Real.sqrt (d j ^ 2) : ℝ) : 𝕜)
      rw [Real.sqrt_sq (hd0 j hj).le, hdG j hj]
    · have hjM : j < M := by omega
      change G i j = ((1 / Real.sqrt (d j ^ 2) : ℝ) : 𝕜) * (List.range j).foldl (fun s k => s - G i k * conj (G j k)) (A i j)
      rw [hsub j (fun k => G i k * conj (G j k)), hsum i hi j hj.le, Finset.sum_range_succ, Real.sqrt_sq (hd0 j hjM).le,
        add_sub_cancel_left, hdG j hjM, RCLike.conj_ofReal, mul_left_comm, ← RCLike.ofReal_mul,
        one_div_mul_cancel (hd0 j hjM).ne', RCLike.ofReal_one, mul_one]
  have hu := recurrence_unique h hrec le_rfl le_rfl fun _ _ _ _ => rfl
  have hp : ∀ k < M, (exactOps 𝕜).nonPos (p k) = false := by
    intro k hk
    change decide (p k ≤ 0) = false
    rw [(hu k hk).1, decide_eq_false_iff_not, not_le]
    exact pow_pos (hd0 k hk) 2
  refine ⟨R, e, fun i hi j hj => ?_⟩
  rcases lt_or_ge i j with hij | hij
  · rw [u i hi j hj hij, hG i hi j hj hij]; rfl
  · rw [a hp i hi j hij, (hu j hj).2 i hi hij]

/-- The factor (2, 0; 1, 3) of (4, 2; 2, 10) meets the hypotheses. -/
example : let G : Mem ℝ := fun i j => if i = 0 ∧ j = 0 then 2 else if i = 1 ∧ j = 1 then 3 else if j < i then 1 else 0
    let A : Mem ℝ := fun i j => if i = 0 ∧ j = 0 then 4 else if i = 1 ∧ j = 1 then 10 else 2
    (∀ i < 2, ∀ j < 2, i < j → G i j = 0) ∧ (∀ i < 2, ∃ d : ℝ, 0 < d ∧ G i i = d) ∧
    ∀ i < 2, ∀ j < 2, A i j = ∑ k ∈ Finset.range 2, G i k * conj (G j k) := by
  refine ⟨fun i hi j hj hij => ?_, fun i hi => ?_, fun i hi j hj => ?_⟩
  · interval_cases i <;> interval_cases j <;> simp_all
  · interval_cases i
    · exact ⟨2, by norm_num, by simp⟩
    · exact ⟨3, by norm_num, by simp⟩
  · interval_cases i <;> interval_cases j <;> norm_num [Finset.sum_range_succ]

end Props.CholLaws
