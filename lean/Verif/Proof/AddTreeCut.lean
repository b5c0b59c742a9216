import Verif.Proof.AddTree

/-! # Adder trees with fewer fractional bits than the operands -/

namespace Proof.AddTree
open Ac Model.AddTree

/-- The operand with the last `Y` bits of its mantissa dropped. -/
def cut (Y : ℕ) (x : Flt) : Flt := ⟨x.m / 2 ^ Y, x.e⟩

theorem cut_range {WE Y : ℕ} (h : Y < WE) {x : Flt} (hx : minRaw WE true ≤ x.m ∧ x.m ≤ maxRaw WE true) :
    minRaw (WE - Y) true ≤ (cut Y x).m ∧ (cut Y x).m ≤ maxRaw (WE - Y) true := by
  have h1 : -2 ^ (WE - 1) ≤ x.m := by simpa [minRaw] using hx.1
  have h2 : x.m ≤ 2 ^ (WE - 1) - 1 := by simpa [maxRaw] using hx.2
  have hp : (2 : ℤ) ^ (WE - 1) = 2 ^ (WE - Y - 1) * 2 ^ Y := by rw [← pow_add]; congr 1; omega
  have hY : (0 : ℤ) < 2 ^ Y := by positivity
  simp only [cut, minRaw, maxRaw, if_true]
  constructor
  · exact (Int.le_ediv_iff_mul_le hY).2 (by rw [neg_mul, ← hp]; exact h1)
  · have : x.m / 2 ^ Y < 2 ^ (WE - Y - 1) := (Int.ediv_lt_iff_lt_mul hY).2 (by rw [← hp]; omega)
    omega

theorem leafCut_eq (WE Y : ℕ) (x : Flt) : leafCut WE Y x = leaf (WE - Y) 0 (cut Y x) := by
  simp [leafCut, leaf, cut]

theorem addAuxCut_eq {WE Y : ℕ} (h : Y < WE) : ∀ (fuel N : ℕ) (x : ℕ → Flt),
    addAuxCut WE Y fuel N x = addAux (WE - Y) 0 fuel N fun k => cut Y (x k)
  | 0, N, x => leafCut_eq _ _ _
  | fuel + 1, N, x => by
    unfold addAuxCut addAux
    rw [leafCut_eq, addAuxCut_eq h fuel, addAuxCut_eq h fuel, show WE + log2Ceil N - Y = WE - Y + log2Ceil N + 0 by omega]

theorem alignedCut_eq (EE WE Y : ℕ) (E : ℤ) (x : Flt) : alignedCut EE WE Y E x = aligned EE (WE - Y) 0 E (cut Y x) := by
  simp [alignedCut, aligned, cut]

theorem loop_sum {W N : ℕ} (hW : 1 ≤ W) (hN : 1 ≤ N) (g : ℕ → ℤ) (hg : ∀ k < N, Rng W 1 (g k)) :
    forUp (fun k acc => wrap (W + log2Ceil N) true (acc + g k)) N 0 = ∑ k ∈ Finset.range N, g k ∧
    Rng W N (∑ k ∈ Finset.range N, g k) := by
  have key : ∀ n ≤ N, forUp (fun k acc => wrap (W + log2Ceil N) true (acc + g k)) n 0 = ∑ k ∈ Finset.range n, g k ∧
      Rng W (max n 1) (∑ k ∈ Finset.range n, g k) := by
    intro n hn
    induction n with
    | zero => exact ⟨by simp [forUp], rng_zero _ _ (by simp)⟩
    | succ n ih =>
      obtain ⟨i1, i2⟩ := ih (by omega)
      have hsum : Rng W (n + 1) (∑ k ∈ Finset.range n, g k + g n) := by
        rcases Nat.eq_zero_or_pos n with rfl | hpos
        · simpa using hg 0 (by omega)
        · rw [max_eq_left (by omega)] at i2
          exact rng_add i2 (hg n (by omega))
      rw [Finset.sum_range_succ, max_eq_left (by omega)]
      simp only [forUp]
      rw [i1]
      exact ⟨hsum.wrap hW (le_trans hn (two_pow_log2Ceil N)), hsum⟩
  obtain ⟨k1, k2⟩ := key N le_rfl
  exact ⟨k1, by rwa [max_eq_left hN] at k2⟩

theorem floor_cut {m e E : ℤ} (Y : ℕ) (h : m ≠ 0 → e ≤ E) :
    ⌊((m / 2 ^ Y : ℤ) : ℚ) * 2 ^ (e - E)⌋ = ⌊(m : ℚ) * 2 ^ (-(Y : ℤ)) * 2 ^ (e - E)⌋ := by
  by_cases hm : m = 0
  · simp [hm]
  have := h hm
  obtain ⟨d, hd⟩ : ∃ d : ℕ, e - E = -(d : ℤ) := ⟨(E - e).toNat, by omega⟩
  rw [hd, floor_shift, mul_assoc, Fmt.z_add, ← neg_add, ← Nat.cast_add, floor_shift, Int.ediv_ediv_of_nonneg (by positivity),
    pow_add]

theorem blockCut_mant {zh : Bool} {EE WE Y N : ℕ} (hY : Y < WE) (hE : 1 ≤ EE) (hN : 1 ≤ N) {x : ℕ → Flt}
    (hx : ∀ k < N, minRaw WE true ≤ (x k).m ∧ (x k).m ≤ maxRaw WE true)
    (he : ∀ k < N, minRaw EE true ≤ (x k).e ∧ (x k).e ≤ maxRaw EE true) :
    (blockCoreCut zh EE WE Y N x).m =
      ∑ k ∈ Finset.range N, ⌊((x k).m : ℚ) * 2 ^ (-(Y : ℤ)) * 2 ^ ((x k).e - commonExp zh EE N x)⌋ ∧
    Rng (WE - Y) N (blockCoreCut zh EE WE Y N x).m := by
  obtain ⟨h1, h2, -⟩ := commonExp_bounds (zh := zh) hE hN he
  have hal : ∀ k < N, alignedCut EE WE Y (commonExp zh EE N x) (x k) =
      ⌊((x k).m : ℚ) * 2 ^ (-(Y : ℤ)) * 2 ^ ((x k).e - commonExp zh EE N x)⌋ ∧
      Rng (WE - Y) 1 (alignedCut EE WE Y (commonExp zh EE N x) (x k)) := by
    intro k hk
    have hle : (cut Y (x k)).m ≠ 0 → (cut Y (x k)).e ≤ commonExp zh EE N x := by
      intro h
      exact h1 k hk fun h0 => h (by simp [cut, h0])
    obtain ⟨a1, a2⟩ := aligned_eq (X := 0) (by omega) hE (cut_range hY (hx k hk)) (he k hk).1 h2 hle
    rw [alignedCut_eq]
    refine ⟨?_, by simpa using a2⟩
    rw [a1, pow_zero, mul_one]
    exact floor_cut Y (h1 k hk)
  obtain ⟨l1, l2⟩ := loop_sum (W := WE - Y) (by omega) hN (fun k => alignedCut EE WE Y (commonExp zh EE N x) (x k))
    fun k hk => (hal k hk).2
  have e1 : (blockCoreCut zh EE WE Y N x).m = ∑ k ∈ Finset.range N, alignedCut EE WE Y (commonExp zh EE N x) (x k) := by
    rw [← l1]
    unfold blockCoreCut
    rw [show WE + log2Ceil N - Y = WE - Y + log2Ceil N by omega]
  refine ⟨?_, e1 ▸ l2⟩
  rw [e1]
  exact Finset.sum_congr rfl fun k hk => (hal k (Finset.mem_range.1 hk)).1

theorem addTreeCut_spec {WE Y N : ℕ} (hY : Y < WE) (hN : 1 ≤ N) {x : ℕ → Flt}
    (hx : ∀ k < N, minRaw WE true ≤ (x k).m ∧ (x k).m ≤ maxRaw WE true) :
    Spec (WE - Y) 0 N (fun k => cut Y (x k)) (addTreeCut WE Y N x) := by
  unfold addTreeCut
  rw [addAuxCut_eq hY]
  exact addTree_spec (X := 0) (x := fun k => cut Y (x k)) (by omega) hN fun k hk => cut_range hY (hx k hk)

theorem div_bounds (m : ℤ) (Y : ℕ) : ((m / 2 ^ Y : ℤ) : ℚ) ≤ m * 2 ^ (-(Y : ℤ)) ∧ (m : ℚ) * 2 ^ (-(Y : ℤ)) < ((m / 2 ^ Y : ℤ) : ℚ) + 1 := by
  rw [← floor_shift]
  exact ⟨Int.floor_le _, Int.lt_floor_add_one _⟩

/-- The sum of the cut operands. -/
theorem cut_exact {Y N : ℕ} {x : ℕ → Flt} {E : ℤ} (hE : ∀ k < N, (x k).m ≠ 0 → (x k).e ≤ E) :
    exact 0 N (fun k => cut Y (x k)) ≤ ∑ k ∈ Finset.range N, ((x k).m : ℚ) * 2 ^ (-(Y : ℤ)) * 2 ^ (x k).e ∧
    ∑ k ∈ Finset.range N, ((x k).m : ℚ) * 2 ^ (-(Y : ℤ)) * 2 ^ (x k).e ≤ exact 0 N (fun k => cut Y (x k)) + N * 2 ^ E := by
  unfold exact
  simp only [cut, pow_zero, mul_one]
  constructor
  · apply Finset.sum_le_sum
    intro k _
    exact mul_le_mul_of_nonneg_right (div_bounds _ _).1 (Fmt.z_pos _).le
  · have : (N : ℚ) * 2 ^ E = ∑ k ∈ Finset.range N, (2 : ℚ) ^ E := by simp
    rw [this, ← Finset.sum_add_distrib]
    apply Finset.sum_le_sum
    intro k hk
    by_cases h0 : (x k).m = 0
    · simp only [h0]
      simpa using (Fmt.z_pos E).le
    · have h1 := mul_le_mul_of_nonneg_right (div_bounds (x k).m Y).2.le (Fmt.z_pos (x k).e).le
      have h2 : (2 : ℚ) ^ (x k).e ≤ 2 ^ E := Fmt.z_le (hE k (Finset.mem_range.1 hk) h0)
      linarith

end Proof.AddTree
