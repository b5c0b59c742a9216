import Verif.Proof.StdAddTree4

/-! # Scaling of the sums of the IEEE adder tree -/

namespace Proof.StdAddTree
open Ac Model.StdAddTree Spec.StdFloat
open Model.Bits (leadingSignU)

/-- Bounds of the exponent of a sum in the normal range. -/
theorem exp_range {M E X N em R : ℕ} (hE : 1 ≤ E) (hlt : R < 2 ^ (opBits M N + X)) {p : ℤ}
    (hp : (em : ℤ) - leadingSignU (opBits M N + X) R + logN N = p) (h0 : smallest E ≤ (R : ℚ) * accUnit M E X em) :
    0 < R ∧ 1 ≤ p ∧ ((R : ℚ) * accUnit M E X em ≤ largest M E → p ≤ 2 ^ E - 2) := by
  have hs0 : 0 < smallest E := by unfold smallest; positivity
  have hR0 : 0 < R := by
    rcases Nat.eq_zero_or_pos R with h | h
    · rw [h] at h0; simp at h0; linarith
    · exact h
  have hT := mag_eq (M := M) (E := E) (X := X) hp
  rw [hT] at h0 ⊢
  have hmag : 2 ^ M ≤ mag X N (opBits M N + X) R ∧ mag X N (opBits M N + X) R < 2 ^ (M + 1) := by
    obtain ⟨s0, s1⟩ := shifted hR0 hlt
    have hW : opBits M N + X = M + 1 + (X + logN N) := by unfold opBits; omega
    unfold mag
    constructor
    · rw [le_div_iff₀ (by positivity), ← pow_add]
      rw [show M + (X + logN N) = opBits M N + X - 1 by omega]
      exact_mod_cast s0
    · rw [div_lt_iff₀ (by positivity), ← pow_add, ← hW]
      exact_mod_cast s1
  obtain ⟨m0, m1⟩ := hmag
  have hz : (0 : ℚ) < 2 ^ (p - bias E - M) := by positivity
  refine ⟨hR0, ?_, fun h1 => ?_⟩
  · by_contra hc
    have : mag X N (opBits M N + X) R * 2 ^ (p - bias E - M) < smallest E := by
      calc mag X N (opBits M N + X) R * 2 ^ (p - bias E - M) < 2 ^ (M + 1) * 2 ^ (p - bias E - M) := mul_lt_mul_of_pos_right m1 hz
        _ = 2 ^ (p + 1 - bias E) := by
            rw [← zpow_natCast, ← zpow_add₀ (by norm_num)]; congr 1; push_cast; ring
        _ ≤ smallest E := by
            unfold smallest
            exact zpow_le_zpow_right₀ (by norm_num) (by omega)
    linarith
  · have hb := two_bias hE
    by_contra hc
    have : largest M E < mag X N (opBits M N + X) R * 2 ^ (p - bias E - M) := by
      calc largest M E < 2 ^ (M + 1) * 2 ^ (bias E - M) := by
            unfold largest; exact mul_lt_mul_of_pos_right (by linarith) (by positivity)
        _ = 2 ^ M * 2 ^ (bias E + 1 - M) := by
            rw [pow_succ, mul_assoc, ← zpow_one_add₀ (by norm_num)]; congr 2; ring
        _ ≤ 2 ^ M * 2 ^ (p - bias E - M) := by
            refine mul_le_mul_of_nonneg_left ?_ (by positivity)
            exact zpow_le_zpow_right₀ (by norm_num) (by omega)
        _ ≤ _ := mul_le_mul_of_nonneg_right m0 hz.le
    linarith

/-- Normalization of a sum with a nonnegative exponent: only the exponent depends on that of the operands. -/
theorem normalize_shift (q : QMode) (M E X N R : ℕ) : ∃ (r : ℕ) (i : Bool), (q = .TRN_ZERO → i = false) ∧
    ∀ (em : ℕ) (p : ℤ), (em : ℤ) - leadingSignU (opBits M N + X) R + logN N = p → 1 ≤ p → p + 1 < 2 ^ E →
      (normalize q M E X N em R).rounded' = r ∧ (normalize q M E X N em R).normal = true ∧
      ((normalize q M E X N em R).eb : ℤ) = p + if i then 1 else 0 := by
  obtain ⟨rr, hrr⟩ : ∃ rr, ((⟨M + 2, opBits M N, false, q, .WRAP⟩ : Fmt).cvtRaw ((⟨opBits M N + X, opBits M N, false, q, .WRAP⟩ : Fmt).val
      ((R * 2 ^ leadingSignU (opBits M N + X) R % 2 ^ (opBits M N + X) / 2 : ℕ) : ℤ))).toNat = rr := ⟨_, rfl⟩
  obtain ⟨i, hi⟩ : ∃ i, (rr.testBit (M + 1) && decide (q ≠ .TRN_ZERO)) = i := ⟨_, rfl⟩
  refine ⟨if i then rr / 2 else rr, i, fun hq => by rw [← hi]; simp [hq], fun em p hp h1 h2 => ?_⟩
  unfold Model.StdAddTree.normalize
  have hr : ¬ ((em : ℤ) - leadingSignU (opBits M N + X) R + logN N - 1 < 0) := by omega
  simp only [decide_eq_false hr, Bool.false_eq_true, if_false, Bool.not_false, Bool.true_or, true_and]
  rw [hrr, hi, hp]
  have w1 : wrap E false (p - 1) = p - 1 := wrapU_of_lt (by omega) (by omega)
  have w2 : wrap E false (p - 1 + ((if i then 1 else 0) + 1)) = p + if i then 1 else 0 := by
    rw [wrapU_of_lt (by split_ifs <;> omega) (by split_ifs <;> omega)]; ring
  rw [w1, w2]
  exact ⟨rfl, Int.toNat_of_nonneg (by split_ifs <;> omega)⟩

/-- Operands with the same aligned terms and a larger exponent. -/
theorem scale_eq {q : QMode} {nosub : Bool} {M E X N c : ℕ} (hE : 1 ≤ E) (hX : 1 ≤ X) (hN : 1 ≤ N) {x y : ℕ → ℕ}
    (hx : ∀ k < N, expo M E (x k) ≠ 2 ^ E - 1) (hy : ∀ k < N, expo M E (y k) ≠ 2 ^ E - 1) {S : ℤ}
    (hS : ∑ k ∈ Finset.range N, term nosub M E X (emax M E N x) (x k) = S)
    (hS' : ∑ k ∈ Finset.range N, term nosub M E X (emax M E N y) (y k) = S) (he : emax M E N y = emax M E N x + c)
    (h0 : smallest E ≤ (S.natAbs : ℚ) * accUnit M E X (emax M E N x))
    (h1 : (S.natAbs : ℚ) * accUnit M E X (emax M E N y) ≤ largest M E) :
    faddTree q nosub M E X N y = faddTree q nosub M E X N x + c * 2 ^ M := by
  have hu : accUnit M E X (emax M E N x) ≤ accUnit M E X (emax M E N y) := by
    unfold accUnit
    exact zpow_le_zpow_right₀ (by norm_num) (by rw [he]; push_cast; linarith [show (0 : ℤ) ≤ c by positivity])
  have h0' : smallest E ≤ (S.natAbs : ℚ) * accUnit M E X (emax M E N y) :=
    h0.trans (mul_le_mul_of_nonneg_left hu (Nat.cast_nonneg _))
  obtain ⟨hlt, hf⟩ := finite_eq (q := q) hE hX hN hx hS
  obtain ⟨-, hf'⟩ := finite_eq (q := q) hE hX hN hy hS'
  obtain ⟨fin, -, -⟩ := normal_eq (q := q) hE hX hN hy hS' h0' h1
  obtain ⟨p, hp⟩ : ∃ p : ℤ, (emax M E N x : ℤ) - leadingSignU (opBits M N + X) S.natAbs + logN N = p := ⟨_, rfl⟩
  have hp' : (emax M E N y : ℤ) - leadingSignU (opBits M N + X) S.natAbs + logN N = p + c := by rw [he]; push_cast; linarith
  obtain ⟨R0, p1, -⟩ := exp_range (M := M) hE hlt hp h0
  obtain ⟨-, -, p2⟩ := exp_range (M := M) hE hlt hp' h0'
  have p2 := p2 h1
  obtain ⟨r, i, hi, hn⟩ := normalize_shift q M E X N S.natAbs
  obtain ⟨n1, n2, n3⟩ := hn _ p hp p1 (by omega)
  obtain ⟨m1, m2, m3⟩ := hn _ (p + c) hp' (by omega) (by omega)
  have hS0 : ¬ S = 0 := by omega
  have hpE : ((2 ^ E - 1 : ℕ) : ℤ) = 2 ^ E - 1 := by rw [Nat.cast_sub Nat.one_le_two_pow]; push_cast; rfl
  have eb : (normalize q M E X N (emax M E N y) S.natAbs).eb = (normalize q M E X N (emax M E N x) S.natAbs).eb + c := by omega
  have top : (normalize q M E X N (emax M E N y) S.natAbs).eb ≠ 2 ^ E - 1 := by
    intro ht
    have hi1 : i = true := by
      by_contra hc
      rw [Bool.not_eq_true] at hc
      rw [hc] at m3
      have : ((normalize q M E X N (emax M E N y) S.natAbs).eb : ℤ) = 2 ^ E - 1 := by rw [ht, hpE]
      simp only [Bool.false_eq_true, if_false] at m3
      omega
    have hq : ¬ q = .TRN_ZERO := fun hq => by rw [hi hq] at hi1; cases hi1
    apply fin
    have hl := packF_lt (q := q) (nosub := nosub) (M := M) (isInf := false) (isNan := false) (negInf := false) (posInf := false)
      (rsign := decide (S < 0)) (rz := decide (S.natAbs = 0)) (normalize_eb_lt q M E X N (emax M E N y) S.natAbs)
    rw [hf', (fields _ hl.1 hl.2).2.1]
    unfold packF
    simp [m2, ht, hS0, hq]
  have top' : (normalize q M E X N (emax M E N x) S.natAbs).eb ≠ 2 ^ E - 1 := by
    have := normalize_eb_lt q M E X N (emax M E N y) S.natAbs
    omega
  rw [hf, hf']
  unfold packF
  rw [eb] at top
  simp [n1, n2, m1, m2, eb, top, top', hS0]
  ring

end Proof.StdAddTree
