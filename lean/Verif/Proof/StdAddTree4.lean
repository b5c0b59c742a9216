import Verif.Proof.StdAddTree3
import Verif.Spec.StdFloat

/-! # Errors of the IEEE adder tree -/

namespace Proof.StdAddTree
open Ac Model.StdAddTree Spec.StdFloat
open Model.Bits (leadingSignU)

theorem value_mu (nosub : Bool) (M E d : ℕ) :
    value nosub M E d = (if sgn M E d then -1 else 1) * ((mu nosub M E d : ℚ) * 2 ^ ((expo M E d : ℤ) - bias E - M)) := by
  have hm := Nat.mod_lt d (show 0 < 2 ^ M by positivity)
  have hp : 2 ^ (M + 1) = 2 * 2 ^ M := by ring
  have h2 : 2 * (d % 2 ^ M) % 2 ^ (M + 1) = 2 * (d % 2 ^ M) := Nat.mod_eq_of_lt (by omega)
  unfold value
  have he : expField M E d = expo M E d := rfl
  rw [he]
  unfold sgn
  congr 1
  unfold mu
  simp only []
  by_cases h0 : expo M E d = 0
  · rw [h0]
    cases nosub
    · simp only [ne_eq, not_true_eq_false, decide_false, Bool.or_false, Bool.not_false, if_true, Bool.false_eq_true, if_false, add_zero]
      rw [h2]
      push_cast
      rw [show (1 : ℤ) - bias E - M = (0 - bias E - M) + 1 by ring, zpow_add_one₀ (by norm_num)]
      ring
    · simp
  · rw [if_neg h0]
    simp [h0, add_comm]

theorem value_fields {nosub : Bool} {M E m e : ℕ} (s : Bool) (hm : m < 2 ^ M) (he : e < 2 ^ E) (he1 : 1 ≤ e) :
    value nosub M E (m + e * 2 ^ M + (if s then 2 ^ (M + E) else 0)) =
      (if s then -1 else 1) * (((2 ^ M + m : ℕ) : ℚ) * 2 ^ ((e : ℤ) - bias E - M)) := by
  obtain ⟨f1, f2, f3, -⟩ := fields s hm he
  unfold value
  have h1 : expField M E (m + e * 2 ^ M + (if s then 2 ^ (M + E) else 0)) = e := f2
  have h2 : (m + e * 2 ^ M + (if s then 2 ^ (M + E) else 0)).testBit (M + E) = s := f3
  rw [h1, h2, f1, if_neg (show ¬ e = 0 by omega)]

theorem emax_spec {M E N : ℕ} (hN : 1 ≤ N) (x : ℕ → ℕ) :
    (∃ k < N, emax M E N x = expo M E (x k)) ∧ ∀ k < N, expo M E (x k) ≤ emax M E N x := by
  obtain ⟨⟨k, hk, h⟩, h2⟩ := Proof.AddTree.maxAux_spec N N (fun k => (expo M E (x k) : ℤ)) hN le_rfl
  unfold emax
  refine ⟨⟨k, hk, ?_⟩, fun j hj => ?_⟩
  · rw [h]; simp
  · have := h2 j hj
    zify
    rw [Int.toNat_of_nonneg]
    · exact this
    · rw [h]; positivity

theorem emax_unique {M E N em : ℕ} (hN : 1 ≤ N) {x : ℕ → ℕ} (h1 : ∃ k < N, expo M E (x k) = em) (h2 : ∀ k < N, expo M E (x k) ≤ em) :
    emax M E N x = em := by
  obtain ⟨⟨k, hk, h⟩, h3⟩ := emax_spec (M := M) (E := E) hN x
  obtain ⟨j, hj, hje⟩ := h1
  have := h2 k hk
  have := h3 j hj
  omega

/-- The unit of the accumulator. -/
def accUnit (M E X em : ℕ) : ℚ := 2 ^ ((em : ℤ) - bias E - M - X)

theorem accUnit_pos (M E X em : ℕ) : 0 < accUnit M E X em := by unfold accUnit; positivity

theorem value_scaled {nosub : Bool} {M E X em d : ℕ} (h : expo M E d ≤ em) :
    value nosub M E d = (if sgn M E d then -1 else 1) * ((mu nosub M E d : ℚ) * 2 ^ X / 2 ^ (em - expo M E d)) * accUnit M E X em := by
  rw [value_mu, mul_assoc]
  congr 1
  unfold accUnit
  rw [div_mul_eq_mul_div, eq_div_iff (by positivity), mul_assoc, mul_assoc]
  congr 1
  rw [← zpow_natCast, ← zpow_natCast, ← zpow_add₀ (by norm_num), ← zpow_add₀ (by norm_num)]
  congr 1
  push_cast [Nat.cast_sub h]
  ring

theorem term_err {nosub : Bool} {M E X em d : ℕ} (hX : 1 ≤ X) (hcap : M + 1 + X ≤ 2 ^ nbits (M + 2) - 1) (h : expo M E d ≤ em) :
    |value nosub M E d - term nosub M E X em d * accUnit M E X em| ≤ accUnit M E X em := by
  obtain ⟨a1, a2, -⟩ := addOp_sat (d := em - expo M E d) hX (mu_lt nosub M E d) hcap
  have hu := accUnit_pos M E X em
  have e : addOp M X (mu nosub M E d) (min (em - expo M E d) (2 ^ nbits (M + 2) - 1)) =
      addOp M X (mu nosub M E d) (eDifSat M em (expo M E d)) := rfl
  rw [e] at a1 a2
  have b1 : ((addOp M X (mu nosub M E d) (eDifSat M em (expo M E d)) : ℕ) : ℚ) * 2 ^ (em - expo M E d) ≤
      (mu nosub M E d : ℚ) * 2 ^ X + 2 ^ (em - expo M E d) := by exact_mod_cast a1
  have b2 : (mu nosub M E d : ℚ) * 2 ^ X ≤ ((addOp M X (mu nosub M E d) (eDifSat M em (expo M E d)) : ℕ) : ℚ) * 2 ^ (em - expo M E d) +
      2 ^ (em - expo M E d) := by exact_mod_cast a2
  have hp : (0 : ℚ) < 2 ^ (em - expo M E d) := by positivity
  have key : |(mu nosub M E d : ℚ) * 2 ^ X / 2 ^ (em - expo M E d) - (addOp M X (mu nosub M E d) (eDifSat M em (expo M E d)) : ℕ)| ≤ 1 := by
    rw [abs_le]
    constructor
    · have : ((addOp M X (mu nosub M E d) (eDifSat M em (expo M E d)) : ℕ) : ℚ) - 1 ≤ (mu nosub M E d : ℚ) * 2 ^ X / 2 ^ (em - expo M E d) := by
        rw [le_div_iff₀ hp]; linarith
      linarith
    · have : (mu nosub M E d : ℚ) * 2 ^ X / 2 ^ (em - expo M E d) ≤ ((addOp M X (mu nosub M E d) (eDifSat M em (expo M E d)) : ℕ) : ℚ) + 1 := by
        rw [div_le_iff₀ hp]; linarith
      linarith
  rw [value_scaled h]
  unfold term
  have fin : ∀ a b : ℚ, |a - b| ≤ 1 → |a * accUnit M E X em - b * accUnit M E X em| ≤ accUnit M E X em := by
    intro a b hab
    rw [← sub_mul, abs_mul, abs_of_pos hu]
    exact mul_le_of_le_one_left hu.le hab
  split_ifs
  · push_cast
    refine fin _ _ ?_
    rw [show -1 * ((mu nosub M E d : ℚ) * 2 ^ X / 2 ^ (em - expo M E d)) - -((addOp M X (mu nosub M E d) (eDifSat M em (expo M E d)) : ℕ) : ℚ) =
      -((mu nosub M E d : ℚ) * 2 ^ X / 2 ^ (em - expo M E d) - (addOp M X (mu nosub M E d) (eDifSat M em (expo M E d)) : ℕ)) by ring, abs_neg]
    exact key
  · push_cast
    rw [one_mul]
    exact fin _ _ key

/-- Operands that are multiples of the unit are added without an error. -/
theorem term_exact {nosub : Bool} {M E X em d : ℕ} (hX : 1 ≤ X) (hcap : M + 1 + X ≤ 2 ^ nbits (M + 2) - 1) (h : expo M E d ≤ em)
    {j : ℤ} (hj : value nosub M E d = j * accUnit M E X em) :
    value nosub M E d = term nosub M E X em d * accUnit M E X em := by
  have hu := accUnit_pos M E X em
  have hm := mu_lt nosub M E d
  have hp : (0 : ℚ) < 2 ^ (em - expo M E d) := by positivity
  have hdv : 2 ^ (em - expo M E d) ∣ mu nosub M E d * 2 ^ X := by
    rw [value_scaled (X := X) h] at hj
    have h1 := mul_right_cancel₀ hu.ne' hj
    have h2 : (mu nosub M E d : ℚ) * 2 ^ X = (if sgn M E d then -1 else 1) * j * 2 ^ (em - expo M E d) := by
      split_ifs at h1 ⊢ <;> field_simp at h1 ⊢ <;> linarith
    have h3 : ((mu nosub M E d * 2 ^ X : ℕ) : ℤ) = ((if sgn M E d then -1 else 1) * j) * ((2 ^ (em - expo M E d) : ℕ) : ℤ) := by
      have : (((mu nosub M E d * 2 ^ X : ℕ) : ℤ) : ℚ) = ((((if sgn M E d then -1 else 1) * j) * ((2 ^ (em - expo M E d) : ℕ) : ℤ) : ℤ) : ℚ) := by
        push_cast
        rw [h2]
      exact_mod_cast this
    exact Int.natCast_dvd_natCast.1 (Dvd.intro_left _ h3.symm)
  have key : (mu nosub M E d : ℚ) * 2 ^ X / 2 ^ (em - expo M E d) = (addOp M X (mu nosub M E d) (eDifSat M em (expo M E d)) : ℕ) := by
    unfold eDifSat
    rcases le_total (em - expo M E d) (2 ^ nbits (M + 2) - 1) with hc | hc
    · rw [min_eq_left hc]
      obtain ⟨-, -, -, h4⟩ := addOp_spec (d := em - expo M E d) hX hm
      rw [div_eq_iff hp.ne']
      exact_mod_cast (h4 hdv).symm
    · have hm0 : mu nosub M E d = 0 := by
        by_contra h0
        have h5 := Nat.le_of_dvd (Nat.mul_pos (Nat.pos_of_ne_zero h0) (by positivity)) hdv
        have h6 : mu nosub M E d * 2 ^ X < 2 ^ (M + 1) * 2 ^ X := Nat.mul_lt_mul_of_pos_right hm (by positivity)
        rw [← pow_add] at h6
        have h7 := lt_of_le_of_lt h5 h6
        have := (Nat.pow_lt_pow_iff_right (by norm_num)).1 h7
        omega
      rw [hm0]
      simp [addOp]
  rw [value_scaled h, key]
  unfold term
  split_ifs <;> push_cast <;> ring

theorem sum_err {nosub : Bool} {M E X N em : ℕ} (hX : 1 ≤ X) (hcap : M + 1 + X ≤ 2 ^ nbits (M + 2) - 1) {x : ℕ → ℕ}
    (h : ∀ k < N, expo M E (x k) ≤ em) :
    |∑ k ∈ Finset.range N, value nosub M E (x k) - ((∑ k ∈ Finset.range N, term nosub M E X em (x k) : ℤ) : ℚ) * accUnit M E X em| ≤
      N * accUnit M E X em := by
  push_cast
  rw [Finset.sum_mul, ← Finset.sum_sub_distrib]
  refine (Finset.abs_sum_le_sum_abs _ _).trans ?_
  refine (Finset.sum_le_card_nsmul _ _ _ (fun k hk => term_err hX hcap (h k (Finset.mem_range.1 hk)))).trans ?_
  simp

theorem sum_exact {nosub : Bool} {M E X N em : ℕ} (hX : 1 ≤ X) (hcap : M + 1 + X ≤ 2 ^ nbits (M + 2) - 1) {x : ℕ → ℕ}
    (h : ∀ k < N, expo M E (x k) ≤ em) (hj : ∀ k < N, ∃ j : ℤ, value nosub M E (x k) = j * accUnit M E X em) :
    ∑ k ∈ Finset.range N, value nosub M E (x k) = ((∑ k ∈ Finset.range N, term nosub M E X em (x k) : ℤ) : ℚ) * accUnit M E X em := by
  push_cast
  rw [Finset.sum_mul]
  refine Finset.sum_congr rfl fun k hk => ?_
  obtain ⟨j, h1⟩ := hj k (Finset.mem_range.1 hk)
  exact term_exact hX hcap (h k (Finset.mem_range.1 hk)) h1

/-- The magnitude and the exponent of the result. -/
theorem mag_eq {M E X N W R em : ℕ} {p : ℤ} (hp : (em : ℤ) - leadingSignU W R + logN N = p) :
    (R : ℚ) * accUnit M E X em = mag X N W R * 2 ^ (p - bias E - M) := by
  unfold accUnit mag
  rw [div_mul_eq_mul_div, eq_div_iff (by positivity)]
  push_cast
  rw [mul_assoc, mul_assoc]
  congr 1
  rw [← zpow_natCast, ← zpow_natCast, ← zpow_add₀ (by norm_num), ← zpow_add₀ (by norm_num), ← hp]
  congr 1
  push_cast
  ring

theorem two_bias {E : ℕ} (hE : 1 ≤ E) : 2 * bias E = 2 ^ E - 2 := by
  unfold bias
  have : (2 : ℤ) ^ E = 2 * 2 ^ (E - 1) := by
    conv_lhs => rw [show E = (E - 1) + 1 by omega, pow_succ]
    ring
  linarith

/-- The result for finite operands, from the magnitude of the sum. -/
theorem finite_eq {q : QMode} {nosub : Bool} {M E X N : ℕ} (hE : 1 ≤ E) (hX : 1 ≤ X) (hN : 1 ≤ N) {x : ℕ → ℕ}
    (hfin : ∀ k < N, expo M E (x k) ≠ 2 ^ E - 1) {S : ℤ} (hS : ∑ k ∈ Finset.range N, term nosub M E X (emax M E N x) (x k) = S) :
    let F := packF q nosub M E false false false false (decide (S < 0)) (decide (S.natAbs = 0))
      (Model.StdAddTree.normalize q M E X N (emax M E N x) S.natAbs)
    S.natAbs < 2 ^ (opBits M N + X) ∧
      faddTree q nosub M E X N x = F.m + F.e * 2 ^ M + (if F.s then 2 ^ (M + E) else 0) := by
  have hlt := sum_lt (nosub := nosub) (M := M) (E := E) (em := emax M E N x) hX hN x
  rw [hS] at hlt
  have hlt' : S.natAbs < 2 ^ (opBits M N + X) := by
    zify; exact hlt
  refine ⟨hlt', ?_⟩
  have a1 : (anyLoop N fun k => inf M E (x k)) = false := by
    rw [← Bool.not_eq_true, anyLoop_iff]
    rintro ⟨k, hk, h⟩
    unfold inf at h
    simp only [Bool.and_eq_true, decide_eq_true_eq] at h
    exact hfin k hk h.1
  have a2 : (anyLoop N fun k => nan M E (x k)) = false := by
    rw [← Bool.not_eq_true, anyLoop_iff]
    rintro ⟨k, hk, h⟩
    unfold nan at h
    simp only [Bool.and_eq_true, decide_eq_true_eq] at h
    exact hfin k hk h.1
  have a3 : ∀ f : ℕ → Bool, (anyLoop N fun k => inf M E (x k) && f k) = false := by
    intro f
    rw [← Bool.not_eq_true, anyLoop_iff]
    rintro ⟨k, hk, h⟩
    rw [Bool.and_eq_true] at h
    have h1 := h.1
    unfold inf at h1
    simp only [Bool.and_eq_true, decide_eq_true_eq] at h1
    exact hfin k hk h1.1
  have ht : total nosub M E X N x = S := by rw [total_sum hX hN, hS]
  have hR : (wrap (opBits M N + X) false (if decide (S < 0) = true then -S else S)).toNat = S.natAbs := by
    have e : (if decide (S < 0) = true then -S else S) = (S.natAbs : ℤ) := by
      simp only [decide_eq_true_eq]
      split_ifs with h <;> omega
    rw [e, wrapU_of_lt (by positivity) (by exact_mod_cast hlt'), Int.toNat_natCast]
  unfold faddTree
  simp only [a1, a2, a3 (fun k => sgn M E (x k)), a3 (fun k => !sgn M E (x k)), ht, hR, Bool.and_self, Bool.or_self]
  exact pack_eq hE (normalize_eb_lt _ _ _ _ _ _ _)

/-- A sum of zero. -/
theorem zero_eq {q : QMode} {nosub : Bool} {M E X N : ℕ} (hE : 1 ≤ E) (hX : 1 ≤ X) (hN : 1 ≤ N) {x : ℕ → ℕ}
    (hfin : ∀ k < N, expo M E (x k) ≠ 2 ^ E - 1) (hS : ∑ k ∈ Finset.range N, term nosub M E X (emax M E N x) (x k) = 0) :
    faddTree q nosub M E X N x = 0 := by
  obtain ⟨-, h⟩ := finite_eq (q := q) hE hX hN hfin hS
  rw [h]
  simp [packF]

/-- Normalization of a sum below the normal range. -/
theorem sub_norm {q : QMode} {M E X N em R j : ℕ} (hX : 1 ≤ X) (hR0 : 0 < R) (hR : R < 2 ^ (opBits M N + X))
    (hp : (em : ℤ) - leadingSignU (opBits M N + X) R + logN N ≤ 0) (hj : R * 2 ^ em = j * 2 ^ (X + logN N)) (hj1 : j < 2 ^ M) :
    (normalize q M E X N em R).normal = false ∧ (normalize q M E X N em R).rounded' = j ∧ (normalize q M E X N em R).eb = 0 := by
  obtain ⟨h, hh⟩ : ∃ h, X + logN N = h + 1 := ⟨X + logN N - 1, by omega⟩
  have hW : opBits M N + X = M + 1 + (h + 1) := by unfold opBits; omega
  have hls : leadingSignU (opBits M N + X) R ≤ opBits M N + X := by
    unfold leadingSignU; split_ifs <;> omega
  have hem : em % 2 ^ nbits (opBits M N + X) = em := Nat.mod_eq_of_lt (lt_of_le_of_lt (show em ≤ opBits M N + X by omega) (nbits_lt _))
  unfold Model.StdAddTree.normalize
  simp only []
  have hr : (em : ℤ) - leadingSignU (opBits M N + X) R + logN N - 1 < 0 := by omega
  rw [decide_eq_true hr]
  simp only [if_true, hem, hj, hh]
  have hlt : j * 2 ^ (h + 1) < 2 ^ (opBits M N + X) := by
    rw [hW, pow_add 2 (M + 1) (h + 1)]
    exact Nat.mul_lt_mul_of_pos_right (hj1.trans (Nat.pow_lt_pow_right (by norm_num) (by omega))) (by positivity)
  rw [Nat.mod_eq_of_lt hlt, pow_succ, ← mul_assoc, Nat.mul_div_cancel _ (by norm_num)]
  have hF : ((⟨opBits M N + X, opBits M N, false, q, .WRAP⟩ : Fmt).val ((j * 2 ^ h : ℕ) : ℤ)) * 2 ^ (⟨M + 2, opBits M N, false, q, .WRAP⟩ : Fmt).F =
      ((j : ℤ) : ℚ) := by
    unfold Fmt.val
    rw [mul_assoc, ← zpow_add₀ (by norm_num : (2 : ℚ) ≠ 0)]
    have e : -(⟨opBits M N + X, opBits M N, false, q, .WRAP⟩ : Fmt).F + (⟨M + 2, opBits M N, false, q, .WRAP⟩ : Fmt).F = -(h : ℤ) := by
      unfold Fmt.F opBits
      push_cast
      have : (X : ℤ) + logN N = h + 1 := by exact_mod_cast hh
      linarith
    rw [e, zpow_neg, zpow_natCast]
    push_cast
    field_simp
  have hraw : (⟨M + 2, opBits M N, false, q, .WRAP⟩ : Fmt).cvtRaw ((⟨opBits M N + X, opBits M N, false, q, .WRAP⟩ : Fmt).val ((j * 2 ^ h : ℕ) : ℤ)) =
      wrap (M + 2) false (j : ℤ) := by
    unfold Fmt.cvtRaw
    rw [hF, quant_intCast]
    rfl
  have hj2 : j < 2 ^ (M + 1) := hj1.trans (Nat.pow_lt_pow_right (by norm_num) (by omega))
  have hj3 : j < 2 ^ (M + 2) := hj1.trans (Nat.pow_lt_pow_right (by norm_num) (by omega))
  rw [hraw, wrapU_of_lt (by positivity) (by exact_mod_cast hj3), Int.toNat_natCast, Nat.testBit_lt_two_pow hj2]
  simp only [Bool.false_and, Bool.false_eq_true, if_false, Bool.not_true, Bool.or_false, true_and]
  rw [wrap_add_wrap, wrap_false]
  norm_num

/-- Each value is a multiple of the smallest subnormal number. -/
theorem value_int {nosub : Bool} {M E d : ℕ} : ∃ j : ℤ, value nosub M E d = j * 2 ^ (1 - bias E - M) := by
  unfold value
  by_cases h0 : expField M E d = 0
  · rw [if_pos h0]
    cases nosub
    · refine ⟨(if d.testBit (M + E) then -1 else 1) * ((d % 2 ^ M : ℕ) : ℤ), ?_⟩
      generalize d % 2 ^ M = m
      rw [if_neg (show ¬ false = true by simp)]
      push_cast
      ring
    · exact ⟨0, by simp⟩
  · rw [if_neg h0]
    refine ⟨(if d.testBit (M + E) then -1 else 1) * ((2 ^ M + d % 2 ^ M : ℕ) * 2 ^ (expField M E d - 1)), ?_⟩
    push_cast
    rw [mul_assoc, mul_assoc]
    congr 2
    rw [← zpow_natCast, ← zpow_add₀ (by norm_num)]
    congr 1
    omega

theorem value_abs_lt {nosub : Bool} {M E d : ℕ} : |value nosub M E d| < 2 ^ ((expo M E d : ℤ) + 1 - bias E) := by
  rw [value_mu, abs_mul]
  have hone : |(if sgn M E d = true then (-1 : ℚ) else 1)| = 1 := by split_ifs <;> simp
  rw [hone, one_mul, abs_of_nonneg (by positivity)]
  have h : (mu nosub M E d : ℚ) < 2 ^ (M + 1) := by exact_mod_cast mu_lt nosub M E d
  refine lt_of_lt_of_eq (mul_lt_mul_of_pos_right h (by positivity)) ?_
  rw [← zpow_natCast, ← zpow_add₀ (by norm_num)]
  congr 1
  push_cast; ring

theorem value_abs_ge {nosub : Bool} {M E d : ℕ} (he : 1 ≤ expo M E d) : 2 ^ ((expo M E d : ℤ) - bias E) ≤ |value nosub M E d| := by
  have hf : expField M E d = expo M E d := rfl
  unfold value
  rw [hf, if_neg (show ¬ expo M E d = 0 by omega), abs_mul]
  have hone : |(if d.testBit (M + E) = true then (-1 : ℚ) else 1)| = 1 := by split_ifs <;> simp
  rw [hone, one_mul, abs_of_nonneg (by positivity)]
  have h : (2 : ℚ) ^ M ≤ (2 ^ M + d % 2 ^ M : ℕ) := by push_cast; linarith [show (0 : ℚ) ≤ ((d % 2 ^ M : ℕ) : ℚ) by positivity]
  refine le_trans (le_of_eq ?_) (mul_le_mul_of_nonneg_right h (by positivity))
  rw [← zpow_natCast, ← zpow_add₀ (by norm_num)]
  congr 1
  ring

theorem aligned {nosub : Bool} {M E X em d : ℕ} (h : em ≤ expo M E d + X) :
    ∃ j : ℤ, value nosub M E d = j * accUnit M E X em := by
  rw [value_mu]
  refine ⟨(if sgn M E d then -1 else 1) * (mu nosub M E d * 2 ^ (expo M E d + X - em)), ?_⟩
  push_cast
  rw [mul_assoc, mul_assoc]
  congr 2
  unfold accUnit
  rw [← zpow_natCast, ← zpow_add₀ (by norm_num)]
  congr 1
  omega

/-- Two operands whose sum is below the normal range need no alignment beyond one place. -/
theorem two_aligned {nosub : Bool} {M E X em : ℕ} (hX : 1 ≤ X) {a b : ℕ} (ha : expo M E a = em)
    (hs : |value nosub M E a + value nosub M E b| < smallest E) : em ≤ expo M E b + X := by
  by_contra hc
  have h1 := value_abs_ge (nosub := nosub) (M := M) (E := E) (d := a) (by omega)
  have h2 := value_abs_lt (nosub := nosub) (M := M) (E := E) (d := b)
  rw [ha] at h1
  have h3 : (2 : ℚ) ^ ((expo M E b : ℤ) + 1 - bias E) ≤ 2 ^ ((em : ℤ) - 1 - bias E) := zpow_le_zpow_right₀ (by norm_num) (by omega)
  have h4 : (2 : ℚ) ^ ((em : ℤ) - bias E) = 2 * 2 ^ ((em : ℤ) - 1 - bias E) := by
    rw [← zpow_one_add₀ (by norm_num)]; congr 1; ring
  have h5 : smallest E ≤ 2 ^ ((em : ℤ) - 1 - bias E) := zpow_le_zpow_right₀ (by norm_num) (by omega)
  have h6 := abs_sub_abs_le_abs_sub (value nosub M E a) (-value nosub M E b)
  rw [abs_neg, sub_neg_eq_add] at h6
  linarith

/-- A sum of two operands below the normal range. -/
theorem sub_eq {q : QMode} {nosub : Bool} {M E X : ℕ} (hE : 1 ≤ E) (hX : 1 ≤ X)
    (hcap : M + 1 + X ≤ 2 ^ nbits (M + 2) - 1) {x : ℕ → ℕ} (hfin : ∀ k < 2, expo M E (x k) ≠ 2 ^ E - 1)
    (hs : |value nosub M E (x 0) + value nosub M E (x 1)| < smallest E) :
    (nosub = false → value nosub M E (faddTree q nosub M E X 2 x) = value nosub M E (x 0) + value nosub M E (x 1)) ∧
    (nosub = true → faddTree q nosub M E X 2 x % 2 ^ (M + E) = 0) := by
  obtain ⟨⟨k, hk, hkm⟩, hle⟩ := emax_spec (M := M) (E := E) (N := 2) (by norm_num) x
  have hal : ∀ k < 2, ∃ j : ℤ, value nosub M E (x k) = j * accUnit M E X (emax M E 2 x) := by
    intro i hi
    refine aligned ?_
    by_cases hik : i = k
    · rw [hik, hkm]; omega
    · have : (k = 0 ∧ i = 1) ∨ (k = 1 ∧ i = 0) := by omega
      rcases this with ⟨rfl, rfl⟩ | ⟨rfl, rfl⟩
      · exact two_aligned hX hkm.symm hs
      · exact two_aligned hX hkm.symm (by rw [add_comm]; exact hs)
  have h2 := sum_exact hX hcap hle hal
  obtain ⟨S, hS⟩ : ∃ S, ∑ k ∈ Finset.range 2, term nosub M E X (emax M E 2 x) (x k) = S := ⟨_, rfl⟩
  rw [hS] at h2
  have hsum : ∑ k ∈ Finset.range 2, value nosub M E (x k) = value nosub M E (x 0) + value nosub M E (x 1) := by
    rw [Finset.sum_range_succ, Finset.sum_range_one]
  rw [hsum] at h2
  by_cases hS0 : S = 0
  · subst hS0
    rw [zero_eq hE hX (by norm_num) hfin hS, h2]
    simp [value, expField]
  obtain ⟨hlt, hf⟩ := finite_eq (q := q) hE hX (by norm_num) hfin hS
  have hu := accUnit_pos M E X (emax M E 2 x)
  have hR0 : 0 < S.natAbs := by omega
  have hlog : logN 2 = 1 := by decide
  obtain ⟨p, hp⟩ : ∃ p : ℤ, (emax M E 2 x : ℤ) - leadingSignU (opBits M 2 + X) S.natAbs + logN 2 = p := ⟨_, rfl⟩
  have hT := mag_eq (M := M) (E := E) (X := X) hp
  have habs : |value nosub M E (x 0) + value nosub M E (x 1)| = (S.natAbs : ℚ) * accUnit M E X (emax M E 2 x) := by
    rw [h2, abs_mul, abs_of_pos hu, Nat.cast_natAbs]; push_cast; rfl
  have hp0 : p ≤ 0 := by
    obtain ⟨s0, -⟩ := shifted hR0 hlt
    have m0 : 2 ^ M ≤ mag X 2 (opBits M 2 + X) S.natAbs := by
      unfold mag
      rw [le_div_iff₀ (by positivity), ← pow_add]
      rw [show M + (X + logN 2) = opBits M 2 + X - 1 by unfold opBits; omega]
      exact_mod_cast s0
    by_contra hc
    have : smallest E ≤ mag X 2 (opBits M 2 + X) S.natAbs * 2 ^ (p - bias E - M) := by
      calc smallest E ≤ 2 ^ (p - bias E) := zpow_le_zpow_right₀ (by norm_num) (by omega)
        _ = 2 ^ M * 2 ^ (p - bias E - M) := by
            rw [← zpow_natCast, ← zpow_add₀ (by norm_num)]; congr 1; ring
        _ ≤ _ := mul_le_mul_of_nonneg_right m0 (by positivity)
    rw [← hT, ← habs] at this
    linarith
  obtain ⟨j0, hj0⟩ := value_int (nosub := nosub) (M := M) (E := E) (d := x 0)
  obtain ⟨j1, hj1⟩ := value_int (nosub := nosub) (M := M) (E := E) (d := x 1)
  have hw : (0 : ℚ) < 2 ^ (1 - bias E - M) := by positivity
  have hj : |value nosub M E (x 0) + value nosub M E (x 1)| = ((j0 + j1).natAbs : ℚ) * 2 ^ (1 - bias E - M) := by
    rw [hj0, hj1, ← add_mul, abs_mul, abs_of_pos hw, Nat.cast_natAbs]; push_cast; rfl
  have hjlt : (j0 + j1).natAbs < 2 ^ M := by
    rw [hj] at hs
    have e : smallest E = 2 ^ M * 2 ^ (1 - bias E - M) := by
      unfold smallest
      rw [← zpow_natCast, ← zpow_add₀ (by norm_num)]; congr 1; ring
    rw [e] at hs
    have := lt_of_mul_lt_mul_right hs hw.le
    exact_mod_cast this
  have hjR : S.natAbs * 2 ^ emax M E 2 x = (j0 + j1).natAbs * 2 ^ (X + logN 2) := by
    have h3 : (S.natAbs : ℚ) * accUnit M E X (emax M E 2 x) = ((j0 + j1).natAbs : ℚ) * 2 ^ (1 - bias E - M) := by rw [← habs, hj]
    unfold accUnit at h3
    have e : (2 : ℚ) ^ ((emax M E 2 x : ℤ) - bias E - M - X) = 2 ^ emax M E 2 x * 2 ^ (-bias E - M - X) := by
      rw [← zpow_natCast, ← zpow_add₀ (by norm_num)]; congr 1; ring
    have e' : (2 : ℚ) ^ (1 - bias E - M) = 2 ^ (X + logN 2) * 2 ^ (-bias E - M - X) := by
      rw [hlog, ← zpow_natCast, ← zpow_add₀ (by norm_num)]; congr 1; push_cast; ring
    rw [e, e', ← mul_assoc, ← mul_assoc] at h3
    have := mul_right_cancel₀ (show (2 : ℚ) ^ (-bias E - M - X) ≠ 0 by positivity) h3
    exact_mod_cast this
  obtain ⟨n1, n2, n3⟩ := sub_norm (q := q) (M := M) (E := E) (N := 2) hX hR0 hlt (by omega) hjR hjlt
  have hE2 : 2 ≤ 2 ^ E := by
    calc 2 = 2 ^ 1 := rfl
      _ ≤ 2 ^ E := Nat.pow_le_pow_right (by norm_num) hE
  have hne : ¬ 0 = 2 ^ E - 1 := by omega
  unfold packF at hf
  simp only [n1, n2, n3] at hf
  constructor
  · intro hn
    subst hn
    simp only [Nat.mod_eq_of_lt hjlt, Bool.false_and, Bool.or_false, hne, decide_false, Bool.false_eq_true, if_false, decide_eq_true_eq,
      Int.natAbs_eq_zero, hS0] at hf
    obtain ⟨f1, f2, f3, -⟩ := fields (M := M) (E := E) (decide (S < 0)) hjlt (show 0 < 2 ^ E by positivity)
    have hf' : faddTree q false M E X 2 x = (j0 + j1).natAbs + 0 * 2 ^ M + (if decide (S < 0) = true then 2 ^ (M + E) else 0) := by
      rw [hf]; simp
    rw [hf']
    unfold sgn at f3
    unfold expo at f2
    unfold value expField at h2 hj ⊢
    rw [f1, f2, f3, h2]
    rw [h2] at hj
    simp only [if_true, Bool.false_eq_true, if_false]
    rw [← hj, abs_mul, abs_of_pos hu, ← mul_assoc]
    congr 1
    simp only [decide_eq_true_eq]
    split_ifs with h
    · rw [abs_of_neg (by exact_mod_cast h)]; ring
    · rw [abs_of_nonneg (by exact_mod_cast not_lt.1 h), one_mul]
  · intro hn
    subst hn
    have hf' : faddTree q true M E X 2 x = (if decide (S < 0) = true then 2 ^ (M + E) else 0) := by
      rw [hf]; simp
    rw [hf']
    split_ifs <;> simp

/-- A sum in the normal range. -/
theorem normal_eq {q : QMode} {nosub : Bool} {M E X N : ℕ} (hE : 1 ≤ E) (hX : 1 ≤ X) (hN : 1 ≤ N) {x : ℕ → ℕ}
    (hfin : ∀ k < N, expo M E (x k) ≠ 2 ^ E - 1) {S : ℤ} (hS : ∑ k ∈ Finset.range N, term nosub M E X (emax M E N x) (x k) = S)
    (h0 : smallest E ≤ (S.natAbs : ℚ) * accUnit M E X (emax M E N x)) (h1 : (S.natAbs : ℚ) * accUnit M E X (emax M E N x) ≤ largest M E) :
    expo M E (faddTree q nosub M E X N x) ≠ 2 ^ E - 1 ∧
    |value nosub M E (faddTree q nosub M E X N x) - S * accUnit M E X (emax M E N x)| ≤
      rerr q X N / 2 ^ M * ((S.natAbs : ℚ) * accUnit M E X (emax M E N x)) ∧
    ∀ (j : ℕ) (i : ℤ), j < 2 ^ (M + 1) → (S.natAbs : ℚ) * accUnit M E X (emax M E N x) = j * 2 ^ i →
      value nosub M E (faddTree q nosub M E X N x) = S * accUnit M E X (emax M E N x) := by
  obtain ⟨hlt, hf⟩ := finite_eq (q := q) hE hX hN hfin hS
  have hu := accUnit_pos M E X (emax M E N x)
  have hs0 : 0 < smallest E := by unfold smallest; positivity
  have hR0 : 0 < S.natAbs := by
    rcases Nat.eq_zero_or_pos S.natAbs with h | h
    · rw [h] at h0; simp at h0; linarith
    · exact h
  obtain ⟨p, hp⟩ : ∃ p : ℤ, (emax M E N x : ℤ) - leadingSignU (opBits M N + X) S.natAbs + logN N = p := ⟨_, rfl⟩
  have hT := mag_eq (M := M) (E := E) (X := X) hp
  rw [hT] at h0 h1 ⊢
  -- bounds of the magnitude, whatever the exponent
  have hmag : 2 ^ M ≤ mag X N (opBits M N + X) S.natAbs ∧ mag X N (opBits M N + X) S.natAbs < 2 ^ (M + 1) := by
    obtain ⟨s0, s1⟩ := shifted hR0 hlt
    have hW : opBits M N + X = M + 1 + (X + logN N) := by unfold opBits; omega
    unfold mag
    constructor
    · rw [le_div_iff₀ (by positivity), ← pow_add]
      rw [show M + (X + logN N) = opBits M N + X - 1 by omega]
      exact_mod_cast s0
    · rw [div_lt_iff₀ (by positivity), ← pow_add, ← hW]
      exact_mod_cast s1
  obtain ⟨m0, m1⟩ := hmag
  have hz : (0 : ℚ) < 2 ^ (p - bias E - M) := by positivity
  have hp1 : 1 ≤ p := by
    by_contra hc
    have : mag X N (opBits M N + X) S.natAbs * 2 ^ (p - bias E - M) < smallest E := by
      calc mag X N (opBits M N + X) S.natAbs * 2 ^ (p - bias E - M) < 2 ^ (M + 1) * 2 ^ (p - bias E - M) := mul_lt_mul_of_pos_right m1 hz
        _ = 2 ^ (p + 1 - bias E) := by
            rw [← zpow_natCast, ← zpow_add₀ (by norm_num)]; congr 1; push_cast; ring
        _ ≤ smallest E := by
            unfold smallest
            exact zpow_le_zpow_right₀ (by norm_num) (by omega)
    linarith
  obtain ⟨rr, r0, r1, rn, rc, -, -, re, rj, rx⟩ := norm_spec (q := q) (E := E) hX hR0 hlt hp hp1
  have hb := two_bias hE
  have hp2 : p ≤ 2 ^ E - 2 := by
    by_contra hc
    have : largest M E < mag X N (opBits M N + X) S.natAbs * 2 ^ (p - bias E - M) := by
      calc largest M E < 2 ^ (M + 1) * 2 ^ (bias E - M) := by
            unfold largest; exact mul_lt_mul_of_pos_right (by linarith) (by positivity)
        _ = 2 ^ M * 2 ^ (bias E + 1 - M) := by
            rw [pow_succ, mul_assoc, ← zpow_one_add₀ (by norm_num)]; congr 2; ring
        _ ≤ 2 ^ M * 2 ^ (p - bias E - M) := by
            refine mul_le_mul_of_nonneg_left ?_ (by positivity)
            exact zpow_le_zpow_right₀ (by norm_num) (by omega)
        _ ≤ _ := mul_le_mul_of_nonneg_right m0 hz.le
    linarith
  have hinc : rr = 2 ^ (M + 1) → p ≤ 2 ^ E - 3 := by
    intro hrr
    by_contra hc
    have hpe : p = 2 ^ E - 2 := by omega
    have e : p - bias E - M = bias E - M := by omega
    rw [e] at h1
    unfold largest at h1
    have h2 := le_of_mul_le_mul_right h1 (show (0 : ℚ) < 2 ^ (bias E - M) by positivity)
    have h3 := rj (2 ^ (M + 1) - 1) (by
      rw [Nat.cast_sub Nat.one_le_two_pow]; push_cast; exact h2)
    have : 1 ≤ 2 ^ (M + 1) := Nat.one_le_two_pow
    omega
  have hpE : (0 : ℤ) < 2 ^ E := by positivity
  have hsgn : (S : ℚ) * accUnit M E X (emax M E N x) =
      (if decide (S < 0) = true then -1 else 1) * (mag X N (opBits M N + X) S.natAbs * 2 ^ (p - bias E - M)) := by
    rw [← hT, ← mul_assoc]
    congr 1
    simp only [decide_eq_true_eq]
    rw [Nat.cast_natAbs]
    split_ifs with h
    · rw [abs_of_neg h]; push_cast; ring
    · rw [abs_of_nonneg (not_lt.1 h), one_mul]
  have hval : ∃ e m : ℕ, m < 2 ^ M ∧ 1 ≤ e ∧ e < 2 ^ E - 1 ∧
      faddTree q nosub M E X N x = m + e * 2 ^ M + (if decide (S < 0) then 2 ^ (M + E) else 0) ∧
      ((2 ^ M + m : ℕ) : ℚ) * 2 ^ ((e : ℤ) - bias E - M) = rr * 2 ^ (p - bias E - M) := by
    have hgen : ∀ (e : ℤ) (w : ℕ), 1 ≤ e → e ≤ 2 ^ E - 2 → w < 2 ^ (M + 1) → 2 ^ M ≤ w →
        (Model.StdAddTree.normalize q M E X N (emax M E N x) S.natAbs).rounded' = w →
        ((Model.StdAddTree.normalize q M E X N (emax M E N x) S.natAbs).eb : ℤ) = e % 2 ^ E →
        w - 2 ^ M < 2 ^ M ∧ 1 ≤ e.toNat ∧ e.toNat < 2 ^ E - 1 ∧
        faddTree q nosub M E X N x = (w - 2 ^ M) + e.toNat * 2 ^ M + (if decide (S < 0) then 2 ^ (M + E) else 0) := by
      intro e w e0 e1 w1 w0 hw he
      have hp2' : 2 ^ (M + 1) = 2 * 2 ^ M := by ring
      rw [Int.emod_eq_of_lt (by omega) (by omega)] at he
      have heb : (Model.StdAddTree.normalize q M E X N (emax M E N x) S.natAbs).eb = e.toNat := by omega
      have hlt : e.toNat < 2 ^ E - 1 := by
        have h1 : (1 : ℤ) ≤ 2 ^ E := by omega
        have : ((2 ^ E - 1 : ℕ) : ℤ) = 2 ^ E - 1 := by rw [Nat.cast_sub Nat.one_le_two_pow]; push_cast; rfl
        zify
        rw [Int.toNat_of_nonneg (by omega), this]
        omega
      refine ⟨by omega, by omega, hlt, ?_⟩
      rw [hf]
      unfold packF
      simp only [rn, heb, hw]
      have d1 : decide (S.natAbs = 0) = false := decide_eq_false (by omega)
      have d2 : decide (e.toNat = 2 ^ E - 1) = false := decide_eq_false (by omega)
      have hmod : w % 2 ^ M = w - 2 ^ M := by
        rw [Nat.mod_eq_sub_mod w0, Nat.mod_eq_of_lt (by omega)]
      have hS0 : ¬ S = 0 := by omega
      simp [hS0, hlt.ne, hmod]
    rcases rc with ⟨c1, c2, c3⟩ | ⟨c1, c2, c3⟩
    · obtain ⟨g1, g2, g3, g4⟩ := hgen p rr hp1 hp2 c1 r0 c2 c3
      refine ⟨p.toNat, rr - 2 ^ M, g1, g2, g3, g4, ?_⟩
      rw [Int.toNat_of_nonneg (by omega), Nat.add_sub_cancel' r0]
    · have := hinc c1
      have hp2' : 2 ^ (M + 1) = 2 * 2 ^ M := by ring
      have hpos : 0 < 2 ^ M := by positivity
      obtain ⟨g1, g2, g3, g4⟩ := hgen (p + 1) (2 ^ M) (by omega) (by omega) (by omega) le_rfl c2 c3
      refine ⟨(p + 1).toNat, 2 ^ M - 2 ^ M, g1, g2, g3, g4, ?_⟩
      rw [Int.toNat_of_nonneg (by omega), c1, Nat.sub_self, Nat.add_zero]
      push_cast
      rw [show p + 1 - bias E - M = (p - bias E - M) + 1 by ring, zpow_add_one₀ (by norm_num), pow_succ]
      ring
  obtain ⟨e, m, hm, he1, he2, hfe, hve⟩ := hval
  have hv : value nosub M E (faddTree q nosub M E X N x) = (if decide (S < 0) = true then -1 else 1) * ((rr : ℚ) * 2 ^ (p - bias E - M)) := by
    rw [hfe, value_fields _ hm (by omega) he1, hve]
  refine ⟨?_, ?_, ?_⟩
  · rw [hfe]
    obtain ⟨-, f2, -, -⟩ := fields (decide (S < 0)) hm (show e < 2 ^ E by omega)
    rw [f2]; omega
  · rw [hv, hsgn, ← mul_sub, ← sub_mul, abs_mul, abs_mul, abs_of_pos hz]
    have hone : |(if decide (S < 0) = true then (-1 : ℚ) else 1)| = 1 := by split_ifs <;> simp
    rw [hone, one_mul, ← mul_assoc]
    refine mul_le_mul_of_nonneg_right ?_ hz.le
    refine re.trans ?_
    have hr0 : 0 ≤ rerr q X N := (abs_nonneg _).trans re
    rw [div_mul_eq_mul_div, le_div_iff₀ (by positivity)]
    exact mul_le_mul_of_nonneg_left m0 hr0
  · intro j i hj hji
    have hj0 : 0 < j := by
      rcases Nat.eq_zero_or_pos j with h | h
      · rw [h] at hji
        have : 0 < mag X N (opBits M N + X) S.natAbs := lt_of_lt_of_le (by positivity) m0
        have := mul_pos this hz
        rw [hji] at this
        simp at this
      · exact h
    have hle : p - bias E - M ≤ i := by
      have h3 : (2 : ℚ) ^ M * 2 ^ (p - bias E - M) < 2 ^ (M + 1) * 2 ^ i := by
        refine lt_of_le_of_lt (mul_le_mul_of_nonneg_right m0 hz.le) ?_
        rw [hji]
        refine mul_lt_mul_of_pos_right ?_ (by positivity)
        exact_mod_cast hj
      rw [pow_succ, mul_assoc, ← zpow_one_add₀ (by norm_num)] at h3
      have h4 := lt_of_mul_lt_mul_left h3 (by positivity)
      have := (zpow_lt_zpow_iff_right₀ (by norm_num : (1 : ℚ) < 2)).1 h4
      omega
    have hmj : mag X N (opBits M N + X) S.natAbs = ((j * 2 ^ (i - (p - bias E - M)).toNat : ℕ) : ℚ) := by
      have : mag X N (opBits M N + X) S.natAbs = j * 2 ^ i / 2 ^ (p - bias E - M) := by
        rw [eq_div_iff hz.ne']; exact hji
      rw [this, mul_div_assoc, ← zpow_sub₀ (by norm_num)]
      push_cast
      rw [← zpow_natCast, Int.toNat_of_nonneg (by omega)]
    have := rx _ hmj
    rw [hv, hsgn, hmj, this]

/-- A sum that overflows by less than one binade. -/
theorem overflow_eq {q : QMode} {nosub : Bool} {M E X N : ℕ} (hE : 1 ≤ E) (hX : 1 ≤ X) (hN : 1 ≤ N) {x : ℕ → ℕ}
    (hfin : ∀ k < N, expo M E (x k) ≠ 2 ^ E - 1) {S : ℤ} (hS : ∑ k ∈ Finset.range N, term nosub M E X (emax M E N x) (x k) = S)
    (h0 : 2 ^ (bias E + 1) ≤ (S.natAbs : ℚ) * accUnit M E X (emax M E N x))
    (h1 : (S.natAbs : ℚ) * accUnit M E X (emax M E N x) ≤ 2 * largest M E) :
    faddTree q nosub M E X N x = if q = .TRN_ZERO then largestBits M E (decide (S < 0))
      else (2 ^ E - 1) * 2 ^ M + if decide (S < 0) then 2 ^ (M + E) else 0 := by
  obtain ⟨hlt, hf⟩ := finite_eq (q := q) hE hX hN hfin hS
  have hR0 : 0 < S.natAbs := by
    rcases Nat.eq_zero_or_pos S.natAbs with h | h
    · rw [h] at h0
      have : (0 : ℚ) < 2 ^ (bias E + 1) := by positivity
      simp at h0; linarith
    · exact h
  obtain ⟨p, hp⟩ : ∃ p : ℤ, (emax M E N x : ℤ) - leadingSignU (opBits M N + X) S.natAbs + logN N = p := ⟨_, rfl⟩
  have hT := mag_eq (M := M) (E := E) (X := X) hp
  rw [hT] at h0 h1
  have hmag : 2 ^ M ≤ mag X N (opBits M N + X) S.natAbs ∧ mag X N (opBits M N + X) S.natAbs < 2 ^ (M + 1) := by
    obtain ⟨s0, s1⟩ := shifted hR0 hlt
    have hW : opBits M N + X = M + 1 + (X + logN N) := by unfold opBits; omega
    unfold mag
    constructor
    · rw [le_div_iff₀ (by positivity), ← pow_add]
      rw [show M + (X + logN N) = opBits M N + X - 1 by omega]
      exact_mod_cast s0
    · rw [div_lt_iff₀ (by positivity), ← pow_add, ← hW]
      exact_mod_cast s1
  obtain ⟨m0, m1⟩ := hmag
  have hz : (0 : ℚ) < 2 ^ (p - bias E - M) := by positivity
  have hb := two_bias hE
  have hb0 : 0 ≤ bias E := by
    unfold bias
    have : (1 : ℤ) ≤ 2 ^ (E - 1) := one_le_pow₀ (by norm_num)
    omega
  have e2 : 2 * largest M E = (2 ^ (M + 1) - 1) * 2 ^ (bias E + 1 - M) := by
    unfold largest
    rw [show bias E + 1 - M = (bias E - M) + 1 by ring, zpow_add_one₀ (by norm_num)]
    ring
  have hpg : 2 ^ E - 1 ≤ p := by
    by_contra hc
    have : mag X N (opBits M N + X) S.natAbs * 2 ^ (p - bias E - M) < 2 ^ (bias E + 1) := by
      calc mag X N (opBits M N + X) S.natAbs * 2 ^ (p - bias E - M) < 2 ^ (M + 1) * 2 ^ (p - bias E - M) := mul_lt_mul_of_pos_right m1 hz
        _ = 2 ^ (p + 1 - bias E) := by
            rw [← zpow_natCast, ← zpow_add₀ (by norm_num)]; congr 1; push_cast; ring
        _ ≤ _ := zpow_le_zpow_right₀ (by norm_num) (by omega)
    linarith
  have hpl : p ≤ 2 ^ E - 1 := by
    by_contra hc
    have : 2 * largest M E < mag X N (opBits M N + X) S.natAbs * 2 ^ (p - bias E - M) := by
      rw [e2]
      calc (2 ^ (M + 1) - 1) * 2 ^ (bias E + 1 - M) < (2 : ℚ) ^ (M + 1) * 2 ^ (bias E + 1 - M) :=
            mul_lt_mul_of_pos_right (by linarith) (by positivity)
        _ = 2 ^ M * 2 ^ (bias E + 2 - M) := by
            rw [pow_succ, mul_assoc, ← zpow_one_add₀ (by norm_num)]; congr 2; ring
        _ ≤ 2 ^ M * 2 ^ (p - bias E - M) := by
            refine mul_le_mul_of_nonneg_left ?_ (by positivity)
            exact zpow_le_zpow_right₀ (by norm_num) (by omega)
        _ ≤ _ := mul_le_mul_of_nonneg_right m0 hz.le
    linarith
  have hpe : p = 2 ^ E - 1 := le_antisymm hpl hpg
  obtain ⟨rr, r0, r1, rn, rc, -, -, re, rj, rx⟩ := norm_spec (q := q) (E := E) hX hR0 hlt hp (by omega)
  have hrr : rr < 2 ^ (M + 1) := by
    have e : p - bias E - M = bias E + 1 - M := by omega
    rw [e, e2] at h1
    have h2 := le_of_mul_le_mul_right h1 (show (0 : ℚ) < 2 ^ (bias E + 1 - M) by positivity)
    have h3 := rj (2 ^ (M + 1) - 1) (by
      rw [Nat.cast_sub Nat.one_le_two_pow]; push_cast; exact h2)
    have : 1 ≤ 2 ^ (M + 1) := Nat.one_le_two_pow
    omega
  rcases rc with ⟨-, -, c3⟩ | ⟨c1, -, -⟩
  swap
  · omega
  have hpE : (0 : ℤ) < 2 ^ E := by positivity
  rw [Int.emod_eq_of_lt (by omega) (by omega), hpe] at c3
  have heb : (Model.StdAddTree.normalize q M E X N (emax M E N x) S.natAbs).eb = 2 ^ E - 1 := by
    have : ((2 ^ E - 1 : ℕ) : ℤ) = 2 ^ E - 1 := by rw [Nat.cast_sub Nat.one_le_two_pow]; push_cast; rfl
    zify; rw [this]; exact c3
  rw [hf]
  unfold packF largestBits
  simp only [rn, heb]
  have d1 : decide (S.natAbs = 0) = false := decide_eq_false (by omega)
  have hS0 : ¬ S = 0 := by omega
  by_cases hq : q = .TRN_ZERO <;> simp [hS0, hq]

/-- Two operands overflow by less than one binade. -/
theorem two_bound {nosub : Bool} {M E X N : ℕ} (hE : 1 ≤ E) (hX : 1 ≤ X) (hN : 1 ≤ N) (hN2 : N ≤ 2) {x : ℕ → ℕ}
    (hfin : ∀ k < N, expo M E (x k) ≠ 2 ^ E - 1) {S : ℤ} (hS : ∑ k ∈ Finset.range N, term nosub M E X (emax M E N x) (x k) = S) :
    (S.natAbs : ℚ) * accUnit M E X (emax M E N x) ≤ 2 * largest M E := by
  have hb := sum_bound (nosub := nosub) (M := M) (E := E) (N := N) (em := emax M E N x) hX x
  rw [hS] at hb
  obtain ⟨⟨k, hk, he⟩, -⟩ := emax_spec (M := M) (E := E) hN x
  have hem : emax M E N x ≤ 2 ^ E - 2 := by
    have h1 := hfin k hk
    have h2 : expo M E (x k) < 2 ^ E := Nat.mod_lt _ (by positivity)
    omega
  have hem' : (emax M E N x : ℤ) ≤ 2 * bias E := by
    rw [two_bias hE]
    have : (2 : ℕ) ≤ 2 ^ E := by
      calc 2 = 2 ^ 1 := rfl
        _ ≤ 2 ^ E := Nat.pow_le_pow_right (by norm_num) hE
    have e : ((2 ^ E - 2 : ℕ) : ℤ) = 2 ^ E - 2 := by rw [Nat.cast_sub this]; push_cast; rfl
    rw [← e]; exact_mod_cast hem
  have h1 : (1 : ℚ) ≤ 2 ^ (M + 1) := one_le_pow₀ (by norm_num)
  have hb' : (S.natAbs : ℚ) ≤ 2 * ((2 ^ (M + 1) - 1) * 2 ^ X) := by
    have : ((|S| : ℤ) : ℚ) ≤ ((N * ((2 ^ (M + 1) - 1) * 2 ^ X) : ℤ) : ℚ) := by exact_mod_cast hb
    push_cast at this
    rw [Nat.cast_natAbs]
    push_cast
    refine this.trans (mul_le_mul_of_nonneg_right (by exact_mod_cast hN2) (mul_nonneg (by linarith) (by positivity)))
  have hu := accUnit_pos M E X (emax M E N x)
  refine (mul_le_mul_of_nonneg_right hb' hu.le).trans ?_
  unfold largest
  rw [mul_assoc, mul_assoc]
  refine mul_le_mul_of_nonneg_left (mul_le_mul_of_nonneg_left ?_ (by linarith)) (by norm_num)
  unfold accUnit
  rw [← zpow_natCast, ← zpow_add₀ (by norm_num)]
  exact zpow_le_zpow_right₀ (by norm_num) (by omega)

end Proof.StdAddTree
