import Verif.Proof.Div
import Mathlib.Tactic.IntervalCases

/-! # C01, C02, C03: integer division -/

namespace Props.DivInt
open Ac Model.Div

/-- **C01.** Unsigned `ac_div` with a nonzero divisor, for output widths that can hold the result
(`RW ≥ DW` always suffices for the remainder, `QW ≥ NW` for the quotient). -/
theorem C01_unsigned_div {noSat : Bool} {NW DW QW RW : ℕ} (hNW : 1 ≤ NW) {N D : ℤ}
    (hN0 : 0 ≤ N) (hN1 : N < 2 ^ NW) (hD0 : 0 < D) (hD1 : D < 2 ^ DW)
    (hQ : N / D < 2 ^ QW) (hR : N % D < 2 ^ RW) :
    let o := divU noSat NW DW QW RW N D
    o.quotient * D + o.remainder = N ∧ 0 ≤ o.remainder ∧ o.remainder < D ∧ 0 ≤ o.quotient ∧
      (o.flag = true ↔ o.remainder ≠ 0) := by
  rw [divU_eq hNW hN0 hN1 hD0 hD1]
  have h1 : 0 ≤ N / D := Int.ediv_nonneg hN0 hD0.le
  have h2 : 0 ≤ N % D := Int.emod_nonneg _ (ne_of_gt hD0)
  simp only [Int.emod_eq_of_lt h1 hQ, Int.emod_eq_of_lt h2 hR]
  refine ⟨by rw [mul_comm]; exact Int.mul_ediv_add_emod N D, h2, Int.emod_lt_of_pos _ hD0, h1, by simp⟩

example : let o := divU false 8 4 8 4 200 7
    o.quotient * 7 + o.remainder = 200 ∧ 0 ≤ o.remainder ∧ o.remainder < 7 ∧ 0 ≤ o.quotient ∧
      (o.flag = true ↔ o.remainder ≠ 0) :=
  C01_unsigned_div (by norm_num) (by norm_num) (by norm_num) (by norm_num) (by norm_num) (by norm_num) (by norm_num)

/-- **C01**, any output widths: outputs narrower than needed keep the low bits; the flag is still exact. -/
theorem C01_unsigned_div_any_width {noSat : Bool} {NW DW QW RW : ℕ} (hNW : 1 ≤ NW) {N D : ℤ}
    (hN0 : 0 ≤ N) (hN1 : N < 2 ^ NW) (hD0 : 0 < D) (hD1 : D < 2 ^ DW) :
    let o := divU noSat NW DW QW RW N D
    o.quotient = N / D % 2 ^ QW ∧ o.remainder = N % D % 2 ^ RW ∧ (o.flag = true ↔ ¬ D ∣ N) := by
  rw [divU_eq hNW hN0 hN1 hD0 hD1]
  simp [Int.dvd_iff_emod_eq_zero]

example : let o := divU false 8 4 3 2 200 7
    o.quotient = 200 / 7 % 2 ^ 3 ∧ o.remainder = 200 % 7 % 2 ^ 2 ∧ (o.flag = true ↔ ¬ (7 : ℤ) ∣ 200) :=
  C01_unsigned_div_any_width (by norm_num) (by norm_num) (by norm_num) (by norm_num) (by norm_num)

/-- **C01**, three-argument version. -/
theorem C01_unsigned_div3 {noSat : Bool} {NW DW QW : ℕ} (hNW : 1 ≤ NW) {N D : ℤ}
    (hN0 : 0 ≤ N) (hN1 : N < 2 ^ NW) (hD0 : 0 < D) (hD1 : D < 2 ^ DW) :
    (divU3 noSat NW DW QW N D).1 = N / D % 2 ^ QW ∧ ((divU3 noSat NW DW QW N D).2 = true ↔ ¬ D ∣ N) := by
  simp only [divU3]
  rw [divU_eq hNW hN0 hN1 hD0 hD1]
  have h2 : 0 ≤ N % D := Int.emod_nonneg _ (ne_of_gt hD0)
  have h3 : N % D < 2 ^ DW := lt_trans (Int.emod_lt_of_pos _ hD0) hD1
  simp [Int.emod_eq_of_lt h2 h3, Int.dvd_iff_emod_eq_zero]

example : (divU3 false 8 4 8 200 8).1 = 200 / 8 % 2 ^ 8 ∧ ((divU3 false 8 4 8 200 8).2 = true ↔ ¬ (8 : ℤ) ∣ 200) :=
  C01_unsigned_div3 (by norm_num) (by norm_num) (by norm_num) (by norm_num) (by norm_num)

/-- **C02**, any output widths: quotient and remainder of C division (`Int.tdiv`, `Int.tmod`: truncation
toward zero), each reduced to its output type. -/
theorem C02_signed_div_any_width {noSat : Bool} {NW DW QW RW : ℕ} (hNW : 1 ≤ NW) (hDW : 1 ≤ DW)
    {N D : ℤ}
    (hN0 : -2 ^ (NW - 1) ≤ N) (hN1 : N < 2 ^ (NW - 1)) (hD0 : -2 ^ (DW - 1) ≤ D) (hD1 : D < 2 ^ (DW - 1))
    (hD : D ≠ 0) :
    let o := divS noSat NW DW QW RW N D
    o.quotient = wrap QW true (N.tdiv D) ∧ o.remainder = wrap RW true (N.tmod D) ∧
      (o.flag = true ↔ o.remainder ≠ 0) := by
  have eNW := two_pow_succ_pred hNW
  have eDW := two_pow_succ_pred hDW
  have hpN := two_pow_pos' (NW - 1)
  have hpD := two_pow_pos' (DW - 1)
  have uN : (if N < 0 then wrap NW false (-N) else wrap NW false N) = |N| := by
    split_ifs with h
    · rw [abs_of_neg h]; exact wrapU_of_lt (by linarith) (by linarith)
    · rw [abs_of_nonneg (by linarith)]; exact wrapU_of_lt (by linarith) (by linarith)
  have uD : (if D < 0 then wrap DW false (-D) else wrap DW false D) = |D| := by
    split_ifs with h
    · rw [abs_of_neg h]; exact wrapU_of_lt (by linarith) (by linarith)
    · rw [abs_of_nonneg (by linarith)]; exact wrapU_of_lt (by linarith) (by linarith)
  have aN : |N| ≤ 2 ^ (NW - 1) := abs_le.mpr ⟨hN0, hN1.le⟩
  have aD : |D| ≤ 2 ^ (DW - 1) := abs_le.mpr ⟨hD0, hD1.le⟩
  have aD0 : 0 < |D| := abs_pos.mpr hD
  simp only [divS, uN, uD]
  rw [divU_eq hNW (abs_nonneg N) (by linarith) aD0 (by linarith)]
  have hr0 : 0 ≤ |N| % |D| := Int.emod_nonneg _ (ne_of_gt aD0)
  have hr1 : |N| % |D| < |D| := Int.emod_lt_of_pos _ aD0
  have hrem : (if N < 0 then wrap DW true (-(|N| % |D| % 2 ^ DW)) else wrap DW true (|N| % |D| % 2 ^ DW)) = N.tmod D := by
    rw [Int.emod_eq_of_lt hr0 (by linarith)]
    have t : N.tmod D = N.tmod |D| := by
      rcases abs_choice D with h | h <;> rw [h]
      rw [Int.tmod_neg]
    rw [t]
    split_ifs with h
    · rw [wrapS_of_range hDW (by linarith) (by linarith), abs_of_neg h]
      conv_rhs => rw [← neg_neg N, Int.neg_tmod]
      rw [Int.tmod_eq_emod_of_nonneg (by linarith)]
    · rw [wrapS_of_range hDW (by linarith) (by linarith), abs_of_nonneg (by linarith),
        Int.tmod_eq_emod_of_nonneg (by linarith)]
  have hq : (if (N < 0) = (D < 0) then wrap QW true (|N| / |D| % 2 ^ QW)
      else wrap QW true (-(|N| / |D| % 2 ^ QW))) = wrap QW true (N.tdiv D) := by
    have key : N.tdiv D = if (N < 0) = (D < 0) then |N| / |D| else -(|N| / |D|) := by
      rw [← Int.tdiv_eq_ediv_of_nonneg (abs_nonneg N)]
      rcases lt_or_ge N 0 with h | h <;> rcases lt_or_ge D 0 with h' | h'
      · rw [abs_of_neg h, abs_of_neg h']; simp [h, h', Int.neg_tdiv, Int.tdiv_neg]
      · rw [abs_of_neg h, abs_of_nonneg h']; simp [h, not_lt.mpr h', Int.neg_tdiv]
      · rw [abs_of_nonneg h, abs_of_neg h']; simp [not_lt.mpr h, h', Int.tdiv_neg]
      · rw [abs_of_nonneg h, abs_of_nonneg h']; simp [not_lt.mpr h, not_lt.mpr h']
    rw [key]
    split_ifs with h
    · exact wrap_congr (Int.emod_emod_of_dvd _ (dvd_refl _))
    · exact wrap_congr (Int.ModEq.neg (Int.mod_modEq _ _))
  simp only [hrem, hq, hD, and_false, if_false, wrap_wrap]
  simp

example : let o := divS false 8 4 8 4 (-100) 7
    o.quotient = wrap 8 true ((-100 : ℤ).tdiv 7) ∧ o.remainder = wrap 4 true ((-100 : ℤ).tmod 7) ∧
      (o.flag = true ↔ o.remainder ≠ 0) :=
  C02_signed_div_any_width (by norm_num) (by norm_num) (by norm_num) (by norm_num) (by norm_num)
    (by norm_num) (by norm_num)

/-- **C02.** Signed `ac_div` with output types at least as wide as the operands, quotient in range. -/
theorem C02_signed_div {noSat : Bool} {NW DW QW RW : ℕ} (hNW : 1 ≤ NW) (hDW : 1 ≤ DW)
    (hQW : NW ≤ QW) (hRW : DW ≤ RW) {N D : ℤ}
    (hN0 : -2 ^ (NW - 1) ≤ N) (hN1 : N < 2 ^ (NW - 1)) (hD0 : -2 ^ (DW - 1) ≤ D) (hD1 : D < 2 ^ (DW - 1))
    (hD : D ≠ 0) (hovf : ¬ (N = -2 ^ (NW - 1) ∧ D = -1 ∧ QW = NW)) :
    let o := divS noSat NW DW QW RW N D
    o.quotient * D + o.remainder = N ∧ |o.remainder| < |D| ∧ 0 ≤ o.remainder * N ∧
      |o.quotient * D| ≤ |N| ∧ (o.flag = true ↔ o.remainder ≠ 0) := by
  obtain ⟨h1, h2, h3⟩ := C02_signed_div_any_width (noSat := noSat) (RW := RW) hNW hDW hN0 hN1 hD0 hD1 hD
  have hpN := two_pow_pos' (NW - 1)
  have hpQ : (2 : ℤ) ^ (NW - 1) ≤ 2 ^ (QW - 1) := pow_le_pow_right₀ (by norm_num) (by omega)
  have hpR : (2 : ℤ) ^ (DW - 1) ≤ 2 ^ (RW - 1) := pow_le_pow_right₀ (by norm_num) (by omega)
  have aD0 : 0 < |D| := abs_pos.mpr hD
  have aN : |N| ≤ 2 ^ (NW - 1) := abs_le.mpr ⟨hN0, hN1.le⟩
  have aD : |D| ≤ 2 ^ (DW - 1) := abs_le.mpr ⟨hD0, hD1.le⟩
  have hmodlt : |N.tmod D| < |D| := by
    have := Int.natAbs_tmod N D
    have h := Nat.mod_lt N.natAbs (Int.natAbs_pos.mpr hD)
    rw [← this] at h
    rw [Int.abs_eq_natAbs, Int.abs_eq_natAbs]; exact_mod_cast h
  have hmod : wrap RW true (N.tmod D) = N.tmod D := by
    have := abs_lt.mp hmodlt
    exact wrapS_of_range (by omega) (by linarith) (by linarith)
  have hmul := Int.mul_tdiv_add_tmod N D
  have hsgn : 0 ≤ N.tmod D * N := by
    rcases le_total 0 N with h | h
    · exact mul_nonneg (Int.tmod_nonneg _ h) h
    · have : 0 ≤ (-N).tmod D := Int.tmod_nonneg _ (by linarith)
      rw [Int.neg_tmod] at this
      exact mul_nonneg_of_nonpos_of_nonpos (by linarith) h
  have habsq : |N.tdiv D| = |N| / |D| := by
    rw [Int.abs_eq_natAbs, Int.natAbs_tdiv, Int.abs_eq_natAbs, Int.abs_eq_natAbs]; rfl
  have hle : |N.tdiv D * D| ≤ |N| := by
    rw [abs_mul, habsq]; exact Int.ediv_mul_le _ (ne_of_gt aD0)
  have hqle : |N.tdiv D| ≤ |N| := by
    rw [habsq]; exact Int.ediv_le_self _ (abs_nonneg N)
  have hq : wrap QW true (N.tdiv D) = N.tdiv D := by
    have h := abs_le.mp hqle
    refine wrapS_of_range (by omega) (by linarith) ?_
    rcases lt_or_eq_of_le (show N.tdiv D ≤ 2 ^ (QW - 1) by linarith) with h' | h'
    · exact h'
    · exfalso
      have e1 : |N| = 2 ^ (NW - 1) := by linarith
      have e2 : (2 : ℤ) ^ (NW - 1) = 2 ^ (QW - 1) := by linarith
      have e3 : NW - 1 = QW - 1 := Nat.pow_right_injective (le_refl 2) (by exact_mod_cast e2)
      have e4 : N = -2 ^ (NW - 1) := by
        rcases abs_choice N with hh | hh <;> linarith
      have hp : 0 < N.tdiv D := by rw [h']; exact two_pow_pos' _
      have e5 : |N.tdiv D| = |N| := by rw [abs_of_pos hp]; linarith
      have e6 : |D| ≤ 1 := by
        rw [abs_mul, e5] at hle
        have : 0 < |N| := by linarith
        nlinarith
      have : D = -1 := by
        have := abs_le.mp e6
        rcases (show D = -1 ∨ D = 1 by omega) with h | h
        · exact h
        · subst h; simp at hp; linarith
      exact hovf ⟨e4, this, by omega⟩
  rw [hmod] at h2
  rw [hq] at h1
  simp only at h1 h2 h3 ⊢
  rw [h1, h2] at *
  exact ⟨by linarith [mul_comm D (N.tdiv D)], hmodlt, hsgn, hle, h3⟩

example : let o := divS false 8 4 8 4 (-100) 7
    o.quotient * 7 + o.remainder = -100 ∧ |o.remainder| < |7| ∧ 0 ≤ o.remainder * (-100) ∧
      |o.quotient * 7| ≤ |(-100)| ∧ (o.flag = true ↔ o.remainder ≠ 0) :=
  C02_signed_div (by norm_num) (by norm_num) (by norm_num) (by norm_num) (by norm_num) (by norm_num) (by norm_num)
    (by norm_num) (by norm_num) (by norm_num)

/-- **C02**, the one overflowing case: the most negative dividend divided by -1 wraps to itself in a quotient of
the same width. -/
theorem C02_signed_div_overflow {noSat : Bool} {NW DW RW : ℕ} (hNW : 1 ≤ NW) (hDW : 1 ≤ DW) :
    (divS noSat NW DW NW RW (-2 ^ (NW - 1)) (-1)).quotient = -2 ^ (NW - 1) := by
  have hpN := two_pow_pos' (NW - 1)
  have hpD := two_pow_pos' (DW - 1)
  have e := two_pow_succ_pred hNW
  obtain ⟨h1, -, -⟩ := C02_signed_div_any_width (noSat := noSat) (NW := NW) (DW := DW) (QW := NW) (RW := RW)
    hNW hDW (N := -2 ^ (NW - 1)) (D := -1)
    (le_refl _) (by linarith) (by linarith) (by linarith) (by norm_num)
  rw [h1]
  have : ((-2 ^ (NW - 1) : ℤ)).tdiv (-1) = 2 ^ (NW - 1) := by simp [Int.tdiv_neg]
  rw [this, wrap_true, show (2 : ℤ) ^ (NW - 1) + 2 ^ (NW - 1) = 2 ^ NW by linarith]
  simp

example : (divS false 8 4 8 4 (-128) (-1)).quotient = -128 := by decide

/-- **C02**, three-argument version. -/
theorem C02_signed_div3 {noSat : Bool} {NW DW QW : ℕ} (hNW : 1 ≤ NW) (hDW : 1 ≤ DW)
    {N D : ℤ}
    (hN0 : -2 ^ (NW - 1) ≤ N) (hN1 : N < 2 ^ (NW - 1)) (hD0 : -2 ^ (DW - 1) ≤ D) (hD1 : D < 2 ^ (DW - 1))
    (hD : D ≠ 0) :
    (divS3 noSat NW DW QW N D).1 = wrap QW true (N.tdiv D) ∧
      ((divS3 noSat NW DW QW N D).2 = true ↔ ¬ D ∣ N) := by
  obtain ⟨h1, h2, h3⟩ := C02_signed_div_any_width (noSat := noSat) (RW := DW) hNW hDW hN0 hN1 hD0 hD1 hD
  refine ⟨h1, ?_⟩
  simp only [divS3]
  rw [h2]
  have hmodlt : |N.tmod D| < |D| := by
    have := Int.natAbs_tmod N D
    have h := Nat.mod_lt N.natAbs (Int.natAbs_pos.mpr hD)
    rw [← this] at h
    rw [Int.abs_eq_natAbs, Int.abs_eq_natAbs]; exact_mod_cast h
  have aD : |D| ≤ 2 ^ (DW - 1) := abs_le.mpr ⟨hD0, hD1.le⟩
  have := abs_lt.mp hmodlt
  rw [wrapS_of_range hDW (by linarith) (by linarith)]
  simp [Int.dvd_iff_tmod_eq_zero]

example : (divS3 false 8 4 8 (-100) 7).1 = wrap 8 true ((-100 : ℤ).tdiv 7) ∧
      ((divS3 false 8 4 8 (-100) 7).2 = true ↔ ¬ (7 : ℤ) ∣ -100) :=
  C02_signed_div3 (by norm_num) (by norm_num) (by norm_num) (by norm_num) (by norm_num)
    (by norm_num) (by norm_num)

/-- **C03**, unsigned: dividing by zero gives the largest quotient. -/
theorem C03_div_by_zero_unsigned (NW DW QW RW : ℕ) (N : ℤ) :
    (divU false NW DW QW RW N 0).quotient = 2 ^ QW - 1 := by
  have := two_pow_pos' QW
  simp only [divU]
  simp [maxRaw]
  exact wrapU_of_lt (by linarith) (by linarith)

/-- **C03**, signed: dividing by zero gives the largest quotient for a non-negative dividend and the smallest
one for a negative dividend. -/
theorem C03_div_by_zero_signed {QW : ℕ} (hQW : 1 ≤ QW) (NW DW RW : ℕ) (N : ℤ) :
    (0 ≤ N → (divS false NW DW QW RW N 0).quotient = 2 ^ (QW - 1) - 1) ∧
    (N < 0 → (divS false NW DW QW RW N 0).quotient = -2 ^ (QW - 1)) := by
  have := two_pow_pos' (QW - 1)
  constructor
  · intro h
    simp only [divS]
    simp [not_lt.mpr h, maxRaw]
    exact wrapS_of_range hQW (by linarith) (by linarith)
  · intro h
    simp only [divS]
    simp [h, minRaw]
    exact wrapS_of_range hQW (by linarith) (by linarith)

example : (divS false 8 4 6 4 (-5) 0).quotient = -32 ∧ (divS false 8 4 6 4 5 0).quotient = 31 := by decide

end Props.DivInt
