import Verif.Model.FlfxMul
import Verif.Spec.Flt
import Verif.Proof.Bits
import Verif.Proof.AddTree
import Mathlib.Tactic.IntervalCases
import Mathlib.Tactic.Linarith

/-! # Lemmas about ac_flfx_mul -/

namespace Proof.FlfxMul
open Ac Model.Bits Model.AddTree Model.FlfxMul

/-- Two's complement word with differing top bits. -/
def Nrm (W : ℕ) (n : ℤ) : Prop := (2 ^ W ≤ 4 * n ∧ 2 * n < 2 ^ W) ∨ (-2 ^ W ≤ 2 * n ∧ 4 * n < -2 ^ W)

theorem lsignU_spec {W : ℕ} {x : ℕ} (h : x < 2 ^ W) (h0 : x ≠ 0) :
    2 ^ W ≤ 2 * (x * 2 ^ leadingSignU W x) ∧ x * 2 ^ leadingSignU W x < 2 ^ W ∧ leadingSignU W x + 1 ≤ W := by
  unfold leadingSignU
  rw [if_neg h0]
  have hl : Nat.log2 x < W := (Nat.log2_lt h0).2 h
  have h1 := Nat.log2_self_le h0
  have h2 := Nat.lt_log2_self (n := x)
  have e : 2 ^ W = 2 ^ (Nat.log2 x + 1) * 2 ^ (W - 1 - Nat.log2 x) := by rw [← pow_add]; congr 1; omega
  have e2 : 2 ^ (Nat.log2 x + 1) = 2 * 2 ^ Nat.log2 x := by ring
  set L := 2 ^ (W - 1 - Nat.log2 x)
  have hL : 0 < L := by positivity
  refine ⟨?_, ?_, by omega⟩
  · rw [e, e2, mul_assoc]
    exact Nat.mul_le_mul_left 2 (Nat.mul_le_mul_right L h1)
  · rw [e]; exact Nat.mul_lt_mul_of_pos_right h2 hL

theorem lsign_true_spec {W : ℕ} (hW : 1 ≤ W) {x : ℤ} (h0 : -2 ^ (W - 1) ≤ x) (h1 : x < 2 ^ (W - 1)) (hx : x ≠ 0) :
    Nrm W (x * 2 ^ lsign W true x) ∧ lsign W true x + 1 ≤ W := by
  have hp : (2 : ℤ) ^ W = 2 * 2 ^ (W - 1) := two_pow_succ_pred hW
  unfold lsign
  rw [if_pos rfl]
  unfold Nrm
  rw [hp]
  rcases lt_or_ge x 0 with hneg | hpos
  · rw [if_pos hneg]
    obtain ⟨y, hy⟩ := Int.eq_ofNat_of_zero_le (show 0 ≤ -x - 1 by omega)
    have hyt : (-x - 1).toNat = y := by omega
    rw [hyt]
    have hlt : y < 2 ^ (W - 1) := by zify; omega
    rcases Nat.eq_zero_or_pos y with hy0 | hy0
    · subst hy0
      have hx1 : x = -1 := by omega
      have : leadingSignU (W - 1) 0 = W - 1 := by simp [leadingSignU]
      rw [this, hx1]
      have : (0 : ℤ) < 2 ^ (W - 1) := by positivity
      exact ⟨Or.inr ⟨by linarith, by linarith⟩, by omega⟩
    · obtain ⟨g1, g2, g3⟩ := lsignU_spec hlt (by omega)
      set l := leadingSignU (W - 1) y with hl
      have e : (2 : ℕ) ^ (W - 1) = 2 ^ (W - 1 - l) * 2 ^ l := by rw [← pow_add]; congr 1; omega
      have hxy : x = -(y + 1 : ℤ) := by omega
      have hL : (0 : ℤ) < 2 ^ l := by positivity
      have g4 : (y + 1) * 2 ^ l ≤ 2 ^ (W - 1) := by
        rw [e] at g2 ⊢
        have := Nat.lt_of_mul_lt_mul_right g2
        exact Nat.mul_le_mul_right _ this
      zify at g1 g2 g4
      refine ⟨Or.inr ⟨?_, ?_⟩, by omega⟩
      · rw [hxy]; linarith
      · rw [hxy]; linarith
  · rw [if_neg (by omega)]
    obtain ⟨y, rfl⟩ := Int.eq_ofNat_of_zero_le hpos
    rw [Int.toNat_natCast]
    have hlt : y < 2 ^ (W - 1) := by zify; omega
    obtain ⟨g1, g2, g3⟩ := lsignU_spec hlt (by omega)
    zify at g1 g2
    exact ⟨Or.inl ⟨by linarith, by linarith⟩, by omega⟩

theorem isNorm_iff {W : ℕ} (hW : 2 ≤ W) {m : ℤ} (h0 : -2 ^ (W - 1) ≤ m) (h1 : m < 2 ^ (W - 1)) :
    isNorm W m = true ↔ Nrm W m := by
  unfold isNorm
  rw [decide_eq_true_eq]
  have hp : (2 : ℤ) ^ W = 2 * 2 ^ (W - 1) := two_pow_succ_pred (by omega)
  by_cases hm : m = 0
  · subst hm
    have : lsign W true 0 = W - 1 := by simp [lsign, leadingSignU]
    rw [this]
    constructor
    · intro h; omega
    · have : (0 : ℤ) < 2 ^ W := by positivity
      unfold Nrm; intro h; rcases h with h | h <;> omega
  · obtain ⟨h, -⟩ := lsign_true_spec (by omega : 1 ≤ W) h0 h1 hm
    constructor
    · intro hl; rw [hl] at h; simpa using h
    · intro hn
      by_contra hl
      have h2 : (2 : ℤ) ≤ 2 ^ lsign W true m := by
        calc (2 : ℤ) = 2 ^ 1 := by norm_num
          _ ≤ 2 ^ lsign W true m := pow_le_pow_right₀ (by norm_num) (by omega)
      have hP : (0 : ℤ) < 2 ^ W := by positivity
      unfold Nrm at h hn
      rcases hn with hn | hn
      · have : m * 2 ≤ m * 2 ^ lsign W true m := mul_le_mul_of_nonneg_left h2 (by omega)
        rcases h with h | h <;> omega
      · have : m * 2 ^ lsign W true m ≤ m * 2 := mul_le_mul_of_nonpos_left h2 (by omega)
        rcases h with h | h <;> omega

open Spec.Flt

/-- Value of an output float. -/
def value (W : ℕ) (I : ℤ) (x : Flt) : ℚ := x.m * 2 ^ (I - W) * 2 ^ x.e

theorem zp (n : ℕ) : ((2 : ℤ) ^ n : ℤ) = ((2 : ℚ) ^ (n : ℤ)) := by push_cast; rfl

/-- Range of the truncated mantissa. -/
theorem om_nrm {mW oW : ℕ} (ho : 2 ≤ oW) {n : ℤ} (hn : Nrm mW n) :
    Nrm oW ⌊(n : ℚ) * 2 ^ ((oW : ℤ) - mW)⌋ := by
  have hz : (0 : ℚ) < 2 ^ ((oW : ℤ) - mW) := Fmt.z_pos _
  have e : ((2 : ℚ) ^ (mW : ℤ)) * 2 ^ ((oW : ℤ) - mW) = 2 ^ (oW : ℤ) := by rw [Fmt.z_add]; congr 1; ring
  have hq : (2 : ℤ) ^ oW = 4 * 2 ^ (oW - 2) := by
    conv_lhs => rw [show oW = (oW - 2) + 2 by omega, pow_add]
    ring
  have hq' : (2 : ℚ) ^ (oW : ℤ) = 4 * ((2 ^ (oW - 2) : ℤ) : ℚ) := by rw [← zp, hq]; push_cast; ring
  unfold Nrm at hn ⊢
  rw [hq]
  set K : ℤ := 2 ^ (oW - 2)
  rcases hn with ⟨h1, h2⟩ | ⟨h1, h2⟩
  · left
    have h1' : ((2 : ℚ) ^ (mW : ℤ)) ≤ 4 * n := by rw [← zp]; exact_mod_cast h1
    have h2' : 2 * (n : ℚ) < (2 : ℚ) ^ (mW : ℤ) := by rw [← zp]; exact_mod_cast h2
    have a1 := mul_le_mul_of_nonneg_right h1' hz.le
    have a2 := mul_lt_mul_of_pos_right h2' hz
    rw [e, hq'] at a1 a2
    constructor
    · have : K ≤ ⌊(n : ℚ) * 2 ^ ((oW : ℤ) - mW)⌋ := by rw [Int.le_floor]; linarith
      linarith
    · have : ⌊(n : ℚ) * 2 ^ ((oW : ℤ) - mW)⌋ < 2 * K := by rw [Int.floor_lt]; push_cast; linarith
      linarith
  · right
    have h1' : -((2 : ℚ) ^ (mW : ℤ)) ≤ 2 * n := by rw [← zp]; exact_mod_cast h1
    have h2' : 4 * (n : ℚ) < -(2 : ℚ) ^ (mW : ℤ) := by rw [← zp]; exact_mod_cast h2
    have a1 := mul_le_mul_of_nonneg_right h1' hz.le
    have a2 := mul_lt_mul_of_pos_right h2' hz
    rw [neg_mul, e, hq'] at a1 a2
    constructor
    · have : -(2 * K) ≤ ⌊(n : ℚ) * 2 ^ ((oW : ℤ) - mW)⌋ := by rw [Int.le_floor]; push_cast; linarith
      linarith
    · have : ⌊(n : ℚ) * 2 ^ ((oW : ℤ) - mW)⌋ < -K := by rw [Int.floor_lt]; push_cast; linarith
      linarith

theorem om_eq {mW oW : ℕ} {oI : ℤ} (ho : 2 ≤ oW) {n : ℤ} (hn : Nrm mW n ∨ n = 0) :
    (⟨oW, oI, true, .TRN, .WRAP⟩ : Fmt).cvtRaw ((⟨mW, oI, true, .TRN, .WRAP⟩ : Fmt).val n) =
      ⌊(n : ℚ) * 2 ^ ((oW : ℤ) - mW)⌋ := by
  have e : (⟨mW, oI, true, .TRN, .WRAP⟩ : Fmt).val n * 2 ^ (⟨oW, oI, true, .TRN, .WRAP⟩ : Fmt).F =
      (n : ℚ) * 2 ^ ((oW : ℤ) - mW) := by
    unfold Fmt.val Fmt.F
    simp only
    rw [mul_assoc, Fmt.z_add]; congr 2; ring
  unfold Fmt.cvtRaw
  rw [e]
  simp only [ovf, quant]
  have hp : (2 : ℤ) ^ oW = 2 * 2 ^ (oW - 1) := two_pow_succ_pred (by omega)
  rcases hn with hn | rfl
  · have := om_nrm ho hn
    unfold Nrm at this
    have hK : (0 : ℤ) < 2 ^ (oW - 1) := by positivity
    apply wrapS_of_range (by omega)
    · rcases this with h | h <;> linarith
    · rcases this with h | h <;> linarith
  · have hK : (0 : ℤ) < 2 ^ (oW - 1) := by positivity
    simp only [Int.cast_zero, zero_mul, Int.floor_zero]
    exact wrapS_of_range (by omega) (by linarith) hK

theorem finalMant_mid {p : Par} (ho : 2 ≤ p.oW) {subn : Bool} {t m : ℤ} (h1 : p.minEo ≤ t) (h2 : t ≤ p.maxEo)
    (hm0 : -2 ^ (p.oW - 1) ≤ m) (hm1 : m < 2 ^ (p.oW - 1)) : p.finalMant subn true t m = m := by
  unfold Par.finalMant
  have hp : (0 : ℤ) < 2 ^ (p.oW - 1) := by positivity
  have d1 : decide (t > p.maxEo) = false := decide_eq_false (by omega)
  have d2 : decide (t < p.minEo) = false := decide_eq_false (by omega)
  simp only [d1, d2, Bool.and_false, Bool.or_false, Bool.not_false, Bool.not_true, Bool.and_true, if_false, ite_self,
    Bool.false_eq_true]
  set K : ℤ := 2 ^ (p.oW - 1)
  rcases lt_or_ge m 0 with h | h
  · rw [decide_eq_true h, if_pos rfl]
    have : m % K = m + K := by
      rw [← Int.add_emod_right, Int.emod_eq_of_lt (by omega) (by omega)]
    omega
  · rw [decide_eq_false (by omega), if_neg (by simp), Int.emod_eq_of_lt h hm1]; omega

theorem finalMant_gt {p : Par} {subn nrm : Bool} {t m : ℤ} (h2 : p.maxEo < t) (hnr : subn = true ∨ nrm = true) :
    p.finalMant subn nrm t m = if m < 0 then -2 ^ (p.oW - 1) else 2 ^ (p.oW - 1) - 1 := by
  unfold Par.finalMant
  have hE : p.minEo < p.maxEo + 1 := by
    unfold Par.minEo Par.maxEo
    have : (0 : ℤ) < 2 ^ (p.oE - 1) := by positivity
    omega
  have d1 : decide (t > p.maxEo) = true := decide_eq_true h2
  have d2 : decide (t < p.minEo) = false := decide_eq_false (by omega)
  rcases lt_or_ge m 0 with h | h
  · have d3 : decide (m < 0) = true := decide_eq_true h
    rcases hnr with rfl | rfl
    · simp [d1, d2, d3, h]
    · cases subn <;> simp [d1, d2, d3, h]
  · have d3 : decide (m < 0) = false := decide_eq_false (by omega)
    rcases hnr with rfl | rfl
    · simp [d1, d2, d3, not_lt.2 h]
    · cases subn <;> simp [d1, d2, d3, not_lt.2 h]

theorem finalMant_lt_subn {p : Par} (ho : 2 ≤ p.oW) {nrm : Bool} {t m : ℤ} (h1 : t < p.minEo)
    (hm0 : -2 ^ (p.oW - 1) ≤ m) (hm1 : m < 2 ^ (p.oW - 1)) :
    p.finalMant true nrm t m = m / 2 ^ (p.minEo - t).toNat := by
  unfold Par.finalMant
  have hE : p.minEo < p.maxEo + 1 := by
    unfold Par.minEo Par.maxEo
    have : (0 : ℤ) < 2 ^ (p.oE - 1) := by positivity
    omega
  have d1 : decide (t > p.maxEo) = false := decide_eq_false (by omega)
  have d2 : decide (t < p.minEo) = true := decide_eq_true h1
  simp only [d1, d2, Bool.and_false, Bool.or_false, Bool.not_false, Bool.not_true, Bool.and_true, if_false, ite_self,
    Bool.false_eq_true, if_true, reduceIte]
  have hK : (0 : ℤ) < 2 ^ (p.oW - 1) := by positivity
  set K : ℤ := 2 ^ (p.oW - 1) with hKd
  have hmm : (if decide (m < 0) = true then -K else 0) + m % K = m := by
    rcases lt_or_ge m 0 with h | h
    · rw [decide_eq_true h, if_pos rfl]
      have : m % K = m + K := by
        rw [← Int.add_emod_right, Int.emod_eq_of_lt (by omega) (by omega)]
      omega
    · rw [decide_eq_false (by omega), if_neg (by simp), Int.emod_eq_of_lt h hm1]; omega
  rw [hmm]
  have hD : (1 : ℤ) ≤ 2 ^ (p.minEo - t).toNat := one_le_pow₀ (by norm_num)
  set D : ℤ := 2 ^ (p.minEo - t).toNat
  apply wrapS_of_range (by omega)
  · rw [← hKd, Int.le_ediv_iff_mul_le (by omega)]
    have : K * 1 ≤ K * D := mul_le_mul_of_nonneg_left hD hK.le
    linarith
  · rw [← hKd, Int.ediv_lt_iff_lt_mul (by omega)]
    have : K * 1 ≤ K * D := mul_le_mul_of_nonneg_left hD hK.le
    linarith

/-- The saturated exponent. -/
def clampE (p : Par) (t : ℤ) : ℤ := if t > p.maxEo then p.maxEo else if t < p.minEo then p.minEo else t

theorem clampE_range (p : Par) (t : ℤ) : -2 ^ (p.oE - 1) ≤ clampE p t ∧ clampE p t < 2 ^ (p.oE - 1) := by
  have : (0 : ℤ) < 2 ^ (p.oE - 1) := by positivity
  unfold clampE Par.maxEo Par.minEo
  split_ifs <;> constructor <;> omega

/-- Rounding down to the grid of the exponent `max t minE` is rounding down to the float format. -/
theorem isFloor_of_floor {p : Par} (ho : 2 ≤ p.oW) {t : ℤ} {x : ℚ} {m : ℤ} (ht : t ≤ p.maxEo)
    (hx : (2 ^ (p.oI + t) ≤ 4 * x ∧ 2 * x < 2 ^ (p.oI + t)) ∨ (-2 ^ (p.oI + t) ≤ 2 * x ∧ 4 * x < -2 ^ (p.oI + t)))
    (hm : m = ⌊x * 2 ^ ((p.oW : ℤ) - p.oI - clampE p t)⌋) :
    IsFloor p.oW p.oI p.oE x (value p.oW p.oI ⟨m, clampE p t⟩) := by
  have hc := clampE_range p t
  have hct : t ≤ clampE p t := by unfold clampE; split_ifs <;> omega
  set c := clampE p t with hcd
  have hu : (0 : ℚ) < 2 ^ (p.oI - p.oW + c) := Fmt.z_pos _
  have hi : (2 : ℚ) ^ ((p.oW : ℤ) - p.oI - c) * 2 ^ (p.oI - p.oW + c) = 1 := by
    rw [Fmt.z_add, show (p.oW : ℤ) - p.oI - c + (p.oI - p.oW + c) = 0 by ring, zpow_zero]
  have hv : value p.oW p.oI ⟨m, c⟩ = m * 2 ^ (p.oI - p.oW + c) := by
    unfold value; simp only; rw [mul_assoc, Fmt.z_add]
  set u : ℚ := 2 ^ (p.oI - p.oW + c) with hud
  set y : ℚ := x * 2 ^ ((p.oW : ℤ) - p.oI - c) with hyd
  have hxy : x = y * u := by rw [hyd, mul_assoc, hi, mul_one]
  have hle : (m : ℚ) ≤ y := by rw [hm]; exact Int.floor_le _
  have hlt : y < m + 1 := by rw [hm]; exact Int.lt_floor_add_one _
  -- bound of the normalized range in units of u
  have hpow : (2 : ℚ) ^ (p.oI + t) ≤ 2 ^ (p.oW : ℤ) * u := by
    rw [hud, Fmt.z_add]; exact Fmt.z_le (by omega)
  have hpw : (2 : ℚ) ^ (p.oW : ℤ) = 2 * ((2 ^ (p.oW - 1) : ℤ) : ℚ) := by
    rw [← zp, two_pow_succ_pred (by omega : 1 ≤ p.oW)]; push_cast; ring
  set K : ℤ := 2 ^ (p.oW - 1) with hK
  have hK0 : 0 < K := by rw [hK]; positivity
  have ybd : -(K : ℚ) ≤ y ∧ y < K := by
    rw [hpw, mul_assoc] at hpow
    have hKu : 0 < (K : ℚ) * u := mul_pos (by exact_mod_cast hK0) hu
    have h1 : -((K : ℚ) * u) ≤ x ∧ x < K * u := by
      have := Fmt.z_pos (p.oI + t)
      rcases hx with ⟨a, b⟩ | ⟨a, b⟩ <;> constructor <;> linarith
    rw [hxy] at h1
    constructor
    · have := h1.1
      rw [← neg_mul] at this
      exact le_of_mul_le_mul_right this hu
    · exact lt_of_mul_lt_mul_right h1.2 hu.le
  have hm0 : -K ≤ m := by rw [hm, Int.le_floor]; push_cast; exact ybd.1
  have hm1 : m < K := by rw [hm, Int.floor_lt]; exact ybd.2
  refine ⟨⟨m, c, hm0, hm1, hc.1, hc.2, rfl⟩, Or.inl ⟨?_, ?_⟩⟩
  · rw [hv, hxy]; exact mul_le_mul_of_nonneg_right hle hu.le
  · rintro w ⟨k, e, hk0, hk1, he0, he1, rfl⟩ hwx
    rw [hv]
    rw [mul_assoc, Fmt.z_add] at hwx ⊢
    rcases le_or_gt c e with hce | hce
    · have e1 : (2 : ℚ) ^ (p.oI - p.oW + e) = 2 ^ ((e - c).toNat) * u := by
        rw [hud, ← zpow_natCast, Fmt.z_add]; congr 1; omega
      rw [e1, ← mul_assoc] at hwx ⊢
      apply mul_le_mul_of_nonneg_right _ hu.le
      rw [hxy] at hwx
      have h1 := le_of_mul_le_mul_right hwx hu
      have h2 : k * 2 ^ ((e - c).toNat) ≤ m := by
        rw [hm, Int.le_floor]; push_cast; exact h1
      exact_mod_cast h2
    · -- finer grid: only below the normalized range
      have hct' : c = t := by
        have : c ≠ p.minEo := by unfold Par.minEo; omega
        rw [hcd] at this ⊢
        unfold clampE at this ⊢
        split_ifs at this ⊢ <;> omega
      have e1 : (2 : ℚ) ^ (p.oI - p.oW + e) * 2 ≤ u := by
        rw [hud, mul_comm, ← Fmt.z_succ]; exact Fmt.z_le (by omega)
      have hz := Fmt.z_pos (p.oI - p.oW + e)
      have hKq : (0 : ℚ) < K := by exact_mod_cast hK0
      have hpe : (2 : ℚ) ^ (p.oI + t) = 2 * K * u := by
        rw [← hpw, hud, Fmt.z_add]; congr 1; omega
      rw [hpe] at hx
      have hKs : (K : ℚ) * 2 ^ (p.oI - p.oW + e) * 2 ≤ K * u := by
        rw [mul_assoc]; exact mul_le_mul_of_nonneg_left e1 hKq.le
      rcases hx with ⟨a, b⟩ | ⟨a, b⟩
      · have h3 : (k : ℚ) * 2 ^ (p.oI - p.oW + e) ≤ K * 2 ^ (p.oI - p.oW + e) :=
          mul_le_mul_of_nonneg_right (by exact_mod_cast hk1.le) hz.le
        have h4 : (K : ℚ) ≤ 2 * y := by
          rw [hxy] at a
          have : (K : ℚ) * u ≤ 2 * y * u := by linarith
          exact le_of_mul_le_mul_right this hu
        -- m ≥ K/2
        have hKe : ∃ J : ℤ, K = 2 * J := ⟨2 ^ (p.oW - 2), by
          rw [hK, show p.oW - 1 = (p.oW - 2) + 1 by omega, pow_succ]; ring⟩
        obtain ⟨J, hJ⟩ := hKe
        have h5 : J ≤ m := by
          rw [hm, Int.le_floor]
          rw [hJ] at h4; push_cast at h4; linarith
        have h6 : (K : ℚ) ≤ 2 * m := by rw [hJ]; push_cast; have : (J : ℚ) ≤ m := by exact_mod_cast h5
                                        linarith
        have h7 : (K : ℚ) * u ≤ 2 * m * u := mul_le_mul_of_nonneg_right h6 hu.le
        linarith
      · exfalso
        have h3 : -(K : ℚ) * 2 ^ (p.oI - p.oW + e) ≤ k * 2 ^ (p.oI - p.oW + e) :=
          mul_le_mul_of_nonneg_right (by exact_mod_cast hk0) hz.le
        linarith

theorem value_max_ge {p : Par} (ho : 2 ≤ p.oW) {w : ℚ} (hw : Rep p.oW p.oI p.oE w) :
    w ≤ value p.oW p.oI ⟨2 ^ (p.oW - 1) - 1, p.maxEo⟩ ∧ value p.oW p.oI ⟨-2 ^ (p.oW - 1), p.maxEo⟩ ≤ w := by
  obtain ⟨k, e, hk0, hk1, he0, he1, rfl⟩ := hw
  unfold value
  simp only
  have hK0 : (0 : ℤ) < 2 ^ (p.oW - 1) := by positivity
  set K : ℤ := 2 ^ (p.oW - 1)
  have hee : (2 : ℚ) ^ e ≤ 2 ^ p.maxEo := Fmt.z_le (by unfold Par.maxEo; omega)
  have hz := Fmt.z_pos (p.oI - p.oW)
  have hze := Fmt.z_pos e
  have hK1 : (1 : ℚ) ≤ K := by exact_mod_cast hK0
  constructor
  · have h1 : (k : ℚ) * 2 ^ (p.oI - p.oW) ≤ ((K - 1 : ℤ) : ℚ) * 2 ^ (p.oI - p.oW) :=
      mul_le_mul_of_nonneg_right (by exact_mod_cast (by omega : k ≤ K - 1)) hz.le
    calc (k : ℚ) * 2 ^ (p.oI - p.oW) * 2 ^ e ≤ ((K - 1 : ℤ) : ℚ) * 2 ^ (p.oI - p.oW) * 2 ^ e :=
          mul_le_mul_of_nonneg_right h1 hze.le
      _ ≤ ((K - 1 : ℤ) : ℚ) * 2 ^ (p.oI - p.oW) * 2 ^ p.maxEo :=
          mul_le_mul_of_nonneg_left hee (mul_nonneg (by push_cast; linarith) hz.le)
  · have h1 : ((-K : ℤ) : ℚ) * 2 ^ (p.oI - p.oW) ≤ (k : ℚ) * 2 ^ (p.oI - p.oW) :=
      mul_le_mul_of_nonneg_right (by exact_mod_cast hk0) hz.le
    calc ((-K : ℤ) : ℚ) * 2 ^ (p.oI - p.oW) * 2 ^ p.maxEo ≤ ((-K : ℤ) : ℚ) * 2 ^ (p.oI - p.oW) * 2 ^ e := by
          apply mul_le_mul_of_nonpos_left hee
          push_cast
          have : 0 ≤ (K : ℚ) * 2 ^ (p.oI - p.oW) := by positivity
          linarith
      _ ≤ (k : ℚ) * 2 ^ (p.oI - p.oW) * 2 ^ e := mul_le_mul_of_nonneg_right h1 hze.le

theorem nrm_range {W : ℕ} (hW : 1 ≤ W) {n : ℤ} (h : Nrm W n) : -2 ^ (W - 1) ≤ n ∧ n < 2 ^ (W - 1) := by
  have hp : (2 : ℤ) ^ W = 2 * 2 ^ (W - 1) := two_pow_succ_pred hW
  have hK : (0 : ℤ) < 2 ^ (W - 1) := by positivity
  unfold Nrm at h
  rw [hp] at h
  rcases h with h | h <;> constructor <;> linarith

theorem nrm_scale {p : Par} {mW : ℕ} {n t : ℤ} (hn : Nrm mW n) :
    let x : ℚ := n * 2 ^ (-(mW : ℤ)) * 2 ^ (p.oI + t)
    (2 ^ (p.oI + t) ≤ 4 * x ∧ 2 * x < 2 ^ (p.oI + t)) ∨ (-2 ^ (p.oI + t) ≤ 2 * x ∧ 4 * x < -2 ^ (p.oI + t)) := by
  simp only
  have hz : (0 : ℚ) < 2 ^ (p.oI + t) := Fmt.z_pos _
  have hw : (0 : ℚ) < 2 ^ (-(mW : ℤ)) := Fmt.z_pos _
  have e : (2 : ℚ) ^ (mW : ℤ) * 2 ^ (-(mW : ℤ)) = 1 := by rw [Fmt.z_add, add_neg_cancel, zpow_zero]
  set Z : ℚ := 2 ^ (p.oI + t)
  set V : ℚ := 2 ^ (-(mW : ℤ))
  have hVZ : 0 < V * Z := mul_pos hw hz
  have e2 : (2 : ℚ) ^ (mW : ℤ) * (V * Z) = Z := by rw [← mul_assoc, e, one_mul]
  unfold Nrm at hn
  rcases hn with ⟨h1, h2⟩ | ⟨h1, h2⟩
  · left
    have h1' : ((2 : ℚ) ^ (mW : ℤ)) ≤ 4 * n := by rw [← zp]; exact_mod_cast h1
    have h2' : 2 * (n : ℚ) < (2 : ℚ) ^ (mW : ℤ) := by rw [← zp]; exact_mod_cast h2
    have a1 := mul_le_mul_of_nonneg_right h1' hVZ.le
    have a2 := mul_lt_mul_of_pos_right h2' hVZ
    rw [e2] at a1 a2
    constructor <;> linarith
  · right
    have h1' : -((2 : ℚ) ^ (mW : ℤ)) ≤ 2 * n := by rw [← zp]; exact_mod_cast h1
    have h2' : 4 * (n : ℚ) < -(2 : ℚ) ^ (mW : ℤ) := by rw [← zp]; exact_mod_cast h2
    have a1 := mul_le_mul_of_nonneg_right h1' hVZ.le
    have a2 := mul_lt_mul_of_pos_right h2' hVZ
    rw [neg_mul, e2] at a1 a2
    constructor <;> linarith

/-- From the normalized product to the output. -/
theorem finish {p : Par} (ho : 2 ≤ p.oW) {mW : ℕ} {n t : ℤ} (hn : Nrm mW n) {subn nrm : Bool}
    (hs : subn = true ∨ (nrm = true ∧ p.minEo ≤ t)) :
    IsFloor p.oW p.oI p.oE (n * 2 ^ (-(mW : ℤ)) * 2 ^ (p.oI + t))
      (value p.oW p.oI ⟨p.finalMant subn nrm t ⌊(n : ℚ) * 2 ^ ((p.oW : ℤ) - mW)⌋, clampE p t⟩) := by
  have hom := om_nrm ho hn
  have hor := nrm_range (by omega) hom
  have hsc := nrm_scale (p := p) (t := t) hn
  simp only at hsc
  set om := ⌊(n : ℚ) * 2 ^ ((p.oW : ℤ) - mW)⌋ with homd
  have hEE : p.minEo < p.maxEo + 1 := by
    unfold Par.minEo Par.maxEo
    have : (0 : ℤ) < 2 ^ (p.oE - 1) := by positivity
    omega
  rcases lt_or_ge p.maxEo t with hgt | hle
  · -- saturation
    have hc : clampE p t = p.maxEo := by unfold clampE; rw [if_pos hgt]
    rw [hc, finalMant_gt hgt (by rcases hs with h | h; exact Or.inl h; exact Or.inr h.1)]
    have hpw : (2 : ℚ) ^ (p.oW : ℤ) = 2 * ((2 ^ (p.oW - 1) : ℤ) : ℚ) := by
      rw [← zp, two_pow_succ_pred (by omega : 1 ≤ p.oW)]; push_cast; ring
    have hu : (0 : ℚ) < 2 ^ (p.oI - p.oW) * 2 ^ p.maxEo := mul_pos (Fmt.z_pos _) (Fmt.z_pos _)
    have hbig : 2 * ((2 ^ (p.oW - 1) : ℤ) : ℚ) * (2 ^ (p.oI - p.oW) * 2 ^ p.maxEo) * 2 ≤ 2 ^ (p.oI + t) := by
      rw [← hpw, Fmt.z_add, Fmt.z_add, mul_comm, ← Fmt.z_succ]
      exact Fmt.z_le (by omega)
    have hmE0 : -2 ^ (p.oE - 1) ≤ p.maxEo := by have := hEE; unfold Par.minEo at this; omega
    have hmE1 : p.maxEo < 2 ^ (p.oE - 1) := by unfold Par.maxEo; omega
    have hK0 : (0 : ℤ) < 2 ^ (p.oW - 1) := by positivity
    have hvm := fun w hw => value_max_ge ho (w := w) hw
    set K : ℤ := 2 ^ (p.oW - 1) with hK
    set U : ℚ := 2 ^ (p.oI - p.oW) * 2 ^ p.maxEo with hU
    rcases hsc with ⟨a, b⟩ | ⟨a, b⟩
    · have hnn : ¬ om < 0 := by
        have h0 : (0 : ℚ) < 2 ^ (p.oI + t) := Fmt.z_pos _
        have hx0 : (0 : ℚ) < n * 2 ^ (-(mW : ℤ)) * 2 ^ (p.oI + t) := by linarith
        have hn0 : (0 : ℚ) < n := by
          by_contra hc
          have : (n : ℚ) * 2 ^ (-(mW : ℤ)) * 2 ^ (p.oI + t) ≤ 0 :=
            mul_nonpos_of_nonpos_of_nonneg (mul_nonpos_of_nonpos_of_nonneg (by linarith) (Fmt.z_pos _).le) h0.le
          linarith
        rw [not_lt, homd, Int.floor_nonneg]
        exact (mul_pos hn0 (Fmt.z_pos _)).le
      rw [if_neg hnn]
      refine ⟨⟨K - 1, p.maxEo, by omega, by omega, hmE0, hmE1, rfl⟩, Or.inl ⟨?_, fun w hw _ => (hvm w hw).1⟩⟩
      unfold value
      simp only
      rw [mul_assoc, ← hU]
      have : ((K - 1 : ℤ) : ℚ) * U ≤ K * U := mul_le_mul_of_nonneg_right (by push_cast; linarith) hu.le
      linarith
    · have hnn : om < 0 := by
        have h0 : (0 : ℚ) < 2 ^ (p.oI + t) := Fmt.z_pos _
        have hn0 : (n : ℚ) < 0 := by
          by_contra hc
          have : 0 ≤ (n : ℚ) * 2 ^ (-(mW : ℤ)) * 2 ^ (p.oI + t) :=
            mul_nonneg (mul_nonneg (by linarith) (Fmt.z_pos _).le) h0.le
          linarith
        rw [homd, Int.floor_lt]
        exact_mod_cast mul_neg_of_neg_of_pos hn0 (Fmt.z_pos _)
      rw [if_pos hnn]
      refine ⟨⟨-K, p.maxEo, by omega, by omega, hmE0, hmE1, rfl⟩, ?_⟩
      have hval : value p.oW p.oI ⟨-K, p.maxEo⟩ = -(K * U) := by
        unfold value; simp only; rw [mul_assoc, ← hU]; push_cast; ring
      refine Or.inr ⟨?_, fun w hw => (hvm w hw).2⟩
      rw [hval]; linarith
  · -- in range or below
    apply isFloor_of_floor ho hle hsc
    rcases lt_or_ge t p.minEo with hlt | hge
    · obtain rfl : subn = true := by rcases hs with h | h; exact h; omega
      have hc : clampE p t = p.minEo := by unfold clampE; rw [if_neg (by omega), if_pos hlt]
      rw [finalMant_lt_subn ho hlt hor.1 hor.2, hc, homd]
      set D := (p.minEo - t).toNat with hD
      have h1 : (n : ℚ) * 2 ^ (-(mW : ℤ)) * 2 ^ (p.oI + t) * 2 ^ ((p.oW : ℤ) - p.oI - p.minEo) =
          (n : ℚ) * 2 ^ ((p.oW : ℤ) - mW) / ((2 ^ D : ℕ) : ℚ) := by
        rw [eq_div_iff (by positivity)]
        push_cast
        rw [← zpow_natCast, mul_assoc, mul_assoc, mul_assoc, Fmt.z_add, Fmt.z_add, Fmt.z_add]
        congr 2; omega
      rw [h1, Int.floor_div_natCast]
      push_cast; rfl
    · have hc : clampE p t = t := by unfold clampE; rw [if_neg (by omega), if_neg (by omega)]
      have hfm : p.finalMant subn nrm t om = om := by
        rcases hs with rfl | ⟨rfl, -⟩
        · have : p.finalMant true nrm t om = p.finalMant true true t om := by unfold Par.finalMant; simp
          rw [this, finalMant_mid ho hge hle hor.1 hor.2]
        · exact finalMant_mid ho hge hle hor.1 hor.2
      rw [hfm, hc, homd]
      congr 1
      rw [mul_assoc, mul_assoc, Fmt.z_add, Fmt.z_add]; congr 2; ring

end Proof.FlfxMul
