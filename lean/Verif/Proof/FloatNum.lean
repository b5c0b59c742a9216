import Verif.Spec.CholFloat
import Verif.Proof.FloatCvt
import Verif.Proof.FloatDiv

/-! # Numbers of an ac_float type and their normalised representation -/

namespace Proof.FloatNum
open Ac Model.Float Model.CholFloat Proof.FloatCvt Spec.CholFloat
open Proof.Float (mant_val)

theorem rep_iff {t : FFmt} {m : ℚ} : t.mant.Rep m ↔ ∃ r : ℤ, -2 ^ (t.W - 1) ≤ r ∧ r < 2 ^ (t.W - 1) ∧ m = r * 2 ^ (t.I - t.W) := by
  constructor
  · rintro ⟨r, r0, r1, rfl⟩
    have r0' : -2 ^ (t.W - 1) ≤ r := by simpa [minRaw, FFmt.mant] using r0
    have r1' : r ≤ 2 ^ (t.W - 1) - 1 := by simpa [maxRaw, FFmt.mant] using r1
    exact ⟨r, r0', by omega, mant_val t r⟩
  · rintro ⟨r, r0, r1, rfl⟩
    refine ⟨r, ?_, ?_, (mant_val t r).symm⟩
    · simpa [minRaw, FFmt.mant] using r0
    · have : r ≤ 2 ^ (t.W - 1) - 1 := by omega
      simpa [maxRaw, FFmt.mant] using this

theorem exp_le {t : FFmt} (hW : 1 ≤ t.W) {r e : ℤ} (r0 : -2 ^ (t.W - 1) ≤ r) (r1 : r < 2 ^ (t.W - 1)) (h0 : -2 ^ (t.E - 1) ≤ e)
    (hr : r ≠ 0) : t.exp (r * 2 ^ (t.I - t.W) * 2 ^ e) ≤ e := by
  have hz : (0 : ℚ) < 2 ^ (t.I - t.W) * 2 ^ e := mul_pos (Fmt.z_pos _) (Fmt.z_pos _)
  have hpow : (2 : ℚ) ^ (t.W - 1) * (2 ^ (t.I - t.W) * 2 ^ e) = 2 ^ (t.I - 1 + e) := by
    rw [← zpow_natCast, Fmt.z_add, Fmt.z_add]; congr 1; push_cast [Nat.cast_sub hW]; ring
  rw [mul_assoc]
  have u1 : (r : ℚ) * (2 ^ (t.I - t.W) * 2 ^ e) < 2 ^ (t.I - 1 + e) := by
    rw [← hpow]; exact mul_lt_mul_of_pos_right (by exact_mod_cast r1) hz
  have u0 : -((r : ℚ) * (2 ^ (t.I - t.W) * 2 ^ e)) ≤ 2 ^ (t.I - 1 + e) := by
    rw [← hpow, ← neg_mul]
    exact mul_le_mul_of_nonneg_right (by have : -r ≤ 2 ^ (t.W - 1) := by omega
                                         exact_mod_cast this) hz.le
  have hx : (r : ℚ) * (2 ^ (t.I - t.W) * 2 ^ e) ≠ 0 := mul_ne_zero (by exact_mod_cast hr) hz.ne'
  generalize (r : ℚ) * (2 ^ (t.I - t.W) * 2 ^ e) = x at *
  unfold FFmt.exp
  apply max_le h0
  split_ifs with hn
  · have := (Int.le_zpow_iff_clog_le (R := ℚ) (b := 2) (by norm_num) (r := -x) (x := t.I - 1 + e) (by linarith)).1 (by exact_mod_cast u0)
    omega
  · have hp : 0 < x := lt_of_le_of_ne (not_lt.1 hn) (Ne.symm hx)
    have := (Int.lt_zpow_iff_log_lt (R := ℚ) (b := 2) (by norm_num) (x := t.I - 1 + e) hp).1 (by exact_mod_cast u1)
    omega

/-- The representation of a number is one of the type and has its value. -/
theorem rep_num {t : FFmt} (hW : 1 ≤ t.W) (hE : 1 ≤ t.E) {x : ℚ} (h : IsNum t x) :
    t.mant.Rep (rep t x).1 ∧ -2 ^ (t.E - 1) ≤ (rep t x).2 ∧ (rep t x).2 < 2 ^ (t.E - 1) ∧ (rep t x).1 * 2 ^ (rep t x).2 = x := by
  have hE' : (0 : ℤ) < 2 ^ (t.E - 1) := by positivity
  by_cases hx : x = 0
  · rw [rep, if_pos hx]
    refine ⟨rep_iff.2 ⟨0, ?_, by positivity, by simp⟩, by simp, by simpa using hE', by simp [hx]⟩
    have : (0 : ℤ) < 2 ^ (t.W - 1) := by positivity
    omega
  obtain ⟨m, e, hm, h0, h1, rfl⟩ := h
  obtain ⟨r, r0, r1, rfl⟩ := rep_iff.1 hm
  have hr : r ≠ 0 := by rintro rfl; simp at hx
  have hle := exp_le hW r0 r1 h0 hr
  rw [rep, if_neg hx]
  set x := (r : ℚ) * 2 ^ (t.I - t.W) * 2 ^ e with hxd
  have hge := exp_ge t x
  have hb1 : 0 < x → x < 2 ^ (t.I - 1 + t.exp x) := pos_lt
  have hb2 : x < 0 → -x ≤ 2 ^ (t.I - 1 + t.exp x) := neg_le
  generalize t.exp x = ex at *
  have hval : x * 2 ^ (-ex) * 2 ^ ex = x := by rw [mul_assoc, Fmt.z_add]; simp
  refine ⟨rep_iff.2 ⟨r * 2 ^ (e - ex).toNat, ?_, ?_, ?_⟩, hge, by omega, hval⟩
  all_goals
    have hint : x * 2 ^ (-ex) = ((r * 2 ^ (e - ex).toNat : ℤ) : ℚ) * 2 ^ (t.I - t.W) := by
      push_cast
      rw [hxd, ← zpow_natCast, Int.toNat_of_nonneg (by omega), mul_assoc, mul_assoc, mul_assoc, Fmt.z_add, Fmt.z_add, Fmt.z_add]
      congr 2; ring
  · generalize (r * 2 ^ (e - ex).toNat : ℤ) = k at *
    by_contra hc
    have hk : (k : ℚ) < -2 ^ (t.W - 1) := by exact_mod_cast not_le.1 hc
    have hk0 : (k : ℚ) < 0 := lt_of_lt_of_le hk (by have : (0 : ℚ) < 2 ^ (t.W - 1) := by positivity
                                                    linarith)
    have hxe : x = k * (2 ^ (t.I - t.W) * 2 ^ ex) := by rw [← hval, hint, mul_assoc]
    have hz : (0 : ℚ) < 2 ^ (t.I - t.W) * 2 ^ ex := mul_pos (Fmt.z_pos _) (Fmt.z_pos _)
    have hpow : (2 : ℚ) ^ (t.W - 1) * (2 ^ (t.I - t.W) * 2 ^ ex) = 2 ^ (t.I - 1 + ex) := by
      rw [← zpow_natCast, Fmt.z_add, Fmt.z_add]; congr 1; push_cast [Nat.cast_sub hW]; ring
    have h3 := hb2 (by rw [hxe]; exact mul_neg_of_neg_of_pos hk0 hz)
    rw [hxe, ← hpow] at h3
    have := mul_lt_mul_of_pos_right hk hz
    linarith
  · generalize (r * 2 ^ (e - ex).toNat : ℤ) = k at *
    by_contra hc
    have hk : (2 : ℚ) ^ (t.W - 1) ≤ k := by exact_mod_cast not_lt.1 hc
    have hk0 : (0 : ℚ) < k := lt_of_lt_of_le (by positivity) hk
    have hxe : x = k * (2 ^ (t.I - t.W) * 2 ^ ex) := by rw [← hval, hint, mul_assoc]
    have hz : (0 : ℚ) < 2 ^ (t.I - t.W) * 2 ^ ex := mul_pos (Fmt.z_pos _) (Fmt.z_pos _)
    have hpow : (2 : ℚ) ^ (t.W - 1) * (2 ^ (t.I - t.W) * 2 ^ ex) = 2 ^ (t.I - 1 + ex) := by
      rw [← zpow_natCast, Fmt.z_add, Fmt.z_add]; congr 1; push_cast [Nat.cast_sub hW]; ring
    have h3 := hb1 (by rw [hxe]; exact mul_pos hk0 hz)
    rw [hxe, ← hpow] at h3
    have := mul_le_mul_of_nonneg_right hk hz.le
    linarith
  · exact hint

/-- The mantissa of a positive number in the normal range is normalised. -/
theorem rep_normal {t : FFmt} {x : ℚ} (h : 2 ^ (t.I - 2 - 2 ^ (t.E - 1)) ≤ x) : 2 ^ (t.I - 2) ≤ (rep t x).1 := by
  have hx : 0 < x := lt_of_lt_of_le (Fmt.z_pos _) h
  rw [rep, if_neg hx.ne']
  rcases eq_or_lt_of_le (exp_ge t x) with he | he
  · simp only [← he]
    have := mul_le_mul_of_nonneg_right h (Fmt.z_pos (2 ^ (t.E - 1))).le
    rw [Fmt.z_add, sub_add_cancel] at this
    rw [neg_neg]; exact this
  · have := mul_le_mul_of_nonneg_right (pos_ge hx he) (Fmt.z_pos (-t.exp x)).le
    rw [Fmt.z_add, show t.I - 2 + t.exp x + -t.exp x = t.I - 2 by ring] at this
    exact this

theorem maxVal_eq (t : FFmt) : t.maxVal = ((2 ^ (t.W - 1) - 1 : ℤ) : ℚ) * 2 ^ (t.I - t.W) * 2 ^ ((2 : ℤ) ^ (t.E - 1) - 1) := by
  unfold FFmt.maxVal Fmt.maxVal
  rw [mant_val]
  simp [maxRaw, FFmt.mant]

theorem minVal_eq (t : FFmt) : t.minVal = ((-2 ^ (t.W - 1) : ℤ) : ℚ) * 2 ^ (t.I - t.W) * 2 ^ ((2 : ℤ) ^ (t.E - 1) - 1) := by
  unfold FFmt.minVal Fmt.minVal
  rw [mant_val]
  simp [minRaw, FFmt.mant]

theorem isNum_of {t : FFmt} {r e : ℤ} (r0 : -2 ^ (t.W - 1) ≤ r) (r1 : r < 2 ^ (t.W - 1)) (h0 : -2 ^ (t.E - 1) ≤ e)
    (h1 : e < 2 ^ (t.E - 1)) : IsNum t (r * 2 ^ (t.I - t.W) * 2 ^ e) :=
  ⟨_, e, rep_iff.2 ⟨r, r0, r1, rfl⟩, h0, h1, rfl⟩

/-- The conversion gives a number of the type. -/
theorem cvt_isNum {t : FFmt} (hW : 2 ≤ t.W) (x : ℚ) : IsNum t (t.cvt x) := by
  have hE' : (0 : ℤ) < 2 ^ (t.E - 1) := by positivity
  have hWp : (0 : ℤ) < 2 ^ (t.W - 1) := by positivity
  have hW2 : (2 : ℤ) ^ (t.W - 1) = 2 * 2 ^ (t.W - 2) := by rw [← pow_succ']; congr 1; omega
  have hWq : (0 : ℤ) < 2 ^ (t.W - 2) := by positivity
  unfold FFmt.cvt
  split_ifs with hx
  · have := isNum_of (t := t) (r := 0) (e := 0) (by omega) hWp (by omega) hE'
    simpa using this
  have hge := exp_ge t x
  have b1 : 0 < x → x < 2 ^ (t.I - 1 + t.exp x) := pos_lt
  have b2 : x < 0 → -x ≤ 2 ^ (t.I - 1 + t.exp x) := neg_le
  have b3 : 0 < x → -2 ^ (t.E - 1) < t.exp x → 2 ^ (t.I - 2 + t.exp x) ≤ x := pos_ge
  have b4 : x < 0 → -2 ^ (t.E - 1) < t.exp x → 2 ^ (t.I - 2 + t.exp x) < -x := neg_gt
  dsimp only
  generalize t.exp x = e at *
  have hF : -t.mant.F = t.I - t.W := by rw [F_eq]; ring
  have hsc : ∀ (a : ℤ) (n : ℕ), a = t.I - t.W + n → (2 : ℚ) ^ (a + e) * 2 ^ (-e) * 2 ^ t.mant.F = ((2 ^ n : ℤ) : ℚ) := by
    intro a n ha
    push_cast
    rw [Fmt.z_add, Fmt.z_add, F_eq, ← zpow_natCast]; congr 1; omega
  have s1 := hsc (t.I - 1) (t.W - 1) (by omega)
  have s2 := hsc (t.I - 2) (t.W - 2) (by omega)
  have hp : (0 : ℚ) < 2 ^ (-e) * 2 ^ t.mant.F := mul_pos (Fmt.z_pos _) (Fmt.z_pos _)
  have k1 : quant t.Q (x * 2 ^ (-e) * 2 ^ t.mant.F) ≤ 2 ^ (t.W - 1) := by
    rw [← quant_intCast (R := ℚ) t.Q (2 ^ (t.W - 1)), ← s1]
    apply quant_mono
    rw [mul_assoc, mul_assoc]
    apply mul_le_mul_of_nonneg_right _ hp.le
    rcases lt_or_gt_of_ne hx with h | h
    · exact h.le.trans (Fmt.z_pos _).le
    · exact (b1 h).le
  have k2 : -2 ^ (t.W - 1) ≤ quant t.Q (x * 2 ^ (-e) * 2 ^ t.mant.F) := by
    rw [← quant_intCast (R := ℚ) t.Q (-2 ^ (t.W - 1)), Int.cast_neg, ← s1]
    apply quant_mono
    rw [mul_assoc, mul_assoc, ← neg_mul]
    apply mul_le_mul_of_nonneg_right _ hp.le
    rcases lt_or_gt_of_ne hx with h | h
    · linarith [b2 h]
    · linarith [Fmt.z_pos (t.I - 1 + e)]
  have k3 : 0 < x → -2 ^ (t.E - 1) < e → 2 ^ (t.W - 2) ≤ quant t.Q (x * 2 ^ (-e) * 2 ^ t.mant.F) := by
    intro h he
    rw [← quant_intCast (R := ℚ) t.Q (2 ^ (t.W - 2)), ← s2]
    apply quant_mono
    rw [mul_assoc, mul_assoc]
    exact mul_le_mul_of_nonneg_right (b3 h he) hp.le
  have k4 : x < 0 → -2 ^ (t.E - 1) < e → quant t.Q (x * 2 ^ (-e) * 2 ^ t.mant.F) ≤ -2 ^ (t.W - 2) := by
    intro h he
    rw [← quant_intCast (R := ℚ) t.Q (-2 ^ (t.W - 2)), Int.cast_neg, ← s2]
    apply quant_mono
    rw [mul_assoc, mul_assoc, ← neg_mul]
    exact mul_le_mul_of_nonneg_right (by linarith [b4 h he]) hp.le
  generalize quant t.Q (x * 2 ^ (-e) * 2 ^ t.mant.F) = k at *
  rw [hF]
  have hmaxN : IsNum t t.maxVal := by rw [maxVal_eq]; exact isNum_of (by omega) (by omega) (by omega) (by omega)
  have hminN : IsNum t t.minVal := by rw [minVal_eq]; exact isNum_of (by omega) (by omega) (by omega) (by omega)
  split_ifs with c1 c2
  · exact hmaxN
  · exact hminN
  rw [not_lt] at c1 c2
  have hz := Fmt.z_pos (t.I - t.W)
  -- shifting by one place
  have sh : ∀ a : ℤ, ((2 * a : ℤ) : ℚ) * 2 ^ (t.I - t.W) * 2 ^ e = a * 2 ^ (t.I - t.W) * 2 ^ (e + 1) := by
    intro a
    rw [← Fmt.z_add e 1, zpow_one]; push_cast; ring
  rcases lt_or_ge e (2 ^ (t.E - 1)) with he | he
  · rcases lt_or_eq_of_le k1 with hk | hk
    · exact isNum_of k2 hk hge he
    · rcases lt_or_ge (e + 1) (2 ^ (t.E - 1)) with he' | he'
      · rw [hk, hW2, sh]
        exact isNum_of (by omega) (by omega) (by omega) he'
      · exfalso
        rw [maxVal_eq, show e = 2 ^ (t.E - 1) - 1 by omega] at c1
        have := le_of_mul_le_mul_right (le_of_mul_le_mul_right c1 (Fmt.z_pos _)) hz
        have : k ≤ 2 ^ (t.W - 1) - 1 := by exact_mod_cast this
        omega
  · have hee : (2 : ℚ) ^ ((2 : ℤ) ^ (t.E - 1) - 1 + 1) ≤ 2 ^ e := Fmt.z_le (by omega)
    have hem := Fmt.z_pos ((2 : ℤ) ^ (t.E - 1) - 1)
    have h2 : 2 * (2 : ℚ) ^ ((2 : ℤ) ^ (t.E - 1) - 1) ≤ 2 ^ e := by
      rw [← Fmt.z_add, zpow_one] at hee; linarith
    rcases lt_or_gt_of_ne hx with h | h
    · -- the least value
      have hk := k4 h (by omega)
      have hk' : (2 : ℚ) ^ (t.W - 2) ≤ -k := by
        have : (2 : ℤ) ^ (t.W - 2) ≤ -k := by omega
        exact_mod_cast this
      have e1 : ((-2 ^ (t.W - 1) : ℤ) : ℚ) = -(2 * 2 ^ (t.W - 2)) := by rw [hW2]; push_cast; ring
      have : (k : ℚ) * 2 ^ (t.I - t.W) * 2 ^ e = t.minVal := by
        apply le_antisymm _ c2
        rw [minVal_eq, e1]
        have h3 := mul_le_mul hk' h2 (by linarith) (by have : (0 : ℚ) < 2 ^ (t.W - 2) := by positivity
                                                       linarith)
        have h4 := mul_le_mul_of_nonneg_right h3 hz.le
        linarith
      rw [this]; exact hminN
    · exfalso
      have hk := k3 h (by omega)
      have hk' : (2 : ℚ) ^ (t.W - 2) ≤ k := by exact_mod_cast hk
      rw [maxVal_eq] at c1
      have e1 : ((2 ^ (t.W - 1) - 1 : ℤ) : ℚ) = 2 * 2 ^ (t.W - 2) - 1 := by rw [hW2]; push_cast; ring
      rw [e1] at c1
      have h3 := mul_le_mul hk' h2 (by linarith) (by have : (0 : ℚ) < 2 ^ (t.W - 2) := by positivity
                                                     linarith)
      have h4 := mul_le_mul_of_nonneg_right h3 hz.le
      have h5 := mul_pos hz hem
      linarith

end Proof.FloatNum
