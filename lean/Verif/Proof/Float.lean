import Verif.Model.Float
import Verif.Proof.PwlHa
import Verif.Proof.Normalize
import Verif.Proof.Bits

/-! # Lemmas on ac_float -/

namespace Proof.Float
open Ac Model.Float Model.Normalize

/-- The exponents of the type. -/
def ExpIn (t : FFmt) (e : ℤ) : Prop := -2 ^ (t.E - 1) ≤ e ∧ e < 2 ^ (t.E - 1)

theorem mant_val (t : FFmt) (r : ℤ) : t.mant.val r = r * 2 ^ (t.I - t.W) := by
  unfold Fmt.val Fmt.F FFmt.mant
  rw [neg_sub]

/-- The shift of the constructor is not limited by the exponent. -/
theorem Etemp_big (t : FFmt) (hW : 1 ≤ t.W) : (t.W : ℤ) - 1 + 2 ^ (t.E - 1) ≤ 2 ^ (Etemp t - 1) := by
  unfold Etemp
  rw [Nat.add_sub_cancel]
  have h := Model.Bits.lt_two_pow_nbits (max (t.W - 1 + 2 ^ (t.E - 1)) 1)
  have h2 : t.W - 1 + 2 ^ (t.E - 1) < 2 ^ nbits (max (t.W - 1 + 2 ^ (t.E - 1)) 1) := lt_of_le_of_lt (le_max_left _ _) h
  have h3 : ((t.W - 1 + 2 ^ (t.E - 1) : ℕ) : ℤ) < ((2 ^ nbits (max (t.W - 1 + 2 ^ (t.E - 1)) 1) : ℕ) : ℤ) := by exact_mod_cast h2
  push_cast [Nat.cast_sub hW] at h3
  linarith

/-- The constructor keeps the value and gives a mantissa with a leading bit. -/
theorem renorm_facts {t : FFmt} (hW : 2 ≤ t.W) {Et : ℕ} (hE : Etemp t ≤ Et) {m : ℚ} {e : ℤ} (hm : t.mant.Rep m)
    (he : -2 ^ (t.E - 1) ≤ e) (h : m ≠ 0) :
    t.mant.Rep (renorm t Et m e).1 ∧ (renorm t Et m e).1 * 2 ^ (renorm t Et m e).2 = m * 2 ^ e ∧
    2 ^ (t.I - 2) ≤ |(renorm t Et m e).1| ∧ ((renorm t Et m e).1 < 0 ↔ m < 0) := by
  obtain ⟨r, r0, r1, rfl⟩ := hm
  have hr : r ≠ 0 := by rintro rfl; exact h (by simp [Fmt.val])
  have hword : Proof.Normalize.Word t.mant r := ⟨r0, r1⟩
  have hml := Proof.Normalize.mag_lt hword
  have hKe : t.mant.W - t.mant.S.toNat = t.W - 1 := rfl
  rw [hKe] at hml
  obtain ⟨s1, s2⟩ := Proof.Normalize.shift_facts hml
  unfold renorm
  rw [if_neg h]
  simp only [Fmt.raw_val]
  have hle : leadingSign t.W true r ≤ t.W - 1 := by
    unfold leadingSign Model.Bits.leadingSignU
    simp only [Bool.toNat_true]
    split_ifs <;> omega
  have hlse : leadingSign t.W true r = Model.Bits.leadingSignU (t.W - 1) (mag r) := rfl
  have hmin : min (leadingSign t.W true r : ℤ) (e + 2 ^ (Et - 1)) = leadingSign t.W true r := by
    apply min_eq_left
    have a := Etemp_big t (by omega)
    have b : (2 : ℤ) ^ (Etemp t - 1) ≤ 2 ^ (Et - 1) := pow_le_pow_right₀ (by norm_num) (by omega)
    have c : ((leadingSign t.W true r : ℕ) : ℤ) ≤ (t.W : ℤ) - 1 := by omega
    linarith
  rw [hmin]
  rw [← hlse] at s1 s2
  set ls := leadingSign t.W true r
  have hq : t.mant.val r * 2 ^ (ls : ℤ) = t.mant.val (r * 2 ^ ls) := by
    rw [mant_val, mant_val, zpow_natCast]; push_cast; ring
  rw [hq]
  have hP : (0 : ℤ) < 2 ^ ls := by positivity
  have hp2 : (2 : ℤ) ^ (t.W - 1) = 2 * 2 ^ (t.W - 2) := by
    rw [show t.W - 1 = (t.W - 2) + 1 by omega, pow_succ]; ring
  have hK : (0 : ℤ) < 2 ^ (t.W - 2) := by positivity
  have range : -2 ^ (t.W - 1) ≤ r * 2 ^ ls ∧ r * 2 ^ ls ≤ 2 ^ (t.W - 1) - 1 ∧ 2 ^ (t.W - 2) ≤ |r * 2 ^ ls| := by
    rcases lt_or_gt_of_ne hr with hn | hp
    · rw [Proof.Normalize.mag_neg hn] at s1 s2
      have hneg : r * 2 ^ ls < 0 := mul_neg_of_neg_of_pos hn hP
      have e1 : (-r - 1 + 1) * 2 ^ ls = -(r * 2 ^ ls) := by ring
      rw [e1] at s1
      refine ⟨by linarith, by linarith, ?_⟩
      rw [abs_of_neg hneg]
      by_cases h0 : mag r = 0
      · have hz : r = -1 := by
          have := Proof.Normalize.mag_neg hn; rw [h0] at this; push_cast at this; omega
        have : ls = t.W - 1 := by
          simp only [hlse, Model.Bits.leadingSignU, h0, if_true]
        rw [this, hz, hp2]; linarith
      · have := s2 h0
        have e2 : (-r - 1) * 2 ^ ls = -(r * 2 ^ ls) - 2 ^ ls := by ring
        rw [e2] at this
        linarith
    · rw [Proof.Normalize.mag_nonneg hp.le] at s1 s2
      have hpos : 0 < r * 2 ^ ls := mul_pos hp hP
      have h0 : mag r ≠ 0 := by
        intro h0; have := Proof.Normalize.mag_nonneg hp.le; rw [h0] at this; push_cast at this; omega
      have e1 : (r + 1) * 2 ^ ls = r * 2 ^ ls + 2 ^ ls := by ring
      rw [e1] at s1
      refine ⟨by linarith, by linarith, ?_⟩
      rw [abs_of_pos hpos]
      have := s2 h0
      linarith
  obtain ⟨g1, g2, g3⟩ := range
  have hz := Fmt.z_pos (t.I - t.W)
  refine ⟨⟨r * 2 ^ ls, ?_, ?_, rfl⟩, ?_, ?_, ?_⟩
  · simpa [minRaw, FFmt.mant] using g1
  · simpa [maxRaw, FFmt.mant] using g2
  · rw [← hq, mul_assoc, ← zpow_add₀ (by norm_num : (2 : ℚ) ≠ 0)]
    congr 2; ring
  · rw [mant_val, abs_mul, abs_of_pos hz]
    have a : ((2 ^ (t.W - 2) : ℤ) : ℚ) ≤ |((r * 2 ^ ls : ℤ) : ℚ)| := by exact_mod_cast g3
    have b := mul_le_mul_of_nonneg_right a hz.le
    refine le_trans (le_of_eq ?_) b
    push_cast
    rw [← zpow_natCast, ← zpow_add₀ (by norm_num : (2 : ℚ) ≠ 0)]
    congr 1
    push_cast [Nat.cast_sub hW]; ring
  · rw [mant_val, mant_val]
    have hPq : (0 : ℚ) < 2 ^ ls := by positivity
    push_cast
    constructor
    · intro hh
      by_contra hc
      have : 0 ≤ (r : ℚ) * 2 ^ (t.I - t.W) := not_lt.1 hc
      have : 0 ≤ (r : ℚ) * 2 ^ (t.I - t.W) * 2 ^ ls := mul_nonneg this hPq.le
      linarith
    · intro hh
      have := mul_neg_of_neg_of_pos hh hPq
      linarith

theorem exp_low {t : FFmt} {x : ℚ} (hx : x ≠ 0) (h : 2 ^ (t.I - 2 - 2 ^ (t.E - 1)) ≤ |x|) : 2 ^ (t.I - 2 + t.exp x) ≤ |x| := by
  unfold FFmt.exp
  rcases max_choice (-2 ^ (t.E - 1)) ((if x < 0 then Int.clog 2 (-x) else Int.log 2 x + 1) - (t.I - 1)) with he | he
  · rw [he, ← sub_eq_add_neg]; exact h
  · rw [he]
    split_ifs with hn
    · rw [abs_of_neg hn]
      have := Int.zpow_pred_clog_lt_self (R := ℚ) (b := 2) (by norm_num) (r := -x) (by linarith)
      push_cast at this
      rw [show t.I - 2 + (Int.clog 2 (-x) - (t.I - 1)) = Int.clog 2 (-x) - 1 by ring]
      exact this.le
    · have hp : 0 < x := lt_of_le_of_ne (not_lt.1 hn) (Ne.symm hx)
      rw [abs_of_pos hp]
      have := Int.zpow_log_le_self (R := ℚ) (b := 2) (by norm_num) hp
      push_cast at this
      rw [show t.I - 2 + (Int.log 2 x + 1 - (t.I - 1)) = Int.log 2 x by ring]
      exact this

/-- Conversion of a number in the normal range of ac_float. -/
theorem cvt_err {t : FFmt} {x : ℚ} (h : 2 ^ (t.I - 2 - 2 ^ (t.E - 1)) ≤ |x|) (h0 : t.minVal ≤ x) (h1 : x ≤ t.maxVal) :
    |t.cvt x - x| ≤ |x| * 2 ^ (2 - (t.W : ℤ)) := by
  have hx : x ≠ 0 := by
    rintro rfl
    have := Fmt.z_pos (t.I - 2 - 2 ^ (t.E - 1))
    rw [abs_zero] at h; linarith
  have hl := exp_low hx h
  unfold FFmt.cvt
  rw [if_neg hx]
  simp only []
  set e := t.exp x
  set y := x * 2 ^ (-e) * 2 ^ t.mant.F with hy
  have hq := quant_err t.Q y
  have hz : (0 : ℚ) < 2 ^ (-t.mant.F) * 2 ^ e := mul_pos (Fmt.z_pos _) (Fmt.z_pos _)
  have hx2 : x = y * 2 ^ (-t.mant.F) * 2 ^ e := by
    rw [hy, zpow_neg, zpow_neg]
    have a := (Fmt.z_pos e).ne'
    have b := (Fmt.z_pos t.mant.F).ne'
    field_simp
  have hv : |(quant t.Q y : ℚ) * 2 ^ (-t.mant.F) * 2 ^ e - x| ≤ |x| * 2 ^ (2 - (t.W : ℤ)) := by
    have e1 : (quant t.Q y : ℚ) * 2 ^ (-t.mant.F) * 2 ^ e - x = (quant t.Q y - y) * (2 ^ (-t.mant.F) * 2 ^ e) := by
      conv_lhs => rw [hx2]
      ring
    rw [e1, abs_mul, abs_of_pos hz]
    have a : |(quant t.Q y : ℚ) - y| ≤ 1 := by simpa using hq.le
    have b := mul_le_mul_of_nonneg_right a hz.le
    have c := mul_le_mul_of_nonneg_right hl (Fmt.z_pos (2 - (t.W : ℤ))).le
    refine le_trans b (le_trans (le_of_eq ?_) c)
    rw [one_mul, ← zpow_add₀ (by norm_num : (2 : ℚ) ≠ 0), ← zpow_add₀ (by norm_num : (2 : ℚ) ≠ 0)]
    congr 1
    unfold Fmt.F FFmt.mant
    ring
  set v := (quant t.Q y : ℚ) * 2 ^ (-t.mant.F) * 2 ^ e
  obtain ⟨v1, v2⟩ := abs_le.1 hv
  split_ifs with c1 c2
  · rw [abs_le]; constructor <;> linarith
  · rw [abs_le]; constructor <;> linarith
  · exact hv

end Proof.Float
