import Verif.Proof.FloatSqrt
import Verif.Proof.PowPwl

/-! # Lemmas for C63 -/

namespace Proof.FloatPow
open Ac Model.Float Proof.Float Proof.PwlFixed Proof.FloatSqrt

/-- The largest magnitude of an exponent of the output type. -/
def outRange (o : FFmt) : ℤ := 2 ^ (o.E - 1) + max (o.I - 1) (o.W - o.I)

theorem range_lt (o : FFmt) (hW : 1 ≤ o.W) : 0 < outRange o ∧ outRange o + 1 ≤ 2 ^ (powI o - 1) := by
  have hp : (0 : ℤ) < 2 ^ (o.E - 1) := by positivity
  have h0 : 0 < outRange o := by unfold outRange; omega
  refine ⟨h0, ?_⟩
  have := Model.Bits.lt_two_pow_nbits (outRange o).toNat
  have e : powI o - 1 = Ac.nbits (outRange o).toNat := by unfold powI outRange; rfl
  rw [e]
  have h2 : ((outRange o).toNat : ℤ) < 2 ^ Ac.nbits (outRange o).toNat := by exact_mod_cast this
  rw [Int.toNat_of_nonneg h0.le] at h2
  omega

theorem in_F (q : QMode) (o : FFmt) : (powIn q o).F = (12 : ℕ) := by
  unfold powIn Fmt.F; push_cast; ring

theorem in_W (q : QMode) (o : FFmt) : 1 ≤ (powIn q o).W := by unfold powIn; simp only; omega

theorem powI_pos (o : FFmt) : 1 ≤ powI o := by unfold powI; omega

theorem powEnd_eq (q : QMode) (o : FFmt) (d : Dst) {X : ℚ} (hX : (powIn q o).Rep X) :
    powEnd q o d X = some (d.cvt (PowPwl.core X)) := by
  obtain ⟨r, r0, r1, rfl⟩ := hX
  have hv : (powIn q o).val r = (r : ℚ) / (4096 : ℕ) := by
    unfold Fmt.val; rw [in_F, zpow_neg, zpow_natCast, div_eq_mul_inv]; norm_num
  have hfr : (⟨12, 0, false, .TRN, .WRAP⟩ : Fmt).val (r % 2 ^ 12) = Int.fract ((powIn q o).val r) := by
    rw [hv, Int.fract_div_intCast_eq_div_intCast_mod]
    unfold Fmt.val Fmt.F
    norm_num
    ring
  unfold powEnd
  simp only [Fmt.raw_val, hfr]
  have hm0 : 0 ≤ r % 4096 := Int.emod_nonneg _ (by norm_num)
  have hm1 : r % 4096 < 4096 := Int.emod_lt_of_pos _ (by norm_num)
  have hrep : (⟨12, 0, false, .TRN, .WRAP⟩ : Fmt).Rep (Int.fract ((powIn q o).val r)) := by
    refine ⟨r % 2 ^ 12, ?_, ?_, hfr.symm⟩
    · simpa [minRaw] using hm0
    · simp only [maxRaw]; norm_num; omega
  rw [PowPwl.pow2_eq q (out := ⟨21, 1, false, .TRN, .WRAP⟩) (by norm_num) rfl hrep]
  have u0 := Int.fract_nonneg ((powIn q o).val r)
  have u1 := Int.fract_lt_one ((powIn q o).val r)
  obtain ⟨g0, g1⟩ := PowPwl.g_bounds u0 u1
  have hc : PowPwl.core (Int.fract ((powIn q o).val r)) = PowPwl.g (Int.fract ((powIn q o).val r)) := by
    unfold PowPwl.core; rw [Int.fract_fract, Int.floor_fract, zpow_zero, mul_one]
  have hj : Int.fract ((powIn q o).val r) = (((r % 4096).toNat : ℕ) : ℚ) / (4096 : ℕ) := by
    rw [hv, Int.fract_div_intCast_eq_div_intCast_mod]
    congr 1
    have : (((r % 4096).toNat : ℕ) : ℤ) = r % 4096 := Int.toNat_of_nonneg hm0
    exact_mod_cast congrArg (fun z : ℤ => (z : ℚ)) this.symm
  have hgg := PowPwl.g_grid (r % 4096).toNat
  rw [← hj] at hgg
  rw [hgg] at g0 g1
  have e0 : (511 : ℤ) * 2048 ≤ Pwl.segRaw PowPwl.extM PowPwl.extC 10 (r % 4096).toNat := by
    have : (511 * 2048 : ℚ) ≤ (Pwl.segRaw PowPwl.extM PowPwl.extC 10 (r % 4096).toNat : ℚ) := by
      norm_num at g0 ⊢; linarith
    exact_mod_cast this
  have e1 : Pwl.segRaw PowPwl.extM PowPwl.extC 10 (r % 4096).toNat ≤ (511 : ℤ) * 4096 := by
    have : (Pwl.segRaw PowPwl.extM PowPwl.extC 10 (r % 4096).toNat : ℚ) ≤ 511 * 4096 := by
      norm_num at g1 ⊢; linarith
    exact_mod_cast this
  obtain ⟨w1, -, -⟩ := cvt_word (f := ⟨21, 1, false, .TRN, .WRAP⟩) (by simp) (n := 20) (by simp [Fmt.F]) rfl
    (k := Pwl.segRaw PowPwl.extM PowPwl.extC 10 (r % 4096).toNat)
    (by simp only [minRaw]; norm_num; linarith) (by simp only [maxRaw]; norm_num; linarith)
  have hfl : wrap (powI o) true ⌊(powIn q o).val r⌋ = ⌊(powIn q o).val r⌋ := by
    have hI := powI_pos o
    have hW : (powIn q o).W - 1 = powI o - 1 + 12 := by unfold powIn; simp only; omega
    have hS : (powIn q o).S = true := rfl
    rw [hS] at r0 r1
    simp only [minRaw, maxRaw, if_true] at r0 r1
    rw [hW, pow_add] at r0 r1
    have hfd : ⌊(powIn q o).val r⌋ = r / 4096 := by
      rw [hv, Int.floor_div_natCast, Int.floor_intCast]; rfl
    apply wrap_of_range hI <;> simp only [minRaw, maxRaw, if_true] <;> rw [hfd] <;> omega
  rw [hfl, hc, hgg]
  simp only [Option.bind_eq_bind, Option.bind_some]
  rw [w1, ← hgg]
  rfl

/-- The argument of the exponential. -/
def arg (q : QMode) (o : FFmt) (x : ℚ) : ℚ := (powIn q o).cvt x

theorem pow2_eq (q : QMode) {t : FFmt} (o : FFmt) (d : Dst) (hW : 1 ≤ t.W) {m : ℚ} (hm : t.mant.Rep m) (e : ℤ) :
    pow2Pwl q t o d m e = some (d.cvt (PowPwl.core (arg q o (m * 2 ^ e)))) := by
  obtain ⟨r, r0, r1, rfl⟩ := hm
  unfold pow2Pwl
  rw [Fmt.raw_val, Proof.Shift.leftSS_eq (fx := t.mant) hW (in_W q o) rfl rfl ⟨r0, r1⟩]
  exact powEnd_eq q o d (Fmt.rep_cvt (in_W q o) _)

theorem exp_eq (q : QMode) {t : FFmt} (o : FFmt) (d : Dst) (hW : 1 ≤ t.W) {m : ℚ} (hm : t.mant.Rep m) (e : ℤ) :
    expPwl q t o d m e = some (d.cvt (PowPwl.core (arg q o (m * 2 ^ e * (23637 / 16384))))) := by
  obtain ⟨r, r0, r1, rfl⟩ := hm
  unfold expPwl
  have hv : t.mant.val r * Model.PwlFixed.log2e = (⟨t.W + 17, t.I + 3, true, .TRN, .WRAP⟩ : Fmt).val (r * 23637) := by
    rw [PowPwl.log2e_val]
    unfold Fmt.val
    have : -(⟨t.W + 17, t.I + 3, true, .TRN, .WRAP⟩ : Fmt).F = -t.mant.F + -14 := by unfold Fmt.F FFmt.mant; push_cast; ring
    rw [this, ← Fmt.z_add]
    push_cast
    norm_num
    ring
  have hr : Proof.Shift.InRange (t.W + 17) true (r * 23637) := by
    have h2 : (2 : ℤ) ^ (t.W + 17 - 1) = 2 ^ (t.W - 1) * 131072 := by
      rw [show t.W + 17 - 1 = t.W - 1 + 17 by omega, pow_add]; norm_num
    have hp : (0 : ℤ) < 2 ^ (t.W - 1) := by positivity
    have hS : t.mant.S = true := rfl
    have hWW : t.mant.W = t.W := rfl
    rw [hS, hWW] at r0 r1
    unfold Proof.Shift.InRange
    simp only [minRaw, maxRaw, if_true] at r0 r1 ⊢
    rw [h2]
    constructor <;> linarith
  simp only [hv]
  rw [Fmt.raw_val, Proof.Shift.leftSS_eq (fx := ⟨t.W + 17, t.I + 3, true, .TRN, .WRAP⟩) (by show 1 ≤ t.W + 17; omega) (in_W q o) rfl rfl hr,
    powEnd_eq q o d (Fmt.rep_cvt (in_W q o) _), ← hv, PowPwl.log2e_val, mul_right_comm]
  rfl

theorem arg_mono (q : QMode) (o : FFmt) {x x' : ℚ} (h : x ≤ x') : arg q o x ≤ arg q o x' :=
  Fmt.cvt_mono (Or.inl rfl) h

/-- The argument inside the range. -/
theorem arg_err (q : QMode) {o : FFmt} (hW : 1 ≤ o.W) {x : ℚ} (h : |x| ≤ outRange o) : |arg q o x - x| ≤ 1 / 4096 := by
  obtain ⟨-, hr⟩ := range_lt o hW
  obtain ⟨x1, x2⟩ := abs_le.1 h
  have hr' : (outRange o : ℚ) + 1 ≤ 2 ^ (powI o - 1) := by exact_mod_cast hr
  have hI := powI_pos o
  have hWW : (powIn q o).W - 1 = powI o - 1 + 12 := by unfold powIn; simp only; omega
  have hS : (powIn q o).S = true := rfl
  have := Fmt.cvt_err (f := powIn q o) (R := ℚ) (x := x) (in_W q o) ?_ ?_
  · rw [in_F, zpow_neg, zpow_natCast] at this
    unfold arg
    have h2 : |(powIn q o).cvt x - x| < ((2 : ℚ) ^ 12)⁻¹ := by simpa using this
    norm_num at h2 ⊢; exact h2.le
  · have : loRaw (powIn q o).W (powIn q o).S (powIn q o).O = -2 ^ (powI o - 1 + 12) := by
      have : (powIn q o).O = .SAT := rfl
      rw [this, hS]; simp [loRaw, minRaw, hWW]
    rw [this, in_F, pow_add, zpow_natCast]
    push_cast
    norm_num; linarith
  · rw [hS, in_F, zpow_natCast]
    simp only [maxRaw, if_true]
    rw [hWW, pow_add]
    push_cast
    norm_num; linarith

/-- An integer in the range is not changed. -/
theorem arg_int (q : QMode) {o : FFmt} (hW : 1 ≤ o.W) {n : ℤ} (h : |n| ≤ outRange o) : arg q o n = n := by
  obtain ⟨-, hr⟩ := range_lt o hW
  obtain ⟨x1, x2⟩ := abs_le.1 h
  have hI := powI_pos o
  have hWW : (powIn q o).W - 1 = powI o - 1 + 12 := by unfold powIn; simp only; omega
  have hS : (powIn q o).S = true := rfl
  apply Fmt.cvt_rep (in_W q o) (by simp [powIn])
  refine ⟨n * 4096, ?_, ?_, ?_⟩
  · rw [hS]; simp only [minRaw, if_true]; rw [hWW, pow_add]; linarith
  · rw [hS]; simp only [maxRaw, if_true]; rw [hWW, pow_add]; linarith
  · unfold Fmt.val; rw [in_F, zpow_neg, zpow_natCast]; push_cast; norm_num; ring

theorem core_int (n : ℤ) : PowPwl.core n = 511 / 512 * 2 ^ n := by
  have : PowPwl.g 0 = 511 / 512 := by decide +kernel
  unfold PowPwl.core
  rw [Int.fract_intCast, Int.floor_intCast, this]

/-- Values from the next power of two on saturate. -/
theorem cvt_sat {o : FFmt} (hW : 2 ≤ o.W) {x : ℚ} (h : 2 ^ (o.I - 2 + 2 ^ (o.E - 1)) ≤ x) : o.cvt x = o.maxVal := by
  have hx : 0 < x := lt_of_lt_of_le (Fmt.z_pos _) h
  have hlog := (Int.zpow_le_iff_le_log (R := ℚ) (b := 2) (by norm_num) hx).1 (by exact_mod_cast h)
  push_cast at hlog
  have hl := Int.zpow_log_le_self (R := ℚ) (b := 2) (by norm_num) hx
  have hp : (0 : ℤ) < 2 ^ (o.E - 1) := by positivity
  have he : o.exp x = Int.log 2 x + 1 - (o.I - 1) := by
    unfold FFmt.exp; rw [if_neg (by linarith)]; apply max_eq_right; omega
  have hv : (2 : ℚ) ^ (o.I - 2 + 2 ^ (o.E - 1)) ≤
      (quant o.Q (x * 2 ^ (-o.exp x) * 2 ^ o.mant.F) : ℚ) * 2 ^ (-o.mant.F) * 2 ^ (o.exp x) := by
    have hq : (2 : ℤ) ^ (o.W - 2) ≤ quant o.Q (x * 2 ^ (-o.exp x) * 2 ^ o.mant.F) := by
      apply le_quant
      push_cast at hl ⊢
      have := mul_le_mul_of_nonneg_right (mul_le_mul_of_nonneg_right hl (Fmt.z_pos (-o.exp x)).le) (Fmt.z_pos o.mant.F).le
      refine le_trans (le_of_eq ?_) this
      rw [Fmt.z_add, Fmt.z_add, ← zpow_natCast, he]
      congr 1
      unfold Fmt.F FFmt.mant
      push_cast [Nat.cast_sub hW]; ring
    have hq' : (2 : ℚ) ^ (o.W - 2) ≤ (quant o.Q (x * 2 ^ (-o.exp x) * 2 ^ o.mant.F) : ℚ) := by exact_mod_cast hq
    have := mul_le_mul_of_nonneg_right (mul_le_mul_of_nonneg_right hq' (Fmt.z_pos (-o.mant.F)).le) (Fmt.z_pos (o.exp x)).le
    refine le_trans ?_ this
    rw [← zpow_natCast, Fmt.z_add, Fmt.z_add]
    apply Fmt.z_le
    rw [he]
    unfold Fmt.F FFmt.mant
    push_cast [Nat.cast_sub hW]; linarith
  have hmax : o.maxVal < 2 ^ (o.I - 2 + 2 ^ (o.E - 1)) := by
    unfold FFmt.maxVal
    have := mant_lt (t := o) (by omega) (m := o.mant.maxVal) ⟨maxRaw o.mant.W o.mant.S, le_trans (minRaw_nonpos _ _) (maxRaw_nonneg _ _), le_rfl, rfl⟩
    have := mul_lt_mul_of_pos_right this (Fmt.z_pos ((2 : ℤ) ^ (o.E - 1) - 1))
    rw [Fmt.z_add] at this
    refine lt_of_lt_of_eq this ?_
    congr 1; ring
  unfold FFmt.cvt
  rw [if_neg hx.ne']
  simp only
  rw [if_pos (lt_of_lt_of_le hmax hv)]

end Proof.FloatPow
