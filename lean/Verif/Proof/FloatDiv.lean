import Verif.Proof.FloatSqrt
import Verif.Props.DivFixed
import Verif.Props.SqrtFixed
import Mathlib.Data.Real.Sqrt

/-! # Lemmas for C64 -/

namespace Proof.FloatDiv
open Ac Model.Float Proof.Float Proof.FloatSqrt

theorem wrap_exp {E : ℕ} {x : ℤ} (h0 : -2 ^ E ≤ x) (h1 : x < 2 ^ E) : wrap (E + 1) true x = x :=
  wrap_of_range (by omega) (by simpa [minRaw] using h0) (by simp only [maxRaw, if_true, Nat.add_sub_cancel]; omega)

/-- The mantissa and exponent of the absolute value give it exactly. -/
theorem abs_eq {t : FFmt} (d : Dst) (hW : 2 ≤ t.W) (hE : 1 ≤ t.E) {m : ℚ} {e : ℤ} (hm : t.mant.Rep m)
    (h0 : -2 ^ (t.E - 1) ≤ e) (h1 : e < 2 ^ (t.E - 1)) : Model.Float.abs t d m e = d.cvt |m * 2 ^ e| := by
  obtain ⟨r, r0, r1, rfl⟩ := hm
  have r0' : -2 ^ (t.W - 1) ≤ r := by simpa [minRaw, FFmt.mant] using r0
  have r1' : r < 2 ^ (t.W - 1) := by
    have : r ≤ 2 ^ (t.W - 1) - 1 := by simpa [maxRaw, FFmt.mant] using r1
    omega
  have hp : (2 : ℤ) ^ t.E = 2 * 2 ^ (t.E - 1) := by
    conv_lhs => rw [show t.E = t.E - 1 + 1 by omega, pow_succ]
    ring
  have hw : (2 : ℤ) ^ t.W = 2 * 2 ^ (t.W - 1) := by
    conv_lhs => rw [show t.W = t.W - 1 + 1 by omega, pow_succ]
    ring
  have hw2 : (2 : ℤ) ^ (t.W - 1) = 2 * 2 ^ (t.W - 2) := by
    conv_lhs => rw [show t.W - 1 = t.W - 2 + 1 by omega, pow_succ]
    ring
  have hpp : (0 : ℤ) < 2 ^ (t.E - 1) := by positivity
  have hpw : (0 : ℤ) < 2 ^ (t.W - 1) := by positivity
  have hpw2 : (0 : ℤ) < 2 ^ (t.W - 2) := by positivity
  have hab : |r| ≤ 2 ^ (t.W - 1) := abs_le.2 ⟨r0', r1'.le⟩
  have hab0 := abs_nonneg r
  unfold Model.Float.abs Model.Bits.absFixed
  rw [Fmt.raw_val, Model.Bits.absMag_eq (by omega) r0' r1']
  rw [Fmt.cvt_val (f := ⟨t.W, t.I, false, .TRN, .WRAP⟩) (by show 1 ≤ t.W; omega) (by simpa [loRaw, minRaw] using hab0)
    (by simp only [maxRaw, Bool.false_eq_true, if_false]; omega), Fmt.raw_val]
  simp only []
  rw [abs_mul, abs_of_pos (Fmt.z_pos e), mant_val t r, abs_mul, abs_of_pos (Fmt.z_pos (t.I - t.W)), ← Int.cast_abs]
  congr 1
  simp only [mant_val]
  rcases lt_or_eq_of_le hab with h | h
  · rw [Int.ediv_eq_zero_of_lt hab0 h]
    simp only [Int.zero_emod, zero_ne_one, if_false, pow_zero, Int.ediv_one, Nat.cast_zero, add_zero]
    rw [Int.emod_eq_of_lt hab0 h, wrap_exp (by omega) (by omega)]
  · rw [h, Int.ediv_self hpw.ne']
    simp only [if_true, Nat.cast_one, pow_one, Int.one_emod_two]
    rw [hw2, Int.mul_ediv_cancel_left _ (by norm_num), Int.emod_eq_of_lt hpw2.le (by omega), wrap_exp (by omega) (by omega),
      zpow_add_one₀ (by norm_num)]
    push_cast
    ring

/-- The mantissa of the quotient: rounded down to the fraction bits of the output type. -/
theorem divMant {noSat : Bool} {n v o : FFmt} (hn : 1 ≤ n.W) (hv : 1 ≤ v.W) (hc : 1 ≤ n.I + (v.W - v.I) + (o.W - o.I))
    {m m' : ℚ} (hm : n.mant.Rep m) (hm' : v.mant.Rep m') (h : m' ≠ 0)
    (hmin : ¬ (m = -2 ^ (n.I - 1) ∧ m' = -2 ^ (v.I - v.W))) (junk : ℚ) :
    (Model.DivFixed.divS noSat n.mant v.mant (divFmt n v o) (n.mant.raw m) (v.mant.raw m') junk).1 =
      ⌊m / m' * 2 ^ (o.W - o.I : ℤ)⌋ * 2 ^ (-(o.W - o.I : ℤ)) ∧
    ((Model.DivFixed.divS noSat n.mant v.mant (divFmt n v o) (n.mant.raw m) (v.mant.raw m') junk).2 = true ↔
      ∀ k : ℤ, m / m' ≠ k * 2 ^ (-(o.W - o.I : ℤ))) := by
  obtain ⟨r, r0, r1, rfl⟩ := hm
  obtain ⟨s, s0, s1, rfl⟩ := hm'
  have r0' : -2 ^ (n.W - 1) ≤ r := by simpa [minRaw, FFmt.mant] using r0
  have r1' : r < 2 ^ (n.W - 1) := by
    have : r ≤ 2 ^ (n.W - 1) - 1 := by simpa [maxRaw, FFmt.mant] using r1
    omega
  have s0' : -2 ^ (v.W - 1) ≤ s := by simpa [minRaw, FFmt.mant] using s0
  have s1' : s < 2 ^ (v.W - 1) := by
    have : s ≤ 2 ^ (v.W - 1) - 1 := by simpa [maxRaw, FFmt.mant] using s1
    omega
  have hs : s ≠ 0 := by rintro rfl; exact h (by simp [Fmt.val])
  set fq := divFmt n v o with hfq
  have hW : (fq.W : ℤ) = n.I + (v.W - v.I) + (o.W - o.I) := by
    show (((n.I + (v.W - v.I) + (o.W - o.I)).toNat : ℕ) : ℤ) = _
    omega
  have hI : fq.I = n.I + (v.W - v.I) := rfl
  have hF : fq.F = o.W - o.I := by unfold Fmt.F; rw [hW, hI]; ring
  have hW1 : 1 ≤ fq.W := by omega
  obtain ⟨e1, e2⟩ := Props.DivFixed.C04_signed_wrap_partial (noSat := noSat) (fn := n.mant) (fd := v.mant) (fq := fq) hn hv hW1 rfl rfl
    (by
      unfold Props.DivFixed.Reaches Props.DivFixed.guard
      rw [hF]
      show (1 : ℤ) ≤ n.I + v.mant.F + (o.W - o.I) + if fq.Q = .TRN ∨ fq.Q = .TRN_ZERO then 0 else 1
      have : v.mant.F = v.W - v.I := rfl
      rw [this]
      have : fq.Q = .TRN := rfl
      rw [this]; simp; linarith) r0' r1' s0' s1' hs junk
  rw [Fmt.raw_val, Fmt.raw_val, e1, e2]
  have hval : ∀ k : ℤ, fq.val k = k * 2 ^ (-(o.W - o.I : ℤ)) := by
    intro k; unfold Fmt.val; rw [hF]
  refine ⟨?_, by simp only [hval]⟩
  have hsq : (s : ℚ) ≠ 0 := by exact_mod_cast hs
  have hquo : n.mant.val r / v.mant.val s = (r : ℚ) / s * 2 ^ (n.I - n.W - (v.I - v.W)) := by
    rw [mant_val, mant_val, zpow_sub₀ (by norm_num : (2 : ℚ) ≠ 0) (n.I - n.W)]
    have := (Fmt.z_pos (v.I - v.W)).ne'
    field_simp
  -- the magnitude of the quotient
  have hle : |(r : ℚ) / s| ≤ 2 ^ (n.W - 1) := by
    rw [abs_div, div_le_iff₀ (abs_pos.2 hsq)]
    have a : |(r : ℚ)| ≤ 2 ^ (n.W - 1) := by
      have : |r| ≤ 2 ^ (n.W - 1) := abs_le.2 ⟨r0', r1'.le⟩
      exact_mod_cast this
    have b : (1 : ℚ) ≤ |(s : ℚ)| := by
      have := Int.one_le_abs hs
      exact_mod_cast this
    have p : (0 : ℚ) < 2 ^ (n.W - 1) := by positivity
    nlinarith
  have hlt : (r : ℚ) / s < 2 ^ (n.W - 1) := by
    refine lt_of_le_of_ne (le_trans (le_abs_self _) hle) ?_
    intro heq
    apply hmin
    have heq2 : (r : ℚ) = 2 ^ (n.W - 1) * s := by rw [← heq]; field_simp
    have heq3 : r = 2 ^ (n.W - 1) * s := by exact_mod_cast heq2
    have p : (0 : ℤ) < 2 ^ (n.W - 1) := by positivity
    have c1 : s < 1 := by
      by_contra hcon
      have := mul_le_mul_of_nonneg_left (not_lt.1 hcon) p.le
      linarith
    have c2 : -1 ≤ s := by
      by_contra hcon
      have := mul_le_mul_of_nonneg_left (show s ≤ -2 by omega) p.le
      linarith
    have c3 : s = -1 := by omega
    subst c3
    have c4 : r = -2 ^ (n.W - 1) := by linarith
    subst c4
    rw [mant_val, mant_val]
    push_cast
    constructor
    · rw [neg_mul, ← zpow_natCast, Fmt.z_add]
      congr 2
      push_cast [Nat.cast_sub hn]; ring
    · ring
  have hz := Fmt.z_pos (n.I - n.W - (v.I - v.W) + (o.W - o.I))
  have hx : n.mant.val r / v.mant.val s * 2 ^ fq.F = (r : ℚ) / s * 2 ^ (n.I - n.W - (v.I - v.W) + (o.W - o.I)) := by
    rw [hquo, hF, mul_assoc, Fmt.z_add]
  have hpow : (2 : ℚ) ^ (n.W - 1) * 2 ^ (n.I - n.W - (v.I - v.W) + (o.W - o.I)) = ((2 ^ (fq.W - 1) : ℤ) : ℚ) := by
    push_cast
    rw [← zpow_natCast, ← zpow_natCast, Fmt.z_add]
    congr 1
    push_cast [Nat.cast_sub hn, Nat.cast_sub hW1]
    rw [hW]; ring
  have g1 : n.mant.val r / v.mant.val s * 2 ^ fq.F < ((2 ^ (fq.W - 1) : ℤ) : ℚ) := by
    rw [hx, ← hpow]; exact mul_lt_mul_of_pos_right hlt hz
  have g0 : ((-2 ^ (fq.W - 1) : ℤ) : ℚ) ≤ n.mant.val r / v.mant.val s * 2 ^ fq.F := by
    rw [hx, Int.cast_neg, ← hpow, ← neg_mul]
    exact mul_le_mul_of_nonneg_right (abs_le.1 hle).1 hz.le
  have hq : quant fq.Q (n.mant.val r / v.mant.val s * 2 ^ fq.F) = ⌊n.mant.val r / v.mant.val s * 2 ^ fq.F⌋ := rfl
  unfold Fmt.cvt Fmt.cvtRaw
  rw [hq, ovf_of_range hW1, hval, hF]
  · have : (-2 ^ (fq.W - 1) : ℤ) ≤ ⌊n.mant.val r / v.mant.val s * 2 ^ fq.F⌋ := Int.le_floor.2 g0
    simpa [loRaw, minRaw, hfq, divFmt] using this
  · have : ⌊n.mant.val r / v.mant.val s * 2 ^ fq.F⌋ < 2 ^ (fq.W - 1) := Int.floor_lt.2 g1
    have : ⌊n.mant.val r / v.mant.val s * 2 ^ fq.F⌋ ≤ 2 ^ (fq.W - 1) - 1 := by omega
    simpa [maxRaw, hfq, divFmt] using this

/-- The exponent of the quotient fits. -/
theorem div_exp {a b : ℕ} (ha : 1 ≤ a) (hb : 1 ≤ b) {e e' : ℤ} (h0 : -2 ^ (a - 1) ≤ e) (h1 : e < 2 ^ (a - 1)) (h0' : -2 ^ (b - 1) ≤ e')
    (h1' : e' < 2 ^ (b - 1)) : wrap (max a b + 1) true (e - e') = e - e' := by
  have A : (2 : ℤ) ^ (a - 1) ≤ 2 ^ (max a b - 1) := pow_le_pow_right₀ (by norm_num) (by omega)
  have B : (2 : ℤ) ^ (b - 1) ≤ 2 ^ (max a b - 1) := pow_le_pow_right₀ (by norm_num) (by omega)
  have C : (2 : ℤ) ^ max a b = 2 * 2 ^ (max a b - 1) := by
    conv_lhs => rw [show max a b = max a b - 1 + 1 by omega, pow_succ]
    ring
  apply wrap_exp <;> rw [C] <;> linarith

/-- The integer bits of `sqrt_mant`. -/
theorem sqrtMant_I (tq : QMode) (tf : ℤ) (t : FFmt) : (sqrtMant tq tf t).I = (t.I + 1) / 2 := by
  unfold sqrtMant
  simp only [Proof.ComplexSqrt.tmod_two]
  split_ifs with h
  · rw [Proof.ComplexSqrt.tdiv_even h]; omega
  · rw [Proof.ComplexSqrt.tdiv_even (by omega)]

theorem sq_zR (k : ℤ) : ((2 : ℝ) ^ k) ^ 2 = 2 ^ (2 * k) := by rw [pow_two, ← zpow_add₀ (by norm_num)]; congr 1; ring

/-- The root of a number below `2^I` fits, and rounding it does not reach `2^TI`, except for rounding modes and an even `I`. -/
theorem root_fits {tq : QMode} {I TF : ℤ} (hw : 1 ≤ TF + (I + 1) / 2)
    (hq : (tq = .TRN ∨ tq = .TRN_ZERO) ∨ (I % 2 = 1 ∧ 2 ≤ TF + (I + 1) / 2)) {x : ℝ} (h0 : 0 ≤ x) (h1 : x < 2 ^ I) :
    0 ≤ quant tq (Real.sqrt x * 2 ^ TF) ∧ quant tq (Real.sqrt x * 2 ^ TF) < 2 ^ (TF + (I + 1) / 2).toNat := by
  have hz : (0 : ℝ) < 2 ^ TF := zpow_pos (by norm_num) _
  have hs : 0 ≤ Real.sqrt x * 2 ^ TF := mul_nonneg (Real.sqrt_nonneg _) hz.le
  have hn : 0 ≤ quant tq (Real.sqrt x * 2 ^ TF) := le_quant (by exact_mod_cast hs)
  refine ⟨hn, ?_⟩
  have hpow : (2 : ℝ) ^ (TF + (I + 1) / 2) = ((2 ^ (TF + (I + 1) / 2).toNat : ℤ) : ℝ) := by
    push_cast; rw [← zpow_natCast, Int.toNat_of_nonneg (by omega)]
  rcases hq with hq | ⟨hI, hW⟩
  · have e : quant tq (Real.sqrt x * 2 ^ TF) = ⌊Real.sqrt x * 2 ^ TF⌋ := by
      rcases hq with rfl | rfl
      · rfl
      · unfold quant; rw [if_neg (not_lt.2 hs)]
    rw [e, Int.floor_lt, ← hpow, add_comm, zpow_add₀ (by norm_num)]
    apply mul_lt_mul_of_pos_right _ hz
    rw [Real.sqrt_lt' (zpow_pos (by norm_num) _), sq_zR]
    exact lt_of_lt_of_le h1 (zpow_le_zpow_right₀ (by norm_num) (by omega))
  · have hb : Real.sqrt x ≤ 3 / 4 * 2 ^ ((I + 1) / 2) := by
      apply Real.sqrt_le_iff.2
      have p : (0 : ℝ) < 2 ^ ((I + 1) / 2) := zpow_pos (by norm_num) _
      refine ⟨by positivity, ?_⟩
      rw [mul_pow, sq_zR, show 2 * ((I + 1) / 2) = I + 1 by omega, zpow_add_one₀ (by norm_num)]
      have p : (0 : ℝ) < 2 ^ I := zpow_pos (by norm_num) _
      linarith
    have h4 : (4 : ℝ) ≤ 2 ^ (TF + (I + 1) / 2) := by
      have := zpow_le_zpow_right₀ (by norm_num : (1 : ℝ) ≤ 2) hW
      norm_num at this ⊢; exact this
    have hc := mul_le_mul_of_nonneg_right hb hz.le
    rw [mul_assoc, ← zpow_add₀ (by norm_num), add_comm] at hc
    have hq : quant tq (Real.sqrt x * 2 ^ TF) ≤ 2 ^ (TF + (I + 1) / 2).toNat - 1 := by
      apply quant_le
      push_cast
      push_cast at hpow
      rw [← hpow]
      linarith
    omega

/-- The square root of ac_float before its conversion. -/
theorem sqrt_eq {tq : QMode} {tf : ℤ} {t : FFmt} (d : Dst) (hW : 1 ≤ t.W) (hw : 1 ≤ tf + (t.I + 1) / 2)
    (hq : (tq = .TRN ∨ tq = .TRN_ZERO) ∨ (t.I % 2 = 1 ∧ 2 ≤ tf + (t.I + 1) / 2)) {m : ℚ} (hm : t.mant.Rep m) (h0 : 0 ≤ m) (e : ℤ) :
    Model.Float.sqrt tq tf t d m e =
      d.cvt (quant tq (Real.sqrt ((m * 2 ^ (e % 2) : ℚ) : ℝ) * 2 ^ tf) * 2 ^ (-tf) * 2 ^ (e / 2)) := by
  have hlt := mant_lt hW hm
  obtain ⟨r, r0, r1, rfl⟩ := hm
  have r1' : r < 2 ^ (t.W - 1) := by
    have : r ≤ 2 ^ (t.W - 1) - 1 := by simpa [maxRaw, FFmt.mant] using r1
    omega
  have hr : 0 ≤ r := by
    by_contra hc
    have : ((r : ℤ) : ℚ) < 0 := by exact_mod_cast not_le.1 hc
    rw [mant_val] at h0
    have := mul_neg_of_neg_of_pos this (Fmt.z_pos (t.I - t.W))
    linarith
  have hw2 : (2 : ℤ) ^ t.W = 2 * 2 ^ (t.W - 1) := by
    conv_lhs => rw [show t.W = t.W - 1 + 1 by omega, pow_succ]
    ring
  set fx : Fmt := ⟨t.W, t.I, false, t.Q, .WRAP⟩ with hfx
  have hv : ∀ k : ℤ, fx.val k = t.mant.val k := fun k => rfl
  have hc : fx.cvt (t.mant.val r) = fx.val r := by
    rw [← hv]
    exact Fmt.cvt_val hW (by simpa [loRaw, minRaw, hfx] using hr) (by simp only [maxRaw, hfx, Bool.false_eq_true, if_false]; omega)
  have hpar : r * 2 ^ (e % 2).toNat < 2 ^ t.W ∧ 0 ≤ r * 2 ^ (e % 2).toNat ∧
      fx.val (r * 2 ^ (e % 2).toNat) = t.mant.val r * 2 ^ (e % 2) := by
    rcases Int.emod_two_eq_zero_or_one e with h | h <;> rw [h]
    · simp [hv]; omega
    · refine ⟨by simp; omega, by simp; omega, ?_⟩
      rw [hv, mant_val, mant_val]; push_cast; ring
  obtain ⟨p1, p2, p3⟩ := hpar
  unfold Model.Float.sqrt
  simp only []
  rw [← hfx, hc, Fmt.raw_val]
  have hwr : wrap t.W false (r * 2 ^ (e % 2).toNat) = r * 2 ^ (e % 2).toNat := by
    unfold wrap; simp only [Bool.false_eq_true, if_false]; exact Int.emod_eq_of_lt p2 p1
  have hI := sqrtMant_I tq tf t
  have hFW : (sqrtMant tq tf t).W = (tf + (t.I + 1) / 2).toNat := by
    rw [← hI]; rfl
  have hFF : (sqrtMant tq tf t).F = tf := by
    unfold Fmt.F; rw [hFW, hI]; omega
  rw [hwr, Props.SqrtFixed.C07_correctly_rounded (fo := sqrtMant tq tf t) hW (by rw [hFW]; omega) rfl rfl p2 p1, p3]
  have hx1 : ((t.mant.val r * 2 ^ (e % 2) : ℚ) : ℝ) < 2 ^ t.I := by
    have : t.mant.val r * 2 ^ (e % 2) < 2 ^ t.I := by
      have hz := Fmt.z_succ (t.I - 1)
      rw [show t.I - 1 + 1 = t.I by ring] at hz
      rw [hz]
      have hzz := Fmt.z_pos (t.I - 1)
      rcases Int.emod_two_eq_zero_or_one e with h | h <;> rw [h] <;> norm_num <;> linarith
    have := (Rat.cast_lt (K := ℝ)).2 this
    push_cast at this ⊢
    exact this
  have hx0 : (0 : ℝ) ≤ ((t.mant.val r * 2 ^ (e % 2) : ℚ) : ℝ) := by
    have := mul_nonneg h0 (Fmt.z_pos (e % 2)).le
    exact_mod_cast this
  obtain ⟨q0, q1⟩ := root_fits hw hq hx0 hx1
  congr 2
  unfold Fmt.cvt Fmt.cvtRaw
  rw [hFF]
  have hQ : (sqrtMant tq tf t).Q = tq := rfl
  have hO : (sqrtMant tq tf t).O = .WRAP := rfl
  have hS : (sqrtMant tq tf t).S = false := rfl
  rw [hQ, ovf_of_range (by rw [hFW]; omega)]
  · unfold Fmt.val; rw [hFF]
  · rw [hO, hS]; simpa [loRaw, minRaw] using q0
  · rw [hS, hFW]; simp only [maxRaw, Bool.false_eq_true, if_false]; omega

/-- Conversion of a number of the type. -/
theorem cvt_num {o : FFmt} (hW : 1 ≤ o.W) {m : ℚ} {e : ℤ} (hm : o.mant.Rep m) (h0 : -2 ^ (o.E - 1) ≤ e) (h1 : e < 2 ^ (o.E - 1)) :
    o.cvt (m * 2 ^ e) = m * 2 ^ e := by
  unfold FFmt.cvt
  split_ifs with hx
  · rw [hx]
  simp only []
  obtain ⟨r, r0, r1, rfl⟩ := hm
  set x := o.mant.val r * 2 ^ e with hxd
  have r0' : -2 ^ (o.W - 1) ≤ r := by simpa [minRaw, FFmt.mant] using r0
  have r1' : r < 2 ^ (o.W - 1) := by
    have : r ≤ 2 ^ (o.W - 1) - 1 := by simpa [maxRaw, FFmt.mant] using r1
    omega
  have hpow : (2 : ℚ) ^ (o.W - 1) * 2 ^ (o.I - o.W) * 2 ^ e = 2 ^ (o.I - 1 + e) := by
    rw [← zpow_natCast, Fmt.z_add, Fmt.z_add]; congr 1; push_cast [Nat.cast_sub hW]; ring
  have hz : (0 : ℚ) < 2 ^ (o.I - o.W) * 2 ^ e := mul_pos (Fmt.z_pos _) (Fmt.z_pos _)
  have hxr : x = r * (2 ^ (o.I - o.W) * 2 ^ e) := by rw [hxd, mant_val, mul_assoc]
  have u1 : x < 2 ^ (o.I - 1 + e) := by
    have : (r : ℚ) < 2 ^ (o.W - 1) := by exact_mod_cast r1'
    rw [hxr, ← hpow, mul_assoc]; exact mul_lt_mul_of_pos_right this hz
  have u0 : -x ≤ 2 ^ (o.I - 1 + e) := by
    have : (-r : ℚ) ≤ 2 ^ (o.W - 1) := by
      have : -r ≤ 2 ^ (o.W - 1) := by omega
      exact_mod_cast this
    rw [hxr, ← hpow, mul_assoc, ← neg_mul]; exact mul_le_mul_of_nonneg_right this hz.le
  have hex : o.exp x ≤ e := by
    unfold FFmt.exp
    apply max_le h0
    split_ifs with hn
    · have := (Int.le_zpow_iff_clog_le (R := ℚ) (b := 2) (by norm_num) (r := -x) (x := o.I - 1 + e) (by linarith)).1 (by exact_mod_cast u0)
      omega
    · have hp : 0 < x := lt_of_le_of_ne (not_lt.1 hn) (Ne.symm hx)
      have := (Int.lt_zpow_iff_log_lt (R := ℚ) (b := 2) (by norm_num) (x := o.I - 1 + e) hp).1 (by exact_mod_cast u1)
      omega
  have hF : (2 : ℚ) ^ (o.I - o.W) = 2 ^ (-o.mant.F) := by congr 1; unfold Fmt.F FFmt.mant; ring
  generalize o.exp x = ex at *
  have hint : x * 2 ^ (-ex) * 2 ^ o.mant.F = ((r * 2 ^ (e - ex).toNat : ℤ) : ℚ) := by
    push_cast
    rw [hxr, hF, ← zpow_natCast, Int.toNat_of_nonneg (by omega), mul_assoc, mul_assoc, Fmt.z_add, Fmt.z_add, Fmt.z_add]
    congr 2; ring
  have hv : (quant o.Q (x * 2 ^ (-ex) * 2 ^ o.mant.F) : ℚ) * 2 ^ (-o.mant.F) * 2 ^ ex = x := by
    rw [hint, quant_intCast, ← hint, mul_assoc, mul_assoc, mul_assoc, Fmt.z_add, Fmt.z_add, Fmt.z_add]
    rw [show -ex + (o.mant.F + (-o.mant.F + ex)) = 0 by ring, zpow_zero, mul_one]
  rw [hv]
  have he : (2 : ℚ) ^ e ≤ 2 ^ ((2 : ℤ) ^ (o.E - 1) - 1) := zpow_le_zpow_right₀ (by norm_num) (by omega)
  have hmax : 0 ≤ o.mant.maxVal := by
    unfold Fmt.maxVal; rw [mant_val]
    exact mul_nonneg (by exact_mod_cast maxRaw_nonneg _ _) (Fmt.z_pos _).le
  have hmin : o.mant.minVal ≤ 0 := by
    unfold Fmt.minVal; rw [mant_val]
    exact mul_nonpos_of_nonpos_of_nonneg (by exact_mod_cast minRaw_nonpos _ _) (Fmt.z_pos _).le
  rw [if_neg, if_neg]
  · rw [not_lt]
    have a : o.mant.minVal ≤ o.mant.val r := Fmt.val_le.2 r0
    have b := mul_le_mul_of_nonneg_right a (Fmt.z_pos e).le
    have c := mul_le_mul_of_nonpos_left he hmin
    exact le_trans c b
  · rw [not_lt]
    have a : o.mant.val r ≤ o.mant.maxVal := Fmt.val_le.2 r1
    have b := mul_le_mul_of_nonneg_right a (Fmt.z_pos e).le
    have c := mul_le_mul_of_nonneg_left he hmax
    exact le_trans b c

end Proof.FloatDiv
