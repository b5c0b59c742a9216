import Verif.Model.FloatHcordic
import Verif.Proof.HcordicPow
import Verif.Proof.HcordicExp6
import Verif.Proof.FloatSqrt
import Verif.Proof.FloatPow
import Verif.Proof.FloatCvt

/-! # Lemmas for C68, C69 and C70: the ac_float functions of ac_hcordic.h -/

namespace Proof.FloatHcordic
open Ac Model.Float Model.FloatHcordic Proof.Hcordic
open Model.Hcordic (fbits normed logRr exp2Rr Scale)

theorem mantU_rep {t : FFmt} (hW : 1 ≤ t.W) {m : ℚ} (hm : t.mant.Rep m) (h0 : 0 ≤ m) : (mantU t).Rep m :=
  Proof.FloatSqrt.pos_rep (t := { t with Q := .TRN }) hW hm h0

theorem mantU_cvt {t : FFmt} (hW : 2 ≤ t.W) {m : ℚ} (hm : t.mant.Rep m) (h0 : 0 ≤ m) : (mantU t).cvt m = m :=
  Proof.FloatSqrt.pos_cvt (t := { t with Q := .TRN }) hW hm h0

theorem expMax_eq {t : FFmt} (hW : 2 ≤ t.W) : (expMax t : ℤ) = max (t.I - 1) (t.W - t.I - 1) + 2 ^ (t.E - 1) := by
  unfold expMax
  have : (0 : ℤ) < 2 ^ (t.E - 1) := by positivity
  rw [Int.toNat_of_nonneg (by omega)]

/-- The normalized mantissa and the exponent. -/
theorem parts (sc : Scale) {tf : Option ℕ} {tq : QMode} {t : FFmt} {z k : ℕ} (hk : 1 ≤ k) (hsc : sc = .ln2 → 2 ≤ k) (hW : 2 ≤ t.W)
    (hz : tf.isSome → fbits tf (t.W - 1) = z) (h44 : max (fbits tf (t.W - 1)) z ≤ 44)
    (hp1 : 1 ≤ fbits tf (t.W - 1)) (hq : down tq = true ∨ tf = none) {m : ℚ} {e : ℤ} (hm : t.mant.Rep m)
    (he : -2 ^ (t.E - 1) ≤ e ∧ e < 2 ^ (t.E - 1)) (hm0 : 0 < m) :
    ∃ (μ : ℝ) (zc : ℚ), logRr sc ⟨fbits tf (mantU t).W, 0, false, tq, .WRAP⟩ ⟨z + k, k, true, .TRN, .WRAP⟩
        (normed tf tq (mantU t) ((mantU t).cvt m)).1 = some zc ∧
      ((m * 2 ^ e : ℚ) : ℝ) = μ * 2 ^ (e + (normed tf tq (mantU t) ((mantU t).cvt m)).2) ∧ 1 / 2 ≤ μ ∧ μ < 1 ∧
      |e + (normed tf tq (mantU t) ((mantU t).cvt m)).2| ≤ expMax t ∧
      |(zc : ℝ) - Real.log μ / csc sc| ≤ (5 + cutCost tf (2 / csc sc)) / 2 ^ z ∧ (∃ r : ℤ, zc = r / 2 ^ z) ∧ -2 ≤ zc ∧ zc < 1 := by
  rw [mantU_cvt hW hm hm0.le]
  have hrep := mantU_rep (by omega) hm hm0.le
  have hfW : (mantU t).W = t.W - 1 := rfl
  have hfI : (mantU t).I = t.I - 1 := rfl
  obtain ⟨μ, zc, z1, z2, z3, z4, z5, z7, z8⟩ := log_parts sc (tf := tf) (tq := tq) (f := mantU t)
    (out := ⟨z, 0, false, .TRN, .WRAP⟩) (t := fbits tf z) hk hsc (by omega) rfl (by unfold Fmt.F; simp)
    (by
      cases tf with
      | none => exact h44
      | some a => have := hz rfl; simp only [fbits, Option.getD_some] at *; omega) hp1 hq hrep hm0
  have hzz : fbits tf z = z := by
    cases tf with
    | none => rfl
    | some a => exact hz rfl
  rw [hzz] at z1 z7 z8
  refine ⟨μ, zc, z1, ?_, z3, z4, ?_, z7, z8⟩
  · have h2 : (2 : ℝ) ≠ 0 := by norm_num
    push_cast
    rw [z2, zpow_add₀ h2]; ring
  · generalize (normed tf tq (mantU t) m).2 = n at *
    obtain ⟨p0, p1⟩ := pos_range rfl hrep hm0
    rw [hfW, hfI] at p0
    rw [hfI] at p1
    have p0' := (Rat.cast_le (K := ℝ)).2 p0
    have p1' := (Rat.cast_lt (K := ℝ)).2 p1
    push_cast at p0' p1'
    rw [z2] at p0' p1'
    have hpos : (0 : ℝ) < 2 ^ n := by positivity
    have a0 : (2 : ℝ) ^ (t.I - 1 - (t.W - 1 : ℕ)) < 2 ^ n := lt_of_le_of_lt p0' (by
      have := mul_lt_mul_of_pos_right z4 hpos; linarith)
    have a1 : (2 : ℝ) ^ (n - 1) < 2 ^ (t.I - 1) := by
      refine lt_of_le_of_lt ?_ p1'
      rw [zpow_sub_one₀ (by norm_num)]
      have := mul_le_mul_of_nonneg_right z3 hpos.le; linarith
    have b0 := (zpow_lt_zpow_iff_right₀ (by norm_num : (1 : ℝ) < 2)).1 a0
    have b1 := (zpow_lt_zpow_iff_right₀ (by norm_num : (1 : ℝ) < 2)).1 a1
    rw [expMax_eq hW]
    obtain ⟨e0, e1⟩ := he
    generalize (2 : ℤ) ^ (t.E - 1) = P at *
    rw [abs_le]
    constructor <;> omega

theorem abs_lt_nbits {e : ℤ} {n : ℕ} (h : |e| ≤ n) : |e| < 2 ^ nbits n := by
  refine lt_of_le_of_lt h ?_
  exact_mod_cast Model.Bits.lt_two_pow_nbits n

/-- An integer in an integer type. -/
theorem int_cvt {k : ℕ} {e : ℤ} (h : |e| < 2 ^ k) : (⟨k + 1, k + 1, true, .TRN, .WRAP⟩ : Fmt).cvt (e : ℚ) = e := by
  have hv : (e : ℚ) = (⟨k + 1, ((k + 1 : ℕ) : ℤ), true, .TRN, .WRAP⟩ : Fmt).val e := by unfold Fmt.val Fmt.F; simp
  have hb := abs_lt.1 h
  have := Proof.Atan2.cvt_raw (g := ⟨k + 1, ((k + 1 : ℕ) : ℤ), true, .TRN, .WRAP⟩) (r := e) (by simp) rfl
    (by simp only [minRaw, if_true]; rw [Nat.add_sub_cancel]; linarith [hb.1])
    (by simp only [maxRaw, if_true]; rw [Nat.add_sub_cancel]; linarith [hb.2])
  rw [← hv] at this
  push_cast at this
  exact this

/-- Base 2. -/
theorem log2_eq {tf : Option ℕ} {tq : QMode} {t o : FFmt} (hW : 2 ≤ t.W)
    (h44 : max (fbits tf (t.W - 1)) (tbits tf o) ≤ 44)
    (hp1 : 1 ≤ fbits tf (t.W - 1)) (hq : down tq = true ∨ tf = none) {m : ℚ} {e : ℤ} (hm : t.mant.Rep m)
    (he : -2 ^ (t.E - 1) ≤ e ∧ e < 2 ^ (t.E - 1)) (hm0 : 0 < m) :
    ∃ r : ℚ, (∀ d : Dst, log2 tf tq t o d m e = some (d.cvt r)) ∧
      |(r : ℝ) - Real.logb 2 ((m * 2 ^ e : ℚ) : ℝ)| ≤ (5 + cutCost tf 3) / 2 ^ tbits tf o := by
  obtain ⟨μ, zc, z1, z2, z3, z4, z5, z7, -⟩ := parts .ln2 (k := 2) (z := tbits tf o) (by norm_num) (fun _ => le_refl _) hW
    (fun h => by obtain ⟨a, rfl⟩ := Option.isSome_iff_exists.1 h; rfl) h44 hp1 hq hm he hm0
  refine ⟨(e + (normed tf tq (mantU t) ((mantU t).cvt m)).2 : ℤ) + zc, fun d => ?_, log2_tail (by linarith) z2 z7⟩
  unfold log2
  push_cast at z1
  simp only [z1, Option.bind_eq_bind, Option.bind_some]
  rw [int_cvt (abs_lt_nbits z5)]

/-- Base e. -/
theorem log_eq {tf : Option ℕ} {tq : QMode} {t o : FFmt} (hW : 2 ≤ t.W)
    (h44 : max (fbits tf (t.W - 1)) (tbits tf o) ≤ 44)
    (hp1 : 1 ≤ fbits tf (t.W - 1)) (hq : down tq = true ∨ tf = none) {m : ℚ} {e : ℤ} (hm : t.mant.Rep m)
    (he : -2 ^ (t.E - 1) ≤ e ∧ e < 2 ^ (t.E - 1)) (hm0 : 0 < m) :
    ∃ r : ℚ, (∀ d : Dst, log tf tq t o d m e = some (d.cvt r)) ∧
      |(r : ℝ) - Real.log ((m * 2 ^ e : ℚ) : ℝ)| ≤
        (6 + 51 / 100 * |Real.logb 2 ((m * 2 ^ e : ℚ) : ℝ)| + cutCost tf 2) / 2 ^ tbits tf o := by
  obtain ⟨μ, zc, z1, z2, z3, z4, z5, z7, -⟩ := parts .one (k := 1) (z := tbits tf o) (by norm_num) (fun h => by cases h) hW
    (fun h => by obtain ⟨a, rfl⟩ := Option.isSome_iff_exists.1 h; rfl) h44 hp1 hq hm he hm0
  have ht44 : tbits tf o ≤ 44 := le_trans (le_max_right _ _) h44
  refine ⟨_, fun d => ?_, log_tail ht44 z3 z4 z2 z7⟩
  unfold log
  push_cast at z1
  simp only [z1, Option.bind_eq_bind, Option.bind_some]
  rw [offset_eq ht44 (abs_lt_nbits z5)]

/-- No input reads outside the tables. -/
theorem log_some (tf : Option ℕ) (tq : QMode) (t o : FFmt) (d : Dst) (h1 : fbits tf (t.W - 1) ≤ 44) (h2 : tbits tf o ≤ 44) (m : ℚ) (e : ℤ) :
    (log tf tq t o d m e).isSome ∧ (log2 tf tq t o d m e).isSome := by
  have hw : (mantU t).W = t.W - 1 := rfl
  obtain ⟨a, ha⟩ := Option.isSome_iff_exists.1 (logRr_some .one ⟨fbits tf (mantU t).W, 0, false, tq, .WRAP⟩
    ⟨tbits tf o + 1, 1, true, .TRN, .WRAP⟩ (by rw [hw]; unfold Fmt.F; simp only []; omega) (normed tf tq (mantU t) ((mantU t).cvt m)).1)
  obtain ⟨b, hb⟩ := Option.isSome_iff_exists.1 (logRr_some .ln2 ⟨fbits tf (mantU t).W, 0, false, tq, .WRAP⟩
    ⟨tbits tf o + 2, 2, true, .TRN, .WRAP⟩ (by rw [hw]; unfold Fmt.F; simp only []; omega) (normed tf tq (mantU t) ((mantU t).cvt m)).1)
  unfold log log2
  simp only [ha, hb, Option.bind_eq_bind, Option.bind_some, Option.isSome_some, and_self]

/-! ## Exponentials -/

open Proof.FloatPow (outRange range_lt)

theorem arg_F (tf : Option ℕ) (tq : QMode) (o : FFmt) : (argFmt tf tq o).F = tbits tf o := by
  unfold argFmt Fmt.F; push_cast; ring

theorem arg_W (tf : Option ℕ) (tq : QMode) (o : FFmt) : (argFmt tf tq o).W - 1 = argI o - 1 + tbits tf o ∧ 1 ≤ (argFmt tf tq o).W ∧ 1 ≤ argI o := by
  have : 1 ≤ argI o := by unfold argI; omega
  unfold argFmt; simp only; omega

theorem arg_lt (o : FFmt) (hW : 1 ≤ o.W) : 0 < outRange o ∧ outRange o + 1 ≤ 2 ^ (argI o - 1) := range_lt o hW

theorem arg_mono (tf : Option ℕ) (tq : QMode) (o : FFmt) {x x' : ℚ} (h : x ≤ x') : (argFmt tf tq o).cvt x ≤ (argFmt tf tq o).cvt x' :=
  Fmt.cvt_mono (Or.inl rfl) h

/-- The argument inside the range. -/
theorem arg_err (tf : Option ℕ) (tq : QMode) {o : FFmt} (hW : 1 ≤ o.W) {x : ℚ} (h : |x| ≤ outRange o) :
    |(argFmt tf tq o).cvt x - x| ≤ 1 / 2 ^ tbits tf o := by
  obtain ⟨-, hr⟩ := arg_lt o hW
  obtain ⟨x1, x2⟩ := abs_le.1 h
  have hr' : (outRange o : ℚ) + 1 ≤ 2 ^ (argI o - 1) := by exact_mod_cast hr
  obtain ⟨hWW, w1, i1⟩ := arg_W tf tq o
  have hS : (argFmt tf tq o).S = true := rfl
  have hp : (1 : ℚ) ≤ 2 ^ tbits tf o := one_le_pow₀ (by norm_num)
  have := Fmt.cvt_err (f := argFmt tf tq o) (R := ℚ) (x := x) w1 ?_ ?_
  · rw [arg_F, zpow_neg, zpow_natCast] at this
    have h2 : |(argFmt tf tq o).cvt x - x| < ((2 : ℚ) ^ tbits tf o)⁻¹ := by simpa using this
    rw [one_div]; exact h2.le
  · have : loRaw (argFmt tf tq o).W (argFmt tf tq o).S (argFmt tf tq o).O = -2 ^ (argI o - 1 + tbits tf o) := by
      have : (argFmt tf tq o).O = .SAT := rfl
      rw [this, hS]; simp [loRaw, minRaw, hWW]
    rw [this, arg_F, pow_add, zpow_natCast]
    push_cast
    have := mul_le_mul_of_nonneg_right (show -(2 : ℚ) ^ (argI o - 1) ≤ x by linarith) (by linarith : (0 : ℚ) ≤ 2 ^ tbits tf o)
    linarith
  · rw [hS, arg_F, zpow_natCast]
    simp only [maxRaw, if_true]
    rw [hWW, pow_add]
    push_cast
    have := mul_le_mul_of_nonneg_right (show x ≤ (2 : ℚ) ^ (argI o - 1) - 1 by linarith) (by linarith : (0 : ℚ) ≤ 2 ^ tbits tf o)
    linarith

/-- An integer in the range is not changed. -/
theorem arg_int (tf : Option ℕ) (tq : QMode) {o : FFmt} (hW : 1 ≤ o.W) {n : ℤ} (h : |n| ≤ outRange o) : (argFmt tf tq o).cvt (n : ℚ) = n := by
  obtain ⟨-, hr⟩ := arg_lt o hW
  obtain ⟨x1, x2⟩ := abs_le.1 h
  obtain ⟨hWW, w1, i1⟩ := arg_W tf tq o
  have hS : (argFmt tf tq o).S = true := rfl
  have hp : (1 : ℤ) ≤ 2 ^ tbits tf o := one_le_pow₀ (by norm_num)
  apply Fmt.cvt_rep w1 (by simp [argFmt])
  refine ⟨n * 2 ^ tbits tf o, ?_, ?_, ?_⟩
  · rw [hS]; simp only [minRaw, if_true]; rw [hWW, pow_add]
    have := mul_le_mul_of_nonneg_right (show -(2 : ℤ) ^ (argI o - 1) ≤ n by linarith) (by linarith : (0 : ℤ) ≤ 2 ^ tbits tf o)
    linarith
  · rw [hS]; simp only [maxRaw, if_true]; rw [hWW, pow_add]
    have := mul_le_mul_of_nonneg_right (show n ≤ (2 : ℤ) ^ (argI o - 1) - 1 by linarith) (by linarith : (0 : ℤ) ≤ 2 ^ tbits tf o)
    linarith
  · unfold Fmt.val; rw [arg_F, zpow_neg, zpow_natCast]; push_cast; field_simp

/-- The last two arguments of the reduced exponential are not rounded up to two. -/
theorem last_two : Proof.Pwl.allLt 46 (fun f => decide (f < 3) || decide (eo f (zIn f (2 ^ f - 2)) + 2 ≤ 2 ^ (f + 1) ∧
    eo f (zIn f (2 ^ f - 4)) + 2 ≤ 2 ^ (f + 1))) = true := by
  decide +kernel

/-- An argument with as many fraction bits as the result is not rounded up to two. -/
theorem no_wrap {T X : ℕ} (h3 : 3 ≤ T) (h44 : T ≤ 44) (hX : X < 2 ^ T) :
    (2 : ℝ) ^ ((X : ℝ) / 2 ^ T) ≤ 2 - 3 / 2 ^ T ∨ eo (T + 1) (zIn (T + 1) (2 * X)) + 2 ≤ 2 ^ (T + 2) := by
  have h8 : 2 ^ 3 ≤ 2 ^ T := Nat.pow_le_pow_right (by norm_num) h3
  have tb := Proof.Pwl.allLt_iff.1 last_two (T + 1) (by omega)
  rw [Bool.or_eq_true] at tb
  obtain ⟨t1, t2⟩ := of_decide_eq_true (tb.resolve_left (by simp; omega))
  rcases Nat.lt_or_ge X (2 ^ T - 2) with h | h
  · left
    have hXr : (X : ℝ) + 3 ≤ 2 ^ T := by exact_mod_cast (show X + 3 ≤ 2 ^ T by omega)
    have hp : (0 : ℝ) < 2 ^ T := by positivity
    have hu1 : (1 : ℝ) / 2 ^ T ≤ 1 / 8 := by
      apply one_div_le_one_div_of_le (by norm_num); exact_mod_cast h8
    have hu0 : (0 : ℝ) < 1 / 2 ^ T := by positivity
    have hx : (X : ℝ) / 2 ^ T ≤ 1 - 3 * (1 / 2 ^ T) := by
      rw [div_le_iff₀ hp, sub_mul, mul_assoc, one_div, inv_mul_cancel₀ hp.ne']; linarith
    rw [show (3 : ℝ) / 2 ^ T = 3 * (1 / 2 ^ T) by ring]
    generalize (1 : ℝ) / 2 ^ T = u at *
    refine le_trans (Real.rpow_le_rpow_of_exponent_le (by norm_num) hx) ?_
    have l1 := Real.log_two_gt_d9
    have l2 := Real.log_two_lt_d9
    rw [Real.rpow_sub (by norm_num), Real.rpow_one, ← exp_two_pow, div_eq_mul_inv, ← Real.exp_neg]
    have hy0 : 3 * u * (69 / 100) ≤ 3 * u * Real.log 2 := mul_le_mul_of_nonneg_left (by linarith) (by linarith)
    have hy1 : 3 * u * Real.log 2 ≤ 3 * u * (7 / 10) := mul_le_mul_of_nonneg_left (by linarith) (by linarith)
    have := exp_neg_le (t := 3 * u * Real.log 2) (by linarith) (by linarith)
    generalize 3 * u * Real.log 2 = y at *
    have hy2 : y ^ 2 ≤ (3 * u * (7 / 10)) ^ 2 := pow_le_pow_left₀ (by linarith) hy1 2
    nlinarith
  · right
    have e2 : 2 ^ (T + 1) = 2 * 2 ^ T := by rw [pow_succ']
    rcases Nat.lt_or_ge X (2 ^ T - 1) with h' | h'
    · rw [show (2 * X : ℤ) = 2 ^ (T + 1) - 4 by
        rw [pow_succ']
        have : (X : ℤ) = 2 ^ T - 2 := by
          have : X + 2 = 2 ^ T := by omega
          exact_mod_cast eq_sub_of_add_eq (by exact_mod_cast this : (X : ℤ) + 2 = 2 ^ T)
        rw [this]; ring]
      exact t2
    · rw [show (2 * X : ℤ) = 2 ^ (T + 1) - 2 by
        rw [pow_succ']
        have : (X : ℤ) = 2 ^ T - 1 := by
          have : X + 1 = 2 ^ T := by omega
          exact_mod_cast eq_sub_of_add_eq (by exact_mod_cast this : (X : ℤ) + 1 = 2 ^ T)
        rw [this]; ring]
      exact t1

/-- The result for an argument in the intermediate type, from the reduced exponential of its fraction part. -/
theorem end_link {tf : Option ℕ} {tq : QMode} {o : FFmt} {v y : ℚ} (hv : (argFmt tf tq o).Rep v)
    (hy : exp2Rr ⟨tbits tf o, 0, false, .TRN, .WRAP⟩ (oE (tbits tf o) tq) (Int.fract v) = some y) (d : Dst) :
    expEnd tf tq o d v = some (d.cvt (y * 2 ^ ⌊v⌋)) := by
  obtain ⟨hWW, w1, i1⟩ := arg_W tf tq o
  obtain ⟨r, r0, r1, rfl⟩ := hv
  have hval : (argFmt tf tq o).val r = (r : ℚ) / (2 ^ tbits tf o : ℕ) := by
    unfold Fmt.val; rw [arg_F, zpow_neg, zpow_natCast, div_eq_mul_inv]; push_cast; rfl
  have hfr : (⟨tbits tf o, 0, false, .TRN, .WRAP⟩ : Fmt).val (r % 2 ^ tbits tf o) = Int.fract ((argFmt tf tq o).val r) := by
    rw [hval, Int.fract_div_intCast_eq_div_intCast_mod]
    unfold Fmt.val Fmt.F
    push_cast
    rw [sub_zero, zpow_neg, zpow_natCast, div_eq_mul_inv]
  have hfl : wrap (argI o) true ⌊(argFmt tf tq o).val r⌋ = ⌊(argFmt tf tq o).val r⌋ := by
    have hS : (argFmt tf tq o).S = true := rfl
    rw [hS] at r0 r1
    simp only [minRaw, maxRaw, if_true] at r0 r1
    rw [hWW, pow_add] at r0 r1
    have hp : (0 : ℤ) < 2 ^ tbits tf o := by positivity
    have hfd : ⌊(argFmt tf tq o).val r⌋ = r / 2 ^ tbits tf o := by
      rw [hval, Int.floor_div_natCast, Int.floor_intCast]; push_cast; rfl
    apply wrap_of_range i1 <;> simp only [minRaw, maxRaw, if_true] <;> rw [hfd]
    · rw [Int.le_ediv_iff_mul_le hp]; linarith
    · apply Int.le_sub_one_of_lt
      rw [Int.ediv_lt_iff_lt_mul hp]; linarith
  unfold expEnd
  simp only [Fmt.raw_val, hfr, hfl]
  change (exp2Rr _ (oE (tbits tf o) tq) _).bind _ = _
  rw [hy]
  rfl

/-- The relative error is less than one half. -/
theorem end_half {T : ℕ} (h4 : 4 ≤ T) {r v : ℝ} (h : |r - 2 ^ v| ≤ 13 / 2 / 2 ^ T * 2 ^ v) :
    1 / 2 * 2 ^ v < r ∧ r ≤ 3 / 2 * 2 ^ v := by
  have h16 : (16 : ℝ) ≤ 2 ^ T := by
    rw [show (16 : ℝ) = 2 ^ 4 by norm_num]; exact pow_le_pow_right₀ (by norm_num) h4
  have hu : (13 : ℝ) / 2 / 2 ^ T ≤ 13 / 32 := by
    rw [div_le_iff₀ (by positivity)]; linarith
  have hX : (0 : ℝ) < 2 ^ v := by positivity
  generalize (2 : ℝ) ^ v = X at *
  have := mul_le_mul_of_nonneg_right hu hX.le
  obtain ⟨a, b⟩ := abs_le.1 h
  constructor <;> linarith

/-- With one to three fraction bits, by evaluation: the power is right up to two units, and up to one half. -/
def fewOk (T : ℕ) (tq : QMode) (X : ℕ) : Bool :=
  match exp2Rr ⟨T, 0, false, .TRN, .WRAP⟩ (oE T tq) (X / 2 ^ T) with
  | none => false
  | some y => decide (0 < y) && decide (2 ^ X < (2 * y) ^ (2 ^ T)) && decide (y ^ (2 ^ T) ≤ (3 / 2) ^ (2 ^ T) * 2 ^ X) &&
      decide (y ^ (2 ^ T) ≤ (1 + 2 / 2 ^ T) ^ (2 ^ T) * 2 ^ X) && decide ((1 - 2 / 2 ^ T) ^ (2 ^ T) * 2 ^ X ≤ y ^ (2 ^ T))

theorem few_all : (List.all [.TRN, .RND, .TRN_ZERO, .RND_ZERO, .RND_INF, .RND_MIN_INF, .RND_CONV, .RND_CONV_ODD] fun tq =>
    List.all [1, 2, 3] fun T => Proof.Pwl.allLt (2 ^ T) fun X => fewOk T tq X) = true := by decide +kernel

theorem few_ok {T : ℕ} (h1 : 1 ≤ T) (h3 : T ≤ 3) (tq : QMode) {X : ℕ} (hX : X < 2 ^ T) : fewOk T tq X = true := by
  have a := List.all_eq_true.1 (List.all_eq_true.1 few_all tq (by cases tq <;> simp)) T (by
    have : T = 1 ∨ T = 2 ∨ T = 3 := by omega
    rcases this with rfl | rfl | rfl <;> simp)
  exact Proof.Pwl.allLt_iff.1 a X hX

/-- A rational number and a power of two with a rational exponent, compared by their powers. -/
theorem root_le {N X : ℕ} (hN : N ≠ 0) {c y : ℚ} (hc : 0 ≤ c) (hy : 0 ≤ y) :
    (y ^ N ≤ c ^ N * 2 ^ X → (y : ℝ) ≤ c * 2 ^ (((X : ℚ) / N : ℚ) : ℝ)) ∧ (c ^ N * 2 ^ X ≤ y ^ N → (c : ℝ) * 2 ^ (((X : ℚ) / N : ℚ) : ℝ) ≤ y) := by
  have hc' : (0 : ℝ) ≤ c := by exact_mod_cast hc
  have hy' : (0 : ℝ) ≤ y := by exact_mod_cast hy
  have e : ((c : ℝ) * 2 ^ (((X : ℚ) / N : ℚ) : ℝ)) ^ N = c ^ N * 2 ^ X := by
    rw [mul_pow, ← Real.rpow_natCast (2 ^ _), ← Real.rpow_mul (by norm_num), ← Real.rpow_natCast 2 X]
    congr 2
    push_cast
    rw [div_mul_cancel₀]
    exact_mod_cast hN
  constructor
  · intro h
    have h' := (Rat.cast_le (K := ℝ)).2 h
    push_cast at h'
    rw [← e] at h'
    exact (pow_le_pow_iff_left₀ hy' (by positivity) hN).1 h'
  · intro h
    have h' := (Rat.cast_le (K := ℝ)).2 h
    push_cast at h'
    rw [← e] at h'
    exact (pow_le_pow_iff_left₀ (by positivity) hy' hN).1 h'

/-- What is known of the result `r` for an argument `v` and `T` fraction bits. -/
structure Near (T : ℕ) (r : ℚ) (v : ℝ) : Prop where
  err : |(r : ℝ) - 2 ^ v| ≤ 13 / 2 / 2 ^ T * 2 ^ v
  few : T ≤ 3 → |(r : ℝ) - 2 ^ v| ≤ 2 / 2 ^ T * 2 ^ v
  lo : 1 / 2 * 2 ^ v < (r : ℝ)
  hi : (r : ℝ) ≤ 3 / 2 * 2 ^ v

theorem Near.pos {T : ℕ} {r : ℚ} {v : ℝ} (h : Near T r v) : 0 < r := by
  have hX : (0 : ℝ) < 2 ^ v := by positivity
  have := h.lo
  exact_mod_cast (show (0 : ℝ) < (r : ℝ) by linarith)

/-- The result for an argument in the intermediate type. -/
theorem end_eq {tf : Option ℕ} {tq : QMode} {o : FFmt} (h1 : 1 ≤ tbits tf o) (h44 : tbits tf o ≤ 44) {v : ℚ}
    (hv : (argFmt tf tq o).Rep v) :
    ∃ r : ℚ, (∀ d : Dst, expEnd tf tq o d v = some (d.cvt r)) ∧ Near (tbits tf o) r v := by
  obtain ⟨X, hX, hXe⟩ := frac_nat hv (ew := tbits tf o) (by
    have := arg_F tf tq o
    unfold Fmt.F at this
    omega)
  by_cases h3 : tbits tf o ≤ 3
  · have hf := few_ok h1 h3 tq hX
    unfold fewOk at hf
    rw [← hXe] at hf
    revert hf
    cases hy : exp2Rr ⟨tbits tf o, 0, false, .TRN, .WRAP⟩ (oE (tbits tf o) tq) (Int.fract v) with
    | none => intro h; exact absurd h (by simp)
    | some y =>
      intro hf
      simp only [Bool.and_eq_true, decide_eq_true_eq] at hf
      obtain ⟨⟨⟨⟨y0, a1⟩, a2⟩, a3⟩, a4⟩ := hf
      refine ⟨_, end_link hv hy, ?_⟩
      have hN : (2 ^ tbits tf o : ℕ) ≠ 0 := by positivity
      have hs : (2 : ℝ) ^ (v : ℝ) = 2 ^ ((Int.fract v : ℚ) : ℝ) * 2 ^ (⌊v⌋ : ℤ) := by
        rw [← Real.rpow_intCast, ← Real.rpow_add (by norm_num)]
        congr 1
        exact_mod_cast (Int.fract_add_floor v).symm
      have hXe' : Int.fract v = (X : ℚ) / ((2 ^ tbits tf o : ℕ) : ℚ) := by rw [hXe]; push_cast; rfl
      have hu : (2 : ℚ) / 2 ^ tbits tf o ≤ 1 := by
        rw [div_le_one (by positivity)]
        calc (2 : ℚ) = 2 ^ 1 := by norm_num
          _ ≤ _ := pow_le_pow_right₀ (by norm_num) h1
      have hu0 : (0 : ℚ) < 2 / 2 ^ tbits tf o := by positivity
      have b2 := (root_le hN (c := 3 / 2) (by norm_num) y0.le).1 a2
      have b3 := (root_le hN (c := 1 + 2 / 2 ^ tbits tf o) (by linarith) y0.le).1 a3
      have b4 := (root_le hN (c := 1 - 2 / 2 ^ tbits tf o) (by linarith) y0.le).2 a4
      have b1 : (2 : ℝ) ^ ((Int.fract v : ℚ) : ℝ) < 2 * y := by
        refine lt_of_le_of_ne ?_ ?_
        · have := (root_le hN (X := X) (c := 1) (y := 2 * y) (by norm_num) (by linarith)).2 (by rw [one_pow, one_mul]; exact a1.le)
          rw [hXe']
          push_cast at this ⊢; linarith
        · intro h
          have h' := congrArg (· ^ (2 ^ tbits tf o)) h
          beta_reduce at h'
          rw [hXe', ← Real.rpow_natCast (2 ^ _), ← Real.rpow_mul (by norm_num)] at h'
          push_cast at h'
          rw [div_mul_cancel₀ _ (by positivity)] at h'
          rw [show ((2 : ℝ) ^ (X : ℝ)) = 2 ^ X from Real.rpow_natCast 2 X] at h'
          have h2 : (2 : ℚ) ^ X = (2 * y) ^ 2 ^ tbits tf o := by
            have h3 : (((2 : ℚ) ^ X : ℚ) : ℝ) = (((2 * y) ^ 2 ^ tbits tf o : ℚ) : ℝ) := by
              push_cast
              rw [h', ← Real.rpow_natCast]
            exact Rat.cast_injective h3
          exact absurd h2 a1.ne
      rw [← hXe'] at b2 b3 b4
      have hz : (0 : ℝ) < 2 ^ (⌊v⌋ : ℤ) := by positivity
      have hP : (0 : ℝ) < 2 ^ ((Int.fract v : ℚ) : ℝ) := by positivity
      generalize ((Int.fract v : ℚ) : ℝ) = φ at hs b1 b2 b3 b4 hP
      push_cast at b2 b3 b4
      have ez : ((y * 2 ^ ⌊v⌋ : ℚ) : ℝ) = y * 2 ^ (⌊v⌋ : ℤ) := by push_cast; rfl
      have e : |((y * 2 ^ ⌊v⌋ : ℚ) : ℝ) - 2 ^ (v : ℝ)| ≤ 2 / 2 ^ tbits tf o * 2 ^ (v : ℝ) := by
        rw [hs, ez, ← sub_mul, abs_mul, abs_of_pos hz, ← mul_assoc]
        refine mul_le_mul_of_nonneg_right ?_ hz.le
        rw [abs_le]
        constructor <;> linarith
      refine ⟨e.trans ?_, fun _ => e, ?_, ?_⟩
      · refine mul_le_mul_of_nonneg_right ?_ (by positivity)
        exact div_le_div_of_nonneg_right (by norm_num) (by positivity)
      · rw [hs, ez]
        have := mul_lt_mul_of_pos_right b1 hz
        linarith
      · rw [hs, ez]
        have := mul_le_mul_of_nonneg_right b2 hz.le
        linarith
  · have hmx : max (tbits tf o) (tbits tf o + 1) = tbits tf o + 1 := by omega
    have h3' : 3 ≤ tbits tf o := by omega
    obtain ⟨w, y1, -, y2⟩ := exp2Rr_near (wa := tbits tf o) (t := tbits tf o) (tq := tq) (x := v) (X := 2 * X) (by omega) (by omega) h44
      (by rw [hmx, pow_succ']; omega) (by rw [hmx, pow_succ', hXe]; push_cast; field_simp) (Or.inr (by
        rcases no_wrap h3' h44 hX with h | h
        · left; rw [hXe]; push_cast; exact h
        · right; exact ⟨by omega, h⟩))
    obtain ⟨c1, c2⟩ := end_half (show 4 ≤ tbits tf o by omega) y2
    exact ⟨_, end_link hv y1, y2, fun h => absurd h h3, c1, c2⟩

theorem exp2_arg {tf : Option ℕ} {tq : QMode} {t o : FFmt} (d : Dst) (hW : 1 ≤ t.W) {m : ℚ} (hm : t.mant.Rep m) (e : ℤ) :
    exp2 tf tq t o d m e = expEnd tf tq o d ((argFmt tf tq o).cvt (m * 2 ^ e)) := by
  obtain ⟨r, r0, r1, rfl⟩ := hm
  unfold exp2
  rw [Fmt.raw_val, Proof.Shift.leftSS_eq (fx := t.mant) hW (arg_W tf tq o).2.1 rfl rfl ⟨r0, r1⟩]

theorem exp_arg {tf : Option ℕ} {tq : QMode} {t o : FFmt} (d : Dst) (hW : 1 ≤ t.W) (h44 : tbits tf o ≤ 44) {m : ℚ} (hm : t.mant.Rep m) (e : ℤ) :
    exp tf tq t o d m e = expEnd tf tq o d ((argFmt tf tq o).cvt (m * 2 ^ e * ((il (tbits tf o) : ℚ) / 2 ^ tbits tf o))) := by
  obtain ⟨r, r0, r1, rfl⟩ := hm
  obtain ⟨k0, k1⟩ := of_decide_eq_true (Proof.Pwl.allLt_iff.1 il_all (tbits tf o) (by omega))
  unfold exp
  simp only []
  rw [invLn2_eq (by omega)]
  set T := tbits tf o with hT
  have hv : t.mant.val r * ((il T : ℚ) / 2 ^ T) = (⟨t.W + (T + 1), t.I + 1, true, .TRN, .WRAP⟩ : Fmt).val (r * il T) := by
    unfold Fmt.val
    have : -(⟨t.W + (T + 1), t.I + 1, true, .TRN, .WRAP⟩ : Fmt).F = -t.mant.F + -(T : ℤ) := by unfold Fmt.F FFmt.mant; push_cast; ring
    rw [this, ← Fmt.z_add, zpow_neg 2 (T : ℤ), zpow_natCast]
    push_cast
    ring
  have hr : Proof.Shift.InRange (t.W + (T + 1)) true (r * il T) := by
    have hp : (0 : ℤ) < 2 ^ (t.W - 1) := by positivity
    have h2 : (2 : ℤ) ^ (t.W + (T + 1) - 1) = 2 ^ (t.W - 1) * 2 ^ (T + 1) := by
      rw [← pow_add]; congr 1; omega
    have hS : t.mant.S = true := rfl
    have hWW : t.mant.W = t.W := rfl
    rw [hS, hWW] at r0 r1
    unfold Proof.Shift.InRange
    simp only [minRaw, maxRaw, if_true] at r0 r1 ⊢
    rw [h2]
    have a0 := mul_le_mul_of_nonneg_right r0 k0
    have a1 := mul_le_mul_of_nonneg_right r1 k0
    have a2 := mul_le_mul_of_nonneg_left (Int.le_sub_one_of_lt k1) hp.le
    constructor
    · linarith
    · linarith
  rw [hv, Fmt.raw_val, Proof.Shift.leftSS_eq (fx := ⟨t.W + (T + 1), t.I + 1, true, .TRN, .WRAP⟩) (by show 1 ≤ t.W + (T + 1); omega)
    (arg_W tf tq o).2.1 rfl rfl hr, ← hv, mul_right_comm]

/-- The relative error is at most one. -/
theorem Near.unit {T : ℕ} (h1 : 1 ≤ T) {r : ℚ} {v : ℝ} (h : Near T r v) :
    ∃ c : ℝ, 0 ≤ c ∧ c ≤ 13 / 2 ∧ c / 2 ^ T ≤ 1 ∧ |(r : ℝ) - 2 ^ v| ≤ c / 2 ^ T * 2 ^ v := by
  by_cases h3 : T ≤ 3
  · refine ⟨2, by norm_num, by norm_num, ?_, h.few h3⟩
    rw [div_le_one (by positivity)]
    calc (2 : ℝ) = 2 ^ 1 := by norm_num
      _ ≤ _ := pow_le_pow_right₀ (by norm_num) h1
  · refine ⟨13 / 2, by norm_num, le_refl _, ?_, h.err⟩
    have : (2 : ℝ) ^ 4 ≤ 2 ^ T := pow_le_pow_right₀ (by norm_num) (by omega)
    rw [div_le_one (by positivity)]; linarith

theorem near_two_four {T : ℕ} (h4 : 4 ≤ T) {r v x : ℝ} (hv : |v - x| ≤ 1 / 2 ^ T) (h : |r - 2 ^ v| ≤ 13 / 2 / 2 ^ T * 2 ^ v) :
    |r - 2 ^ x| ≤ 8 / 2 ^ T * 2 ^ x := by
  have e : (2 : ℝ) ^ v = 2 ^ x * Real.exp ((v - x) * Real.log 2) := by
    rw [exp_two_pow, ← Real.rpow_add (by norm_num)]; congr 1; ring
  have e1 : (13 : ℝ) / 2 / 2 ^ T = 13 / 2 * (1 / 2 ^ T) := by ring
  have e2 : (8 : ℝ) / 2 ^ T = 8 * (1 / 2 ^ T) := by ring
  have hu1 : (1 : ℝ) / 2 ^ T ≤ 1 / 16 := by
    rw [show (16 : ℝ) = 2 ^ 4 by norm_num]
    exact one_div_le_one_div_of_le (by positivity) (pow_le_pow_right₀ (by norm_num) h4)
  have hu0 : (0 : ℝ) < 1 / 2 ^ T := by positivity
  rw [e, e1] at h
  rw [e2]
  generalize (1 : ℝ) / 2 ^ T = u at *
  have hX : (0 : ℝ) < 2 ^ x := by positivity
  generalize (2 : ℝ) ^ x = X at *
  have l1 := Real.log_two_gt_d9
  have l2 := Real.log_two_lt_d9
  have hL : 0 < Real.log 2 := by linarith
  have hδ : |(v - x) * Real.log 2| ≤ 7 / 10 * u := by
    rw [abs_mul, abs_of_pos hL, mul_comm]
    exact mul_le_mul (by linarith) hv (abs_nonneg _) (by norm_num)
  generalize (v - x) * Real.log 2 = δ at *
  obtain ⟨d0, d1⟩ := abs_le.1 hδ
  have hs := Real.abs_exp_sub_one_sub_id_le (x := δ) (by rw [abs_le]; constructor <;> linarith)
  have hsq : δ ^ 2 ≤ 1 / 20 * u := by
    have : δ ^ 2 ≤ (7 / 10 * u) ^ 2 := sq_le_sq' (by linarith) d1
    nlinarith
  obtain ⟨s0, s1⟩ := abs_le.1 hs
  generalize Real.exp δ = s at *
  have hs1 : |s - 1| ≤ 3 / 4 * u := by rw [abs_le]; constructor <;> linarith
  obtain ⟨a0, a1⟩ := abs_le.1 hs1
  obtain ⟨b0, b1⟩ := abs_le.1 h
  have m1 := mul_le_mul_of_nonneg_left a1 hX.le
  have m0 := mul_le_mul_of_nonneg_left a0 hX.le
  have hsu : s ≤ 11 / 10 := by linarith
  have m2 : 13 / 2 * u * (X * s) ≤ 13 / 2 * u * (X * (11 / 10)) :=
    mul_le_mul_of_nonneg_left (mul_le_mul_of_nonneg_left hsu hX.le) (by linarith)
  have hXu : 0 < u * X := mul_pos hu0 hX
  rw [abs_le]
  constructor <;> nlinarith

/-- The exponential of an argument that is slightly wrong, base 2. -/
theorem near_two {T : ℕ} (h1 : 1 ≤ T) {r : ℚ} {v x : ℝ} (hv : |v - x| ≤ 1 / 2 ^ T) (h : Near T r v) :
    |(r : ℝ) - 2 ^ x| ≤ 8 / 2 ^ T * 2 ^ x := by
  by_cases h3 : T ≤ 3
  · have e1 : (2 : ℝ) ^ x * 2 ^ (v - x) = 2 ^ v := by rw [← Real.rpow_add (by norm_num)]; congr 1; ring
    have h2 : (2 : ℝ) / 2 ^ T ≤ 1 := by
      rw [div_le_one (by positivity)]
      calc (2 : ℝ) = 2 ^ 1 := by norm_num
        _ ≤ _ := pow_le_pow_right₀ (by norm_num) h1
    have hX : (0 : ℝ) < 2 ^ x := by positivity
    have k := pow_rel hX.le hv (by positivity) h2 (by rw [e1]; exact h.few h3)
    refine k.trans (mul_le_mul_of_nonneg_right ?_ hX.le)
    have s1 : (2 : ℝ) ^ ((1 : ℝ) / 2 ^ T) ≤ 3 / 2 := by
      have a : (1 : ℝ) / 2 ^ T ≤ 1 / 2 := by rw [show (1 : ℝ) / 2 ^ T = 2 / 2 ^ T / 2 by ring]; linarith
      refine (Real.rpow_le_rpow_of_exponent_le (by norm_num) a).trans ?_
      rw [← Real.sqrt_eq_rpow, Real.sqrt_le_left (by norm_num)]
      norm_num
    have s2 := mul_le_mul_of_nonneg_right s1 (show (0 : ℝ) ≤ 1 + 2 / 2 ^ T by positivity)
    refine le_trans (sub_le_sub_right s2 1) ?_
    have : T = 1 ∨ T = 2 ∨ T = 3 := by omega
    rcases this with rfl | rfl | rfl <;> norm_num
  · exact near_two_four (by omega) hv h.err

/-! ## The power -/

/-- The stored logarithm of the base, and the product with the exponent in the intermediate type. -/
theorem pow_arg {tf : Option ℕ} {tq : QMode} {t s o : FFmt} (hW : 2 ≤ t.W) (hWs : 1 ≤ s.W)
    (h44 : max (fbits tf (t.W - 1)) (fbits tf o.W) ≤ 44)
    (hp1 : 1 ≤ fbits tf (t.W - 1)) (hq : down tq = true ∨ tf = none) {m : ℚ} {e : ℤ} (hm : t.mant.Rep m)
    (he : -2 ^ (t.E - 1) ≤ e ∧ e < 2 ^ (t.E - 1)) (hm0 : 0 < m) :
    ∃ l : ℚ, |(l : ℝ) - Real.logb 2 ((m * 2 ^ e : ℚ) : ℝ)| ≤ (5 + cutCost tf 3) / 2 ^ fbits tf o.W ∧
      ∀ (d : Dst) (n : ℚ) (f : ℤ), s.mant.Rep n → pow tf tq t s o d m e n f =
        (expEnd tf tq o d ((argFmt tf tq o).cvt (n * 2 ^ f * l))).map fun z => if m * 2 ^ e = 1 then d.cvt 1 else z := by
  obtain ⟨μ, lg, z1, z2, z3, z4, z5, z7, ⟨zr, z8⟩, b0, b1⟩ := parts .ln2 (tf := tf) (tq := tq) (k := 2) (z := fbits tf o.W) (by norm_num) (fun _ => le_refl _) hW
    (fun h => by obtain ⟨a, rfl⟩ := Option.isSome_iff_exists.1 h; rfl) h44 hp1 hq hm he hm0
  have herr := log2_tail (x := ((m * 2 ^ e : ℚ) : ℝ)) (by linarith) z2 z7
  unfold pow
  push_cast at z1
  simp only [z1, Option.bind_eq_bind, Option.bind_some]
  generalize e + (normed tf tq (mantU t) ((mantU t).cvt m)).2 = E at *
  generalize fbits tf o.W = z at *
  replace b1 := b1.le
  obtain ⟨i, hi⟩ : ∃ i : ℕ, nbits (expMax t + 1) = i := ⟨_, rfl⟩
  have hI : logI t = i + 1 := by unfold logI; rw [hi]
  have hn : expMax t + 2 ≤ 2 ^ i := by rw [← hi]; exact Model.Bits.lt_two_pow_nbits (expMax t + 1)
  have hn' : (expMax t : ℤ) + 2 ≤ 2 ^ i := by exact_mod_cast hn
  obtain ⟨E0, E1⟩ := abs_le.1 z5
  rw [hI]
  have hoff := int_cvt (k := i) (e := E) (by rw [abs_lt]; constructor <;> linarith)
  push_cast at hoff ⊢
  rw [hoff]
  -- the sum is exact
  set g : Fmt := ⟨i + 1 + z, i + 1, true, .TRN, .WRAP⟩ with hg
  have hgF : g.F = z := by rw [hg]; unfold Fmt.F; push_cast; ring
  have hgv : ∀ k : ℤ, g.val k = k / 2 ^ z := by
    intro k; unfold Fmt.val; rw [hgF, zpow_neg, zpow_natCast, div_eq_mul_inv]
  have hsum : lg + E = g.val (zr + E * 2 ^ z) := by
    rw [hgv, z8]; push_cast; field_simp
  have hpz' : (0 : ℚ) < 2 ^ z := by positivity
  have hq0 : -2 ^ i * 2 ^ z ≤ zr + E * 2 ^ z ∧ zr + E * 2 ^ z ≤ (2 ^ i - 1) * 2 ^ z := by
    rw [z8, le_div_iff₀ hpz'] at b0
    rw [z8, div_le_iff₀ hpz'] at b1
    have b0' : -2 * 2 ^ z ≤ zr := by exact_mod_cast b0
    have b1' : zr ≤ 1 * 2 ^ z := by exact_mod_cast b1
    have hp : (0 : ℤ) < 2 ^ z := by positivity
    have c0 := mul_le_mul_of_nonneg_right (show -2 ^ i + 2 ≤ E by linarith) hp.le
    have c1 := mul_le_mul_of_nonneg_right (show E ≤ 2 ^ i - 2 by linarith) hp.le
    constructor <;> linarith
  have hgW : g.W - 1 = i + z := by rw [hg]; simp only; omega
  have hS : g.S = true := rfl
  have hp : (0 : ℤ) < 2 ^ z := by positivity
  have hq1 : -2 ^ (g.W - 1) ≤ zr + E * 2 ^ z ∧ zr + E * 2 ^ z ≤ 2 ^ (g.W - 1) - 1 := by
    rw [hgW, pow_add]
    constructor <;> linarith [hq0.1, hq0.2]
  have hcv : g.cvt (lg + E) = lg + E := by
    apply Fmt.cvt_rep (by rw [hg]; simp only; omega) (by simp [hg])
    exact ⟨_, by rw [hS]; simpa [minRaw] using hq1.1, by rw [hS]; simpa [maxRaw] using hq1.2, hsum⟩
  refine ⟨lg + E, by rw [add_comm]; push_cast at herr ⊢; exact herr, fun d n f hnr => ?_⟩
  rw [hcv]
  obtain ⟨r, r0, r1, rfl⟩ := hnr
  have hv : s.mant.val r * (lg + E) = (⟨s.W + (i + 1 + z), s.I + (i + 1), true, .TRN, .WRAP⟩ : Fmt).val (r * (zr + E * 2 ^ z)) := by
    rw [hsum, hgv]
    unfold Fmt.val
    have : -(⟨s.W + (i + 1 + z), s.I + (i + 1), true, .TRN, .WRAP⟩ : Fmt).F = -s.mant.F + -(z : ℤ) := by unfold Fmt.F FFmt.mant; push_cast; ring
    rw [this, ← Fmt.z_add, zpow_neg 2 (z : ℤ), zpow_natCast]
    push_cast
    ring
  have hr : Proof.Shift.InRange (s.W + (i + 1 + z)) true (r * (zr + E * 2 ^ z)) := by
    have hSs : s.mant.S = true := rfl
    have hWW : s.mant.W = s.W := rfl
    rw [hSs, hWW] at r0 r1
    simp only [minRaw, maxRaw, if_true] at r0 r1
    rw [hgW] at hq1
    have k0 : |r| ≤ 2 ^ (s.W - 1) := by rw [abs_le]; constructor <;> linarith
    have k1 : |zr + E * 2 ^ z| ≤ 2 ^ (i + z) := by rw [abs_le]; constructor <;> linarith [hq1.1, hq1.2]
    have k2 : |r * (zr + E * 2 ^ z)| ≤ 2 ^ (s.W - 1) * 2 ^ (i + z) := by
      rw [abs_mul]; exact mul_le_mul k0 k1 (abs_nonneg _) (by positivity)
    have h2 : (2 : ℤ) ^ (s.W + (i + 1 + z) - 1) = 2 * (2 ^ (s.W - 1) * 2 ^ (i + z)) := by
      rw [← pow_add, ← pow_succ']; congr 1; omega
    have h3 : (0 : ℤ) < 2 ^ (s.W - 1) * 2 ^ (i + z) := by positivity
    obtain ⟨k3, k4⟩ := abs_le.1 k2
    unfold Proof.Shift.InRange
    simp only [minRaw, maxRaw, if_true]
    rw [h2]
    constructor <;> linarith
  rw [hv, Fmt.raw_val, Proof.Shift.leftSS_eq (fx := ⟨s.W + (i + 1 + z), s.I + (i + 1), true, .TRN, .WRAP⟩) (by show 1 ≤ s.W + (i + 1 + z); omega)
    (arg_W tf tq o).2.1 rfl rfl hr, ← hv, mul_right_comm]
  simp only [if_neg hm0.ne']
  cases expEnd tf tq o d ((argFmt tf tq o).cvt (s.mant.val r * 2 ^ f * (lg + ↑E))) <;> rfl

/-! ## Range of the exponentials -/

theorem end_some (tf : Option ℕ) (tq : QMode) (o : FFmt) (d : Dst) (h44 : tbits tf o ≤ 44) (v : ℚ) : (expEnd tf tq o d v).isSome := by
  unfold expEnd
  simp only []
  obtain ⟨y, hy⟩ := Option.isSome_iff_exists.1 (exp2Rr_some ⟨tbits tf o, 0, false, .TRN, .WRAP⟩ ⟨tbits tf o + 1, 1, false, tq, .WRAP⟩
    (by simp only []; omega) ((⟨tbits tf o, 0, false, .TRN, .WRAP⟩ : Fmt).val ((argFmt tf tq o).raw v % 2 ^ tbits tf o)))
  simp only [hy, Option.bind_eq_bind, Option.bind_some, Option.isSome_some]

theorem end_large {tf : Option ℕ} {tq : QMode} {o : FFmt} (ho : 2 ≤ o.W) (h4 : 1 ≤ tbits tf o) (h44 : tbits tf o ≤ 44) {x : ℚ}
    (h : ((o.I - 1 + 2 ^ (o.E - 1) : ℤ) : ℚ) ≤ x) : expEnd tf tq o o.dst ((argFmt tf tq o).cvt x) = some o.maxVal := by
  have hp : (0 : ℤ) < 2 ^ (o.E - 1) := by positivity
  obtain ⟨r, r1, r2⟩ := end_eq (tf := tf) (tq := tq) (o := o) h4 h44 (Fmt.rep_cvt (arg_W tf tq o).2.1 x)
  have hb : |o.I - 1 + 2 ^ (o.E - 1)| ≤ outRange o := by
    unfold outRange; rw [abs_le]; constructor <;> omega
  have h1 := arg_mono tf tq o h
  rw [arg_int tf tq (by omega) hb] at h1
  have h1' := (Rat.cast_le (K := ℝ)).2 h1
  rw [Rat.cast_intCast] at h1'
  have h2 := r2.lo
  have h3 := Real.rpow_le_rpow_of_exponent_le (show (1 : ℝ) ≤ 2 by norm_num) h1'
  rw [Real.rpow_intCast] at h3
  rw [r1]
  refine congrArg some (Proof.FloatPow.cvt_sat ho ?_)
  have e : (2 : ℝ) ^ (o.I - 1 + (2 : ℤ) ^ (o.E - 1)) = 2 * 2 ^ (o.I - 2 + (2 : ℤ) ^ (o.E - 1)) := by
    rw [show o.I - 1 + (2 : ℤ) ^ (o.E - 1) = o.I - 2 + 2 ^ (o.E - 1) + 1 by ring, zpow_add_one₀ (by norm_num)]; ring
  rw [e] at h3
  have : (2 : ℝ) ^ (o.I - 2 + (2 : ℤ) ^ (o.E - 1)) ≤ (r : ℝ) := by linarith
  have e' : ((2 ^ (o.I - 2 + (2 : ℤ) ^ (o.E - 1)) : ℚ) : ℝ) = 2 ^ (o.I - 2 + (2 : ℤ) ^ (o.E - 1)) := by push_cast; rfl
  rw [← e'] at this
  exact Rat.cast_le.1 this

theorem end_small {tf : Option ℕ} {tq : QMode} {o : FFmt} (ho : 1 ≤ o.W) (h4 : 1 ≤ tbits tf o) (h44 : tbits tf o ≤ 44) {x : ℚ}
    (h : x ≤ ((o.I - o.W - 2 ^ (o.E - 1) : ℤ) : ℚ)) : ∃ r : ℚ, 0 < r ∧ r ≤ 3 / 2 * 2 ^ (o.I - o.W - 2 ^ (o.E - 1) : ℤ) ∧
      expEnd tf tq o o.dst ((argFmt tf tq o).cvt x) = some (o.cvt r) := by
  have hp : (0 : ℤ) < 2 ^ (o.E - 1) := by positivity
  obtain ⟨r, r1, r2⟩ := end_eq (tf := tf) (tq := tq) (o := o) h4 h44 (Fmt.rep_cvt (arg_W tf tq o).2.1 x)
  have hb : |o.I - o.W - 2 ^ (o.E - 1)| ≤ outRange o := by
    unfold outRange; rw [abs_le]; constructor <;> omega
  have h1 := arg_mono tf tq o h
  rw [arg_int tf tq (by omega) hb] at h1
  have h1' := (Rat.cast_le (K := ℝ)).2 h1
  rw [Rat.cast_intCast] at h1'
  have h2 := r2.hi
  have h3 := Real.rpow_le_rpow_of_exponent_le (show (1 : ℝ) ≤ 2 by norm_num) h1'
  rw [Real.rpow_intCast] at h3
  refine ⟨r, r2.pos, ?_, r1 _⟩
  have : (r : ℝ) ≤ 3 / 2 * 2 ^ (o.I - o.W - (2 : ℤ) ^ (o.E - 1)) := by linarith
  have e : ((3 / 2 * 2 ^ (o.I - o.W - (2 : ℤ) ^ (o.E - 1)) : ℚ) : ℝ) = 3 / 2 * 2 ^ (o.I - o.W - (2 : ℤ) ^ (o.E - 1)) := by push_cast; rfl
  rw [← e] at this
  exact Rat.cast_le.1 this

theorem il_small : Proof.Pwl.allLt 46 (fun t => decide ((il t : ℚ) / 2 ^ t * ((Model.Hcordic.ln2Raw : ℚ) / 2 ^ 159 + 1 / 2 ^ 158) ≤ 1)) = true := by
  decide +kernel

/-- The stored `1 / log 2` is too small. -/
theorem il_le {T : ℕ} (h44 : T ≤ 44) : (((il T : ℚ) / 2 ^ T : ℚ) : ℝ) * Real.log 2 ≤ 1 := by
  obtain ⟨-, l1⟩ := abs_le.1 log2_near
  have h := of_decide_eq_true (Proof.Pwl.allLt_iff.1 il_small T (by omega))
  have h0 : (0 : ℝ) ≤ (((il T : ℚ) / 2 ^ T : ℚ) : ℝ) := (il_near (show T ≤ 45 by omega)).2.2.2
  have h' := (Rat.cast_le (K := ℝ)).2 h
  rw [Rat.cast_mul ((il T : ℚ) / 2 ^ T)] at h'
  generalize (((il T : ℚ) / 2 ^ T : ℚ) : ℝ) = k at *
  push_cast at h'
  refine le_trans (mul_le_mul_of_nonneg_left (sub_le_iff_le_add.1 l1) h0) ?_
  rw [add_comm]; exact h'

/-- The argument of the base 2 exponential for an argument of the base e exponential inside the range. -/
theorem exp_range {T : ℕ} (h44 : T ≤ 44) {R : ℤ} {x : ℚ} (h : |(x : ℝ)| ≤ R * Real.log 2) :
    |x * ((il T : ℚ) / 2 ^ T)| ≤ (R : ℚ) := by
  obtain ⟨-, -, -, n3⟩ := il_near (show T ≤ 45 by omega)
  have n1 := il_le h44
  have : |(x : ℝ)| * (((il T : ℚ) / 2 ^ T : ℚ) : ℝ) ≤ R := by
    have l0 : 0 < Real.log 2 := Real.log_pos (by norm_num)
    generalize (((il T : ℚ) / 2 ^ T : ℚ) : ℝ) = k at *
    have h2 := mul_le_mul_of_nonneg_left n1 (abs_nonneg (x : ℝ))
    have : |(x : ℝ)| * k * Real.log 2 ≤ R * Real.log 2 := by linarith
    exact le_of_mul_le_mul_right this l0
  rw [abs_mul]
  have e : |(il T : ℚ) / 2 ^ T| = (il T : ℚ) / 2 ^ T := abs_of_nonneg (by exact_mod_cast n3)
  rw [e]
  have h5 : ((|x| * ((il T : ℚ) / 2 ^ T) : ℚ) : ℝ) ≤ ((R : ℚ) : ℝ) := by
    push_cast at this ⊢; exact this
  exact Rat.cast_le.1 h5

theorem exp_ge_nonneg {T : ℕ} (h1 : 1 ≤ T) (h44 : T ≤ 44) {L : ℤ} (hL : 0 ≤ L) {x : ℚ} (h : (L : ℝ) * Real.log 2 * (1 + 1 / 2 ^ T) ≤ (x : ℝ)) :
    (L : ℚ) ≤ x * ((il T : ℚ) / 2 ^ T) := by
  obtain ⟨n0, -, -, n3⟩ := il_near (show T ≤ 45 by omega)
  have hu0 : (0 : ℝ) < 1 / 2 ^ T := by positivity
  have h5 : (1 : ℝ) ≤ (1 + 1 / 2 ^ T) * ((((il T : ℚ) / 2 ^ T : ℚ) : ℝ) * Real.log 2) := by
    by_cases hT : T = 1
    · subst hT
      have : il 1 = 2 := by decide +kernel
      rw [this]
      have := Real.log_two_gt_d9
      norm_num at this ⊢
      linarith
    · have hu1 : (1 : ℝ) / 2 ^ T ≤ 1 / 4 := by
        rw [show (4 : ℝ) = 2 ^ 2 by norm_num]
        exact one_div_le_one_div_of_le (by positivity) (pow_le_pow_right₀ (by norm_num) (by omega))
      have := mul_le_mul_of_nonneg_left n0 (show (0 : ℝ) ≤ 1 + 1 / 2 ^ T by positivity)
      refine le_trans ?_ this
      generalize (1 : ℝ) / 2 ^ T = u at *
      norm_num; nlinarith
  have : (L : ℝ) ≤ x * (((il T : ℚ) / 2 ^ T : ℚ) : ℝ) := by
    have l0 : 0 < Real.log 2 := Real.log_pos (by norm_num)
    have hL' : (0 : ℝ) ≤ L := by exact_mod_cast hL
    generalize (((il T : ℚ) / 2 ^ T : ℚ) : ℝ) = k at *
    generalize (1 : ℝ) / 2 ^ T = u at *
    have h2 := mul_le_mul_of_nonneg_right h n3
    have h6 := mul_le_mul_of_nonneg_left h5 hL'
    linarith
  have h5 : ((L : ℚ) : ℝ) ≤ ((x * ((il T : ℚ) / 2 ^ T) : ℚ) : ℝ) := by
    push_cast at this ⊢; exact this
  exact Rat.cast_le.1 h5

/-- The argument of the base 2 exponential for a large argument of the base e exponential. -/
theorem exp_ge {T : ℕ} (h1 : 1 ≤ T) (h44 : T ≤ 44) {L : ℤ} {x : ℚ} (h : ((L : ℝ) + |(L : ℝ)| / 2 ^ T) * Real.log 2 ≤ (x : ℝ)) :
    (L : ℚ) ≤ x * ((il T : ℚ) / 2 ^ T) := by
  by_cases hL : 0 ≤ L
  · refine exp_ge_nonneg h1 h44 hL ?_
    have hL' : (0 : ℝ) ≤ L := by exact_mod_cast hL
    rw [abs_of_nonneg hL'] at h
    refine le_trans (le_of_eq ?_) h
    ring
  · have hL' : (L : ℝ) ≤ 0 := by exact_mod_cast (not_le.1 hL).le
    have n1 := il_le h44
    obtain ⟨-, -, -, n3⟩ := il_near (show T ≤ 45 by omega)
    have l0 : 0 < Real.log 2 := Real.log_pos (by norm_num)
    have hx : (L : ℝ) * Real.log 2 ≤ x := by
      refine le_trans (mul_le_mul_of_nonneg_right ?_ l0.le) h
      have : 0 ≤ |(L : ℝ)| / 2 ^ T := by positivity
      linarith
    have : (L : ℝ) ≤ x * (((il T : ℚ) / 2 ^ T : ℚ) : ℝ) := by
      generalize (((il T : ℚ) / 2 ^ T : ℚ) : ℝ) = k at *
      have h2 := mul_le_mul_of_nonneg_right hx n3
      have h3 := mul_le_mul_of_nonpos_left n1 hL'
      linarith
    have h5 : ((L : ℚ) : ℝ) ≤ ((x * ((il T : ℚ) / 2 ^ T) : ℚ) : ℝ) := by
      push_cast at this ⊢; exact this
    exact Rat.cast_le.1 h5

/-- The exponent of the base e exponential, after multiplication by the stored `1 / log 2`. -/
theorem exp_delta {T : ℕ} (h44 : T ≤ 44) {x v : ℚ} (fit : |(v : ℝ) - x * ((il T : ℚ) / 2 ^ T : ℚ)| ≤ 1 / 2 ^ T) :
    |(v : ℝ) * Real.log 2 - x| ≤ 0.7 * ((|(x : ℝ)| + 1) / 2 ^ T) := by
  obtain ⟨n0, -, -, -⟩ := il_near (show T ≤ 45 by omega)
  have n1 := il_le h44
  have hlg := Real.log_two_lt_d9
  have hlg0 : 0 < Real.log 2 := Real.log_pos (by norm_num)
  rw [show (|(x : ℝ)| + 1) / 2 ^ T = (|(x : ℝ)| + 1) * (1 / 2 ^ T) by ring]
  have hw0 : (0 : ℝ) < 1 / 2 ^ T := by positivity
  generalize (1 : ℝ) / 2 ^ T = w at *
  generalize (((il T : ℚ) / 2 ^ T : ℚ) : ℝ) = k at *
  have e : (v : ℝ) * Real.log 2 - x = ((v : ℝ) - x * k) * Real.log 2 + x * (k * Real.log 2 - 1) := by ring
  rw [e]
  refine (abs_add_le _ _).trans ?_
  rw [abs_mul, abs_mul, abs_of_pos hlg0]
  have h1 : |(v : ℝ) - x * k| * Real.log 2 ≤ w * 0.7 := mul_le_mul fit (by linarith) hlg0.le hw0.le
  have h2 : |k * Real.log 2 - 1| ≤ 0.7 * w := by rw [abs_le]; constructor <;> linarith
  have h3 := mul_le_mul_of_nonneg_left h2 (abs_nonneg (x : ℝ))
  linarith

/-- The exponential of an argument that is slightly wrong, base e. -/
theorem near_exp {T : ℕ} (h1 : 1 ≤ T) (h44 : T ≤ 44) {r x v : ℚ} (fit : |(v : ℝ) - x * ((il T : ℚ) / 2 ^ T : ℚ)| ≤ 1 / 2 ^ T)
    (h : Near T r v) :
    |(r : ℝ) - Real.exp x| ≤ (Real.exp (0.7 * ((|(x : ℝ)| + 1) / 2 ^ T)) * (1 + 13 / 2 / 2 ^ T) - 1) * Real.exp x := by
  have hd := exp_delta h44 fit
  obtain ⟨c, c0, c1, c2, c3⟩ := h.unit h1
  have hlg0 : 0 < Real.log 2 := Real.log_pos (by norm_num)
  set D := 0.7 * ((|(x : ℝ)| + 1) / 2 ^ T) with hD
  have hE : (2 : ℝ) ^ (v : ℝ) = Real.exp x * 2 ^ (((v : ℝ) * Real.log 2 - x) / Real.log 2) := by
    rw [← exp_two_pow, ← exp_two_pow, ← Real.exp_add, div_mul_cancel₀ _ hlg0.ne']; congr 1; ring
  have hd' : |((v : ℝ) * Real.log 2 - x) / Real.log 2| ≤ D / Real.log 2 := by
    rw [abs_div, abs_of_pos hlg0]; exact div_le_div_of_nonneg_right hd hlg0.le
  rw [hE] at c3
  have k := pow_rel (Real.exp_pos (x : ℝ)).le hd' (by positivity) c2 c3
  rw [← exp_two_pow, div_mul_cancel₀ _ hlg0.ne'] at k
  refine k.trans (mul_le_mul_of_nonneg_right ?_ (Real.exp_pos _).le)
  refine sub_le_sub_right (mul_le_mul_of_nonneg_left ?_ (Real.exp_pos _).le) 1
  have : c / 2 ^ T ≤ 13 / 2 / 2 ^ T := div_le_div_of_nonneg_right c1 (by positivity)
  linarith

theorem exp_seven : Real.exp 0.7 ≤ 2.0138 := by
  have h : Real.exp 0.7 ^ 10 ≤ 2.0138 ^ 10 := by
    rw [← Real.exp_nat_mul, show ((10 : ℕ) : ℝ) * 0.7 = (7 : ℕ) * 1 by norm_num, Real.exp_nat_mul]
    refine (pow_le_pow_left₀ (Real.exp_pos _).le Real.exp_one_lt_d9.le 7).trans ?_
    norm_num
  exact (pow_le_pow_iff_left₀ (Real.exp_pos _).le (by norm_num) (by norm_num)).1 h

theorem exp_lin {D : ℝ} (h0 : 0 ≤ D) (h1 : D ≤ 1) : Real.exp (0.7 * D) ≤ 1 + 1.0138 * D := by
  have h := convexOn_exp.2 (Set.mem_univ 0) (Set.mem_univ 0.7) (show 0 ≤ 1 - D by linarith) h0 (by ring)
  simp only [smul_eq_mul, mul_zero, zero_add, Real.exp_zero, mul_one] at h
  rw [mul_comm D 0.7] at h
  have := mul_le_mul_of_nonneg_left exp_seven h0
  linarith

/-- The same, linear in the argument. -/
theorem near_exp_lin {T : ℕ} (h1 : 1 ≤ T) (h44 : T ≤ 44) {r x v : ℚ} (hx : |x| + 1 ≤ 2 ^ T)
    (fit : |(v : ℝ) - x * ((il T : ℚ) / 2 ^ T : ℚ)| ≤ 1 / 2 ^ T) (h : Near T r v) :
    |(r : ℝ) - Real.exp x| ≤ (8 + 3 / 2 * |(x : ℝ)|) / 2 ^ T * Real.exp x := by
  have hx' : |(x : ℝ)| + 1 ≤ 2 ^ T := by
    have := (Rat.cast_le (K := ℝ)).2 hx
    push_cast at this; exact this
  have hD1 : (|(x : ℝ)| + 1) / 2 ^ T ≤ 1 := by rw [div_le_one (by positivity)]; exact hx'
  have hD0 : 0 ≤ (|(x : ℝ)| + 1) / 2 ^ T := by positivity
  have hl := exp_lin hD0 hD1
  by_cases h3 : T ≤ 3
  · have hd := exp_delta h44 fit
    have hlg0 : 0 < Real.log 2 := Real.log_pos (by norm_num)
    have hE : (2 : ℝ) ^ (v : ℝ) = Real.exp x * 2 ^ (((v : ℝ) * Real.log 2 - x) / Real.log 2) := by
      rw [← exp_two_pow, ← exp_two_pow, ← Real.exp_add, div_mul_cancel₀ _ hlg0.ne']; congr 1; ring
    have hd' : |((v : ℝ) * Real.log 2 - x) / Real.log 2| ≤ 0.7 * ((|(x : ℝ)| + 1) / 2 ^ T) / Real.log 2 := by
      rw [abs_div, abs_of_pos hlg0]; exact div_le_div_of_nonneg_right hd hlg0.le
    have c3 := h.few h3
    rw [hE] at c3
    have k := pow_rel (Real.exp_pos (x : ℝ)).le hd' (by positivity) (by
      rw [div_le_one (by positivity)]
      calc (2 : ℝ) = 2 ^ 1 := by norm_num
        _ ≤ _ := pow_le_pow_right₀ (by norm_num) h1) c3
    rw [← exp_two_pow, div_mul_cancel₀ _ hlg0.ne'] at k
    refine k.trans (mul_le_mul_of_nonneg_right ?_ (Real.exp_pos _).le)
    refine le_trans (sub_le_sub_right (mul_le_mul_of_nonneg_right hl (show (0 : ℝ) ≤ 1 + 2 / 2 ^ T by positivity)) 1) ?_
    have ha := abs_nonneg (x : ℝ)
    have : T = 1 ∨ T = 2 ∨ T = 3 := by omega
    generalize |(x : ℝ)| = a at *
    rcases this with rfl | rfl | rfl <;> norm_num at hx' ⊢ <;> linarith
  · refine (near_exp h1 h44 fit h).trans (mul_le_mul_of_nonneg_right ?_ (Real.exp_pos _).le)
    refine le_trans (sub_le_sub_right (mul_le_mul_of_nonneg_right hl (show (0 : ℝ) ≤ 1 + 13 / 2 / 2 ^ T by positivity)) 1) ?_
    have hu1 : (1 : ℝ) / 2 ^ T ≤ 1 / 16 := by
      rw [show (16 : ℝ) = 2 ^ 4 by norm_num]
      exact one_div_le_one_div_of_le (by positivity) (pow_le_pow_right₀ (by norm_num) (by omega))
    have hu0 : (0 : ℝ) < 1 / 2 ^ T := by positivity
    have ha := abs_nonneg (x : ℝ)
    generalize |(x : ℝ)| = a at *
    rw [show (a + 1) / 2 ^ T = (a + 1) * (1 / 2 ^ T) by ring, show (13 : ℝ) / 2 / 2 ^ T = 13 / 2 * (1 / 2 ^ T) by ring,
      show (8 + 3 / 2 * a) / 2 ^ T = (8 + 3 / 2 * a) * (1 / 2 ^ T) by ring]
    generalize (1 : ℝ) / 2 ^ T = u at *
    have hau : 0 ≤ (a + 1) * u := by positivity
    have := mul_le_mul_of_nonneg_left hu1 hau
    nlinarith

/-- Table safety of the power, and the results for zero. -/
theorem pow_zero (tf : Option ℕ) (tq : QMode) (t s o : FFmt) (d : Dst) (h1 : fbits tf (t.W - 1) ≤ 44) (h2 : fbits tf o.W ≤ 44)
    (h3 : tbits tf o ≤ 44) (m : ℚ) (e : ℤ) (n : ℚ) (f : ℤ) :
    (pow tf tq t s o d m e n f).isSome ∧ (m = 0 → pow tf tq t s o d m e n f = some (if n = 0 then d.cvt 1 else d.cvt 0)) := by
  have hw : (mantU t).W = t.W - 1 := rfl
  obtain ⟨a, ha⟩ := Option.isSome_iff_exists.1 (logRr_some .ln2 ⟨fbits tf (mantU t).W, 0, false, tq, .WRAP⟩
    ⟨fbits tf o.W + 2, 2, true, .TRN, .WRAP⟩ (by rw [hw]; unfold Fmt.F; simp only []; omega) (normed tf tq (mantU t) ((mantU t).cvt m)).1)
  unfold pow
  simp only [ha, Option.bind_eq_bind, Option.bind_some]
  generalize Model.Shift.leftSS _ (argFmt tf tq o) _ f = v
  obtain ⟨z, hz⟩ := Option.isSome_iff_exists.1 (end_some tf tq o d h3 v)
  simp only [hz, Option.bind_some, Option.isSome_some, true_and]
  rintro rfl
  rw [zero_mul, if_neg (by norm_num), if_pos rfl]

end Proof.FloatHcordic
