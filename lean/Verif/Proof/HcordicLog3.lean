import Verif.Proof.HcordicLogOne
import Verif.Proof.HcordicLogTwo
import Verif.Proof.HcordicExp5
import Verif.Proof.PwlFixed
import Mathlib.Analysis.SpecialFunctions.Log.Base

/-! # The error of the logarithms -/

namespace Proof.Hcordic
open Ac Model.Hcordic Model.Normalize

/-- The error for every number of bits. -/
theorem lo_err_all (sc : Scale) {ew : ℕ} (h3 : 3 ≤ ew) (h44 : ew ≤ 44) {X : ℤ} (hX0 : 2 ^ (ew - 1) ≤ X) (hX1 : X < 2 ^ ew) :
    |(lo sc ew X : ℝ) - 2 ^ ew * (Real.log ((X : ℝ) / 2 ^ ew) / csc sc)| ≤ 4 := by
  by_cases h : 13 ≤ ew
  · exact lo_err sc h h44 hX0 hX1
  · obtain ⟨i, rfl⟩ := Int.eq_ofNat_of_zero_le (le_trans (by positivity) hX0)
    have h0 : 2 ^ (ew - 1) ≤ i := by exact_mod_cast hX0
    have h1 : i < 2 ^ ew := by exact_mod_cast hX1
    cases sc
    · exact small_one h3 (by omega) h0 h1
    · exact small_ln2 h3 (by omega) h0 h1

/-- Truncation to a format with `k` integer bits. -/
theorem trunc_fit {zf k : ℕ} (hk : 1 ≤ k) {v : ℚ} (h0 : -2 ^ (k - 1) ≤ v) (h1 : v < 2 ^ (k - 1)) :
    (⟨zf + k, k, true, .TRN, .WRAP⟩ : Fmt).cvt v ≤ v ∧ v - 1 / 2 ^ zf < (⟨zf + k, k, true, .TRN, .WRAP⟩ : Fmt).cvt v ∧
    ∃ r : ℤ, (⟨zf + k, k, true, .TRN, .WRAP⟩ : Fmt).cvt v = r / 2 ^ zf := by
  set g : Fmt := ⟨zf + k, k, true, .TRN, .WRAP⟩ with hg
  have hF : g.F = zf := by rw [hg]; unfold Fmt.F; simp
  have hp : (0 : ℚ) < 2 ^ zf := by positivity
  have hW : (2 : ℤ) ^ (zf + k - 1) = 2 ^ (k - 1) * 2 ^ zf := by rw [← pow_add]; congr 1; omega
  have e := Proof.Atan2.cvt_floor (g := g) (v := v) (by rw [hg]; simp only []; omega) rfl rfl
    (by
      rw [hF, zpow_natCast, hg]
      simp only [minRaw, if_true]
      rw [Int.le_floor, hW]
      push_cast
      have := mul_le_mul_of_nonneg_right h0 hp.le
      linarith)
    (by
      rw [hF, zpow_natCast, hg]
      simp only [maxRaw, if_true]
      apply Int.le_sub_one_of_lt
      rw [Int.floor_lt, hW]
      push_cast
      exact mul_lt_mul_of_pos_right h1 hp)
  rw [hF, zpow_natCast] at e
  have e2 : g.val ⌊v * 2 ^ zf⌋ = (⌊v * 2 ^ zf⌋ : ℚ) / 2 ^ zf := by
    unfold Fmt.val; rw [hF, zpow_neg, zpow_natCast, div_eq_mul_inv]
  rw [e, e2]
  refine ⟨?_, ?_, _, rfl⟩
  · rw [div_le_iff₀ hp]; exact Int.floor_le _
  · rw [lt_div_iff₀ hp, sub_mul, one_div, inv_mul_cancel₀ hp.ne']
    have := Int.lt_floor_add_one (v * 2 ^ zf)
    linarith

/-- The normalized input after the cut to `fbits tf f.W` bits. -/
theorem normed_ok {tf : Option ℕ} {tq : QMode} {f : Fmt} (hW : 1 ≤ f.W) (hS : f.S = false) {p : ℕ} (hp : fbits tf f.W = p) (hp1 : 1 ≤ p)
    (hq : down tq = true ∨ f.W ≤ p) {x : ℚ} (hx : f.Rep x) (hx0 : 0 < x) :
    ∃ m : ℚ, x = m * 2 ^ (normed tf tq f x).2 ∧ 1 / 2 ≤ m ∧ m < 1 ∧ (normed tf tq f x).1 ≤ m ∧ m < (normed tf tq f x).1 + 1 / 2 ^ p ∧
      (f.W ≤ p → (normed tf tq f x).1 = m) ∧ (∃ X : ℤ, 2 ^ (p - 1) ≤ X ∧ X < 2 ^ p ∧ (normed tf tq f x).1 = X / 2 ^ p) ∧
      |(normed tf tq f x).2| ≤ max ((f.W : ℤ) - f.I) f.I := by
  obtain ⟨r, r0, r1, rfl⟩ := hx
  have hr : 0 < r := by
    have := Fmt.z_pos (-f.F)
    unfold Fmt.val at hx0
    have h2 : (0 : ℚ) < r := by
      by_contra h
      have := mul_nonpos_of_nonpos_of_nonneg (not_lt.1 h) this.le
      linarith
    exact_mod_cast h2
  obtain ⟨n1, n2, n3, k, n4⟩ := Proof.PwlFixed.normalize_pos hW hS hr r1
  obtain ⟨ls, l1, l2⟩ := Proof.PwlFixed.normalize_shift hW hS hr r1
  have hpp : (0 : ℚ) < 2 ^ p := by positivity
  have hpW : (0 : ℚ) < 2 ^ f.W := by positivity
  have e1 : normed tf tq f (f.val r) = ((⟨p, 0, false, tq, .WRAP⟩ : Fmt).cvt (normalize f r).1, (normalize f r).2) := by
    unfold normed; simp only [Fmt.raw_val, hp]
  rw [e1]
  simp only []
  set m := (normalize f r).1 with hm
  set e := (normalize f r).2
  -- the quantization is the floor
  have hfl : quant tq (m * 2 ^ p) = ⌊m * 2 ^ p⌋ := by
    rcases hq with h | h
    · exact quant_down h (by positivity)
    · have : m * 2 ^ p = ((k * 2 ^ (p - f.W) : ℤ) : ℚ) := by
        rw [n4, show (2 : ℚ) ^ p = 2 ^ f.W * 2 ^ (p - f.W) by rw [← pow_add]; congr 1; omega]
        push_cast; field_simp
      rw [this, quant_intCast, Int.floor_intCast]
  have hf0 : 2 ^ (p - 1) ≤ ⌊m * 2 ^ p⌋ := by
    rw [Int.le_floor]; push_cast
    have : (2 : ℚ) ^ p = 2 * 2 ^ (p - 1) := by rw [← pow_succ']; congr 1; omega
    rw [this]
    have : (0 : ℚ) < 2 ^ (p - 1) := by positivity
    nlinarith
  have hf1 : ⌊m * 2 ^ p⌋ < 2 ^ p := by
    rw [Int.floor_lt]; push_cast; nlinarith
  have hc : (⟨p, 0, false, tq, .WRAP⟩ : Fmt).cvt m = (⌊m * 2 ^ p⌋ : ℚ) / 2 ^ p := by
    unfold Fmt.cvt Fmt.cvtRaw
    have hF : (⟨p, 0, false, tq, .WRAP⟩ : Fmt).F = p := by unfold Fmt.F; simp
    rw [hF, zpow_natCast, hfl, ovf_of_range hp1]
    · unfold Fmt.val; rw [hF, zpow_neg, zpow_natCast, div_eq_mul_inv]
    · simp only [loRaw, minRaw]
      have : (0 : ℤ) < 2 ^ (p - 1) := by positivity
      simp; linarith
    · simpa [maxRaw] using Int.le_sub_one_of_lt hf1
  rw [hc]
  refine ⟨m, n1, n2, n3, ?_, ?_, ?_, ⟨_, hf0, hf1, rfl⟩, ?_⟩
  · rw [div_le_iff₀ hpp]; exact Int.floor_le _
  · rw [← add_div, lt_div_iff₀ hpp]; exact Int.lt_floor_add_one _
  · intro h
    have : m * 2 ^ p = ((k * 2 ^ (p - f.W) : ℤ) : ℚ) := by
      rw [n4, show (2 : ℚ) ^ p = 2 ^ f.W * 2 ^ (p - f.W) by rw [← pow_add]; congr 1; omega]
      push_cast; field_simp
    rw [this, Int.floor_intCast, ← this]; field_simp
  · -- the exponent
    have hls : (ls : ℤ) < f.W := by
      have : ((r * 2 ^ ls : ℤ) : ℚ) < 2 ^ f.W := by
        have := n3
        rw [l1, div_lt_one hpW] at this
        exact this
      have h2 : r * 2 ^ ls < 2 ^ f.W := by exact_mod_cast this
      have h3 : (2 : ℤ) ^ ls < 2 ^ f.W := by
        have : (0 : ℤ) < 2 ^ ls := by positivity
        nlinarith
      have := (pow_lt_pow_iff_right₀ (show (1 : ℤ) < 2 by norm_num)).1 h3
      exact_mod_cast this
    rw [l2, abs_le]
    constructor
    · have := le_max_left ((f.W : ℤ) - f.I) f.I; omega
    · have := le_max_right ((f.W : ℤ) - f.I) f.I; omega

/-- `logRr_eq` for one and two bits. -/
theorem logRr_tiny (sc : Scale) {fa fz : Fmt} {ew : ℕ} (hew : max fa.F fz.F = ew) (h1 : 1 ≤ ew) (h3 : ew < 3) {X : ℤ}
    (hX0 : 2 ^ (ew - 1) ≤ X) (hX1 : X < 2 ^ ew) {x : ℚ} (hx : x = X / 2 ^ ew) :
    logRr sc fa fz x = some (fz.cvt ((lo sc ew X : ℚ) / 2 ^ ew)) := by
  unfold logRr
  simp only [hew, Int.toNat_natCast]
  have key : (hcordic .rotY sc ⟨ew + 2, 2, true, .TRN, .WRAP⟩ ⟨ew + 3, 2, true, .TRN, .WRAP⟩
      ((⟨ew + 2, 2, true, .TRN, .WRAP⟩ : Fmt).cvt ((⟨ew + 2, 2, true, .TRN, .WRAP⟩ : Fmt).cvt x + 1))
      ((⟨ew + 2, 2, true, .TRN, .WRAP⟩ : Fmt).cvt ((⟨ew + 2, 2, true, .TRN, .WRAP⟩ : Fmt).cvt x - 1))
      ((⟨ew + 3, 2, true, .TRN, .WRAP⟩ : Fmt).cvt (0 : ℚ))).map (fun s => 2 * s.z) = some ((lo sc ew X : ℚ) / 2 ^ ew) := by
    subst hx
    interval_cases ew
    · obtain rfl : X = 1 := by norm_num at hX0 hX1; omega
      cases sc <;> decide +kernel
    · norm_num at hX0 hX1
      interval_cases X <;> cases sc <;> decide +kernel
  obtain ⟨s, s1, s2⟩ := Option.map_eq_some_iff.1 key
  rw [s1, Option.map_some, s2]

theorem logRr_all (sc : Scale) {fa fz : Fmt} {ew : ℕ} (hew : max fa.F fz.F = ew) (h1 : 1 ≤ ew) (h44 : ew ≤ 44) {X : ℤ}
    (hX0 : 2 ^ (ew - 1) ≤ X) (hX1 : X < 2 ^ ew) {x : ℚ} (hx : x = X / 2 ^ ew) :
    logRr sc fa fz x = some (fz.cvt ((lo sc ew X : ℚ) / 2 ^ ew)) := by
  by_cases h : 3 ≤ ew
  · exact logRr_eq sc hew h h44 hX0 hX1 hx
  · exact logRr_tiny sc hew h1 (by omega) hX0 hX1 hx

/-- The values for up to three bits. -/
theorem lo_tiny (sc : Scale) {ew : ℕ} (h1 : 1 ≤ ew) (h3 : ew ≤ 3) {X : ℤ} (hX0 : 2 ^ (ew - 1) ≤ X) (hX1 : X < 2 ^ ew) :
    -(if sc = .one then 3 / 4 else 1 : ℚ) ≤ (lo sc ew X : ℚ) / 2 ^ ew ∧ (lo sc ew X : ℚ) / 2 ^ ew ≤ 0 := by
  interval_cases ew
  · obtain rfl : X = 1 := by norm_num at hX0 hX1; omega
    cases sc <;> decide +kernel
  · norm_num at hX0 hX1
    interval_cases X <;> cases sc <;> decide +kernel
  · norm_num at hX0 hX1
    interval_cases X <;> cases sc <;> decide +kernel

/-- The reduced logarithm, cut to `zf` fraction bits. -/
theorem logRr_near (sc : Scale) {p zf k : ℕ} {tq : QMode} (hk : 1 ≤ k) (hsc : sc = .ln2 → 2 ≤ k) (hp1 : 1 ≤ p)
    (h44 : max p zf ≤ 44) {X : ℤ} (hX0 : 2 ^ (p - 1) ≤ X) (hX1 : X < 2 ^ p) :
    ∃ zc : ℚ, logRr sc ⟨p, 0, false, tq, .WRAP⟩ ⟨zf + k, k, true, .TRN, .WRAP⟩ ((X : ℚ) / 2 ^ p) = some zc ∧
      |(zc : ℝ) - Real.log ((X : ℝ) / 2 ^ p) / csc sc| ≤ 5 / 2 ^ zf ∧ (∃ r : ℤ, zc = r / 2 ^ zf) ∧ -2 ≤ zc ∧ zc < 1 := by
  set ew := max p zf with hew
  have hpe : p ≤ ew := le_max_left _ _
  have hze : zf ≤ ew := le_max_right _ _
  have e2 : (2 : ℤ) ^ ew = 2 ^ p * 2 ^ (ew - p) := by rw [← pow_add]; congr 1; omega
  have e2' : (2 : ℤ) ^ (ew - 1) = 2 ^ (p - 1) * 2 ^ (ew - p) := by rw [← pow_add]; congr 1; omega
  have hq : (0 : ℤ) < 2 ^ (ew - p) := by positivity
  have hY0 : 2 ^ (ew - 1) ≤ X * 2 ^ (ew - p) := by rw [e2']; exact mul_le_mul_of_nonneg_right hX0 hq.le
  have hY1 : X * 2 ^ (ew - p) < 2 ^ ew := by rw [e2]; exact mul_lt_mul_of_pos_right hX1 hq
  have hx : (X : ℚ) / 2 ^ p = ((X * 2 ^ (ew - p) : ℤ) : ℚ) / 2 ^ ew := by
    rw [show (2 : ℚ) ^ ew = 2 ^ p * 2 ^ (ew - p) by exact_mod_cast e2]
    push_cast; field_simp
  have hxr : (X : ℝ) / 2 ^ p = ((X * 2 ^ (ew - p) : ℤ) : ℝ) / 2 ^ ew := by
    rw [show (2 : ℝ) ^ ew = 2 ^ p * 2 ^ (ew - p) by exact_mod_cast e2]
    push_cast; field_simp
  have hp1' : 1 ≤ ew := hp1.trans hpe
  have hl := logRr_all sc (fa := ⟨p, 0, false, tq, .WRAP⟩) (fz := ⟨zf + k, k, true, .TRN, .WRAP⟩) (ew := ew)
    (by unfold Fmt.F; simp only []; push_cast; rw [hew]; push_cast; congr 1 <;> omega) hp1' h44 hY0 hY1 hx
  set v : ℤ := lo sc ew (X * 2 ^ (ew - p))
  set g := Real.log ((X : ℝ) / 2 ^ p) with hg
  have cp : 0 < csc sc := by
    unfold csc; split_ifs
    · norm_num
    · exact Real.log_pos (by norm_num)
  have hE : (0 : ℝ) < 2 ^ ew := by positivity
  have hpr : (0 : ℝ) < 2 ^ p := by positivity
  have hX1' : (X : ℝ) < 2 ^ p := by exact_mod_cast hX1
  have hX0' : (2 : ℝ) ^ (p - 1) ≤ X := by exact_mod_cast hX0
  have hpr1 : (2 : ℝ) ^ p = 2 * 2 ^ (p - 1) := by rw [← pow_succ']; congr 1; omega
  have hXp : (0 : ℝ) < X := lt_of_lt_of_le (by positivity) hX0'
  have g0 : g ≤ 0 := Real.log_nonpos (by positivity) (by rw [div_le_one hpr]; exact hX1'.le)
  have g1 : -Real.log 2 ≤ g := by
    rw [← Real.log_inv]
    refine Real.log_le_log (by norm_num) ?_
    rw [le_div_iff₀ hpr, hpr1]; linarith
  have l2 := Real.log_two_lt_d9
  have l3 := Real.log_two_gt_d9
  have gq0 : g / csc sc ≤ 0 := div_nonpos_of_nonpos_of_nonneg g0 cp.le
  have gq1 : -(if k = 1 then 0.7 else 1) ≤ g / csc sc := by
    rw [le_div_iff₀ cp]
    cases sc
    · simp only [csc, if_true, mul_one]
      split_ifs <;> linarith
    · have := hsc rfl
      simp only [csc, reduceCtorEq, if_false]
      rw [if_neg (by omega)]; linarith
  have hvr : (((v : ℚ) / 2 ^ ew : ℚ) : ℝ) = (v : ℝ) / 2 ^ ew := by push_cast; rfl
  have hall : |(v : ℝ) / 2 ^ ew - g / csc sc| ≤ 4 / 2 ^ ew ∧ -(if k = 1 then 0.95 else 1.25) ≤ (v : ℝ) / 2 ^ ew ∧ (v : ℝ) / 2 ^ ew ≤ 0.25 := by
    by_cases h4 : 4 ≤ ew
    · have herr := lo_err_all sc (by omega) h44 hY0 hY1
      rw [← hxr] at herr
      have herr2 : |(v : ℝ) / 2 ^ ew - g / csc sc| ≤ 4 / 2 ^ ew := by
        have e : (v : ℝ) / 2 ^ ew - g / csc sc = ((v : ℝ) - 2 ^ ew * (g / csc sc)) / 2 ^ ew := by field_simp
        rw [e, abs_div, abs_of_pos hE]
        exact div_le_div_of_nonneg_right herr hE.le
      have h16 : (4 : ℝ) / 2 ^ ew ≤ 1 / 4 := by
        rw [div_le_div_iff₀ hE (by norm_num)]
        have : (2 : ℝ) ^ 4 ≤ 2 ^ ew := pow_le_pow_right₀ (by norm_num) h4
        linarith
      obtain ⟨a1, a2⟩ := abs_le.1 herr2
      refine ⟨herr2, ?_, by linarith⟩
      split_ifs at gq1 ⊢ <;> linarith
    · obtain ⟨b1, b2⟩ := lo_tiny sc hp1' (by omega) hY0 hY1
      have b2' := (Rat.cast_le (K := ℝ)).2 b2
      have b1' := (Rat.cast_le (K := ℝ)).2 b1
      rw [hvr] at b1' b2'
      have hlo : -(if k = 1 then 3 / 4 else 1 : ℝ) ≤ (v : ℝ) / 2 ^ ew := by
        refine le_trans ?_ b1'
        cases sc
        · simp only [if_true]; push_cast; split_ifs <;> norm_num
        · have := hsc rfl
          rw [if_neg (by omega), if_neg (by simp)]; push_cast; exact le_refl _
      push_cast at b2'
      refine ⟨?_, by split_ifs at hlo ⊢ <;> linarith, by linarith⟩
      by_cases h2 : ew ≤ 2
      · have : (1 : ℝ) ≤ 4 / 2 ^ ew := by
          rw [le_div_iff₀ hE]
          have : (2 : ℝ) ^ ew ≤ 2 ^ 2 := pow_le_pow_right₀ (by norm_num) h2
          linarith
        refine le_trans ?_ this
        rw [abs_le]
        constructor <;> split_ifs at hlo gq1 <;> linarith
      · have herr := lo_err_all sc (by omega) h44 hY0 hY1
        rw [← hxr] at herr
        have e : (v : ℝ) / 2 ^ ew - g / csc sc = ((v : ℝ) - 2 ^ ew * (g / csc sc)) / 2 ^ ew := by field_simp
        rw [e, abs_div, abs_of_pos hE]
        exact div_le_div_of_nonneg_right herr hE.le
  obtain ⟨herr2, hlow, hup⟩ := hall
  obtain ⟨a1, a2⟩ := abs_le.1 herr2
  have hlowq : -(if k = 1 then 0.95 else 1.25 : ℚ) ≤ (v : ℚ) / 2 ^ ew := by
    have : ((-(if k = 1 then 0.95 else 1.25 : ℚ) : ℚ) : ℝ) ≤ (((v : ℚ) / 2 ^ ew : ℚ) : ℝ) := by
      rw [hvr]; refine le_trans (le_of_eq ?_) hlow
      split_ifs <;> norm_num
    exact_mod_cast this
  have hupq : (v : ℚ) / 2 ^ ew ≤ 0.25 := by
    have : (((v : ℚ) / 2 ^ ew : ℚ) : ℝ) ≤ ((0.25 : ℚ) : ℝ) := by
      rw [hvr]; refine le_trans hup (le_of_eq ?_); norm_num
    exact_mod_cast this
  have hk2 : (1 : ℚ) ≤ 2 ^ (k - 1) := one_le_pow₀ (by norm_num)
  have hk3 : (if k = 1 then 0.95 else 1.25 : ℚ) ≤ 2 ^ (k - 1) := by
    split_ifs with h
    · rw [h]; norm_num
    · have : (2 : ℚ) ^ 1 ≤ 2 ^ (k - 1) := pow_le_pow_right₀ (by norm_num) (by omega)
      norm_num at this ⊢; linarith
  obtain ⟨t1, t2, t3⟩ := trunc_fit (zf := zf) hk (v := (v : ℚ) / 2 ^ ew) (by linarith) (by linarith)
  have hz1 : (1 : ℚ) / 2 ^ zf ≤ 1 := by
    rw [div_le_one (by positivity)]; exact one_le_pow₀ (by norm_num)
  refine ⟨_, hl, ?_, t3, ?_, by linarith⟩
  · set zc := (⟨zf + k, k, true, .TRN, .WRAP⟩ : Fmt).cvt ((v : ℚ) / 2 ^ ew)
    have t1' : (zc : ℝ) ≤ (v : ℝ) / 2 ^ ew := by rw [← hvr]; exact_mod_cast t1
    have t2' : (v : ℝ) / 2 ^ ew - 1 / 2 ^ zf < zc := by
      have := Rat.cast_lt (K := ℝ) |>.2 t2
      push_cast at this; linarith
    have hez : (4 : ℝ) / 2 ^ ew ≤ 4 / 2 ^ zf := by
      apply div_le_div_of_nonneg_left (by norm_num) (by positivity)
      exact pow_le_pow_right₀ (by norm_num) hze
    have e5 : (5 : ℝ) / 2 ^ zf = 4 / 2 ^ zf + 1 / 2 ^ zf := by ring
    rw [e5, abs_le]
    have : (0 : ℝ) < 1 / 2 ^ zf := by positivity
    constructor <;> linarith
  · obtain ⟨r, hr⟩ := t3
    rw [hr] at t2 ⊢
    have hz : (0 : ℚ) < 2 ^ zf := by positivity
    have hlow2 : (-2 : ℚ) ≤ (v : ℚ) / 2 ^ ew := by
      refine le_trans ?_ hlowq
      split_ifs <;> norm_num
    have h3 : (-2 * 2 ^ zf - 1 : ℚ) / 2 ^ zf < r / 2 ^ zf := by
      have : (-2 * 2 ^ zf - 1 : ℚ) / 2 ^ zf = -2 - 1 / 2 ^ zf := by field_simp
      rw [this]; linarith
    have h4 := (div_lt_div_iff_of_pos_right hz).1 h3
    have h5 : (-2 * 2 ^ zf - 1 : ℤ) < r := by exact_mod_cast h4
    have h6 : (-2 * 2 ^ zf : ℤ) ≤ r := by omega
    rw [le_div_iff₀ hz]
    exact_mod_cast h6

/-- What the cut of the normalized input costs. -/
theorem cut_near {m m' d : ℝ} (h0 : 1 / 2 ≤ m') (h1 : m' ≤ m) (h2 : m ≤ m' + d) : |Real.log m' - Real.log m| ≤ 2 * d := by
  have hm' : 0 < m' := by linarith
  have hm : 0 < m := by linarith
  have hd : 0 ≤ d := by linarith
  have a := Real.log_le_log hm' h1
  have b := Real.log_le_sub_one_of_pos (show 0 < m / m' by positivity)
  rw [Real.log_div hm.ne' hm'.ne'] at b
  have c : m / m' - 1 ≤ 2 * d := by
    rw [sub_le_iff_le_add, div_le_iff₀ hm']
    have : d * 1 ≤ d * (2 * m') := mul_le_mul_of_nonneg_left (by linarith) hd
    linarith
  rw [abs_le]; constructor <;> linarith

/-- What the cut costs, in units of the last place: nothing if the widths are not overridden. -/
def cutCost (tf : Option ℕ) (c : ℝ) : ℝ := if tf.isSome then c else 0

/-- The common part of the two logarithms. -/
theorem log_parts (sc : Scale) {tf : Option ℕ} {tq : QMode} {f out : Fmt} {t k : ℕ} (hk : 1 ≤ k) (hsc : sc = .ln2 → 2 ≤ k) (hW : 1 ≤ f.W)
    (hS : f.S = false) (ht : fbits tf out.F.toNat = t) (h44 : max (fbits tf f.W) t ≤ 44)
    (hp1 : 1 ≤ fbits tf f.W) (hq : down tq = true ∨ tf = none) {x : ℚ} (hx : f.Rep x) (hx0 : 0 < x) :
    ∃ (m : ℝ) (zc : ℚ), logRr sc ⟨fbits tf f.W, 0, false, tq, .WRAP⟩ ⟨t + k, k, true, .TRN, .WRAP⟩ (normed tf tq f x).1 = some zc ∧
      (x : ℝ) = m * 2 ^ (normed tf tq f x).2 ∧ 1 / 2 ≤ m ∧ m < 1 ∧ |(normed tf tq f x).2| ≤ max ((f.W : ℤ) - f.I) f.I ∧
      |(zc : ℝ) - Real.log m / csc sc| ≤ (5 + cutCost tf (2 / csc sc)) / 2 ^ t ∧ (∃ r : ℤ, zc = r / 2 ^ t) ∧ -2 ≤ zc ∧ zc < 1 := by
  obtain ⟨m, n1, n2, n3, n4, n5, n6, ⟨X, X0, X1, X2⟩, n8⟩ := normed_ok (tq := tq) hW hS rfl hp1 (by
    rcases hq with h | h
    · exact Or.inl h
    · right; rw [h]; exact le_refl _) hx hx0
  obtain ⟨zc, z1, z2, z3⟩ := logRr_near sc (tq := tq) hk hsc hp1 h44 X0 X1
  refine ⟨m, zc, by rw [X2]; exact z1, ?_, ?_, ?_, n8, ?_, z3⟩
  · have := congrArg (Rat.cast (K := ℝ)) n1
    push_cast at this; exact this
  · have := Rat.cast_le (K := ℝ) |>.2 n2
    push_cast at this; exact this
  · exact_mod_cast n3
  · have cp : 0 < csc sc := by
      unfold csc; split_ifs
      · norm_num
      · exact Real.log_pos (by norm_num)
    set m' := (normed tf tq f x).1 with hm'
    have em : (m' : ℝ) = (X : ℝ) / 2 ^ fbits tf f.W := by
      have := congrArg (Rat.cast (K := ℝ)) X2
      push_cast at this; exact this
    rw [← em] at z2
    have hm0 : (1 : ℝ) / 2 ≤ m' := by
      rw [em, le_div_iff₀ (by positivity)]
      have h2 : (2 : ℝ) ^ fbits tf f.W = 2 * 2 ^ (fbits tf f.W - 1) := by rw [← pow_succ']; congr 1; omega
      have : (2 : ℝ) ^ (fbits tf f.W - 1) ≤ X := by exact_mod_cast X0
      rw [h2]; linarith
    unfold cutCost
    split_ifs with h
    · have hpt : fbits tf f.W = t := by
        obtain ⟨a, rfl⟩ := Option.isSome_iff_exists.1 h
        rw [← ht]; rfl
      have n5' : (m : ℝ) ≤ m' + 1 / 2 ^ t := by
        have := Rat.cast_lt (K := ℝ) |>.2 n5
        push_cast at this; rw [hpt] at this; exact this.le
      have c := cut_near hm0 (by exact_mod_cast n4) n5'
      have c2 : |Real.log m' / csc sc - Real.log m / csc sc| ≤ 2 / csc sc / 2 ^ t := by
        rw [← sub_div, abs_div, abs_of_pos cp, div_le_iff₀ cp]
        refine c.trans (le_of_eq ?_)
        field_simp
      have e : (zc : ℝ) - Real.log m / csc sc = ((zc : ℝ) - Real.log m' / csc sc) + (Real.log m' / csc sc - Real.log m / csc sc) := by ring
      rw [e, add_div]
      exact (abs_add_le _ _).trans (add_le_add z2 c2)
    · have h2 : tf = none := by simpa using h
      have : m' = m := n6 (by rw [h2]; exact le_refl _)
      rw [add_zero, ← this]; exact z2

theorem ofw_lt {f : Fmt} {e : ℤ} (h : |e| ≤ max ((f.W : ℤ) - f.I) f.I) : |e| < 2 ^ ofw f := by
  have h1 := Model.Bits.lt_two_pow_nbits (max ((f.W : ℤ) - f.I) f.I).toNat
  have h2 : |e| ≤ (max ((f.W : ℤ) - f.I) f.I).toNat := by
    have := abs_nonneg e; omega
  refine lt_of_le_of_lt h2 ?_
  unfold ofw
  exact_mod_cast h1

theorem log_split {x m : ℝ} {e : ℤ} (hm : 0 < m) (h : (x : ℝ) = m * 2 ^ e) : Real.log x = Real.log m + e * Real.log 2 := by
  rw [h, Real.log_mul hm.ne' (zpow_pos (by norm_num) e).ne', Real.log_zpow]

/-- The error of the sum, base 2. -/
theorem log2_tail {tf : Option ℕ} {t : ℕ} {x m : ℝ} {e : ℤ} {zc : ℚ} (hm : 0 < m) (hx : x = m * 2 ^ e)
    (hz : |(zc : ℝ) - Real.log m / csc .ln2| ≤ (5 + cutCost tf (2 / csc .ln2)) / 2 ^ t) :
    |((e + zc : ℚ) : ℝ) - Real.logb 2 x| ≤ (5 + cutCost tf 3) / 2 ^ t := by
  have hl := log_split hm hx
  have l2 : 0 < Real.log 2 := Real.log_pos (by norm_num)
  have l3 := Real.log_two_gt_d9
  have e1 : Real.logb 2 x = Real.log m / csc .ln2 + e := by
    unfold Real.logb csc; rw [hl]; simp only [reduceCtorEq, if_false]; field_simp
  rw [e1, show (((e + zc : ℚ)) : ℝ) - (Real.log m / csc .ln2 + e) = (zc : ℝ) - Real.log m / csc .ln2 by push_cast; ring]
  refine hz.trans ?_
  apply div_le_div_of_nonneg_right _ (by positivity)
  unfold cutCost
  split_ifs
  · have : 2 / csc .ln2 ≤ 3 := by
      simp only [csc, reduceCtorEq, if_false]
      rw [div_le_iff₀ l2]; linarith
    linarith
  · exact le_refl _

/-- Base 2. -/
theorem log2_eq {tf : Option ℕ} {tq : QMode} {f out : Fmt} {t : ℕ} (hW : 1 ≤ f.W)
    (hS : f.S = false) (ht : fbits tf out.F.toNat = t) (h44 : max (fbits tf f.W) t ≤ 44)
    (hp1 : 1 ≤ fbits tf f.W) (hq : down tq = true ∨ tf = none) {x : ℚ} (hx : f.Rep x) (hx0 : 0 < x) :
    ∃ r : ℚ, log2 tf tq f out x = some (out.cvt ((interFmt out).cvt r)) ∧
      |(r : ℝ) - Real.logb 2 x| ≤ (5 + cutCost tf 3) / 2 ^ t ∧ ∃ n : ℤ, r = n / 2 ^ t := by
  obtain ⟨m, zc, z1, z2, z3, z4, z5, z7, z8⟩ := log_parts .ln2 (k := 2) (by norm_num) (fun _ => le_refl _) hW hS ht h44 hp1 hq hx hx0
  set e := (normed tf tq f x).2 with he
  have ho : (⟨ofw f + 1, ofw f + 1, true, .TRN, .WRAP⟩ : Fmt).cvt (e : ℚ) = e := by
    have hv : (e : ℚ) = (⟨ofw f + 1, ((ofw f + 1 : ℕ) : ℤ), true, .TRN, .WRAP⟩ : Fmt).val e := by unfold Fmt.val Fmt.F; simp
    have hb := abs_lt.1 (ofw_lt z5)
    have := Proof.Atan2.cvt_raw (g := ⟨ofw f + 1, ((ofw f + 1 : ℕ) : ℤ), true, .TRN, .WRAP⟩) (r := e) (by simp) rfl
      (by simp only [minRaw, if_true]; rw [Nat.add_sub_cancel]; linarith [hb.1])
      (by simp only [maxRaw, if_true]; rw [Nat.add_sub_cancel]; linarith [hb.2])
    rw [← hv] at this
    push_cast at this
    exact this
  refine ⟨e + zc, ?_, ?_, ?_⟩
  · unfold log2
    simp only [ht, ← he]
    push_cast at z1
    rw [z1]
    simp only [Option.bind_eq_bind, Option.bind_some]
    rw [ho]
  · exact log2_tail (by linarith) z2 z7
  · obtain ⟨r, rfl⟩ := z8.1
    refine ⟨e * 2 ^ t + r, ?_⟩
    push_cast; field_simp

/-- The stored `log 2` with `t + 1` bits. -/
def lt1 (t : ℕ) : ℤ := ln2Raw / 2 ^ (159 - (t + 1))

theorem lt1_range {t : ℕ} (h44 : t ≤ 44) : 0 ≤ lt1 t ∧ lt1 t < 2 ^ (t + 1) :=
  of_decide_eq_true (Proof.Pwl.allLt_iff.1 lf_lt (t + 1) (by omega))

theorem lt1_near {t : ℕ} (h44 : t ≤ 44) : |(lt1 t : ℝ) / 2 ^ (t + 1) - Real.log 2| ≤ 51 / 100 / 2 ^ t := by
  obtain ⟨l0, l1⟩ := abs_le.1 log2_near
  obtain ⟨d0, d1⟩ := div_near ln2Raw (159 - (t + 1))
  have hp : (0 : ℝ) < 2 ^ (t + 1) := by positivity
  have e : (ln2Raw : ℝ) / 2 ^ 159 = (ln2Raw : ℝ) * (1 / 2 ^ (159 - (t + 1))) * (1 / 2 ^ (t + 1)) := by
    rw [show (2 : ℝ) ^ 159 = 2 ^ (159 - (t + 1)) * 2 ^ (t + 1) by rw [← pow_add]; congr 1; omega]
    field_simp
  have hu : (0 : ℝ) < 1 / 2 ^ (t + 1) := by positivity
  have hu2 : (1 : ℝ) / 2 ^ (t + 1) = 1 / 2 * (1 / 2 ^ t) := by rw [pow_succ]; ring
  have hu3 : (1 : ℝ) / 2 ^ 158 ≤ 1 / 100 * (1 / 2 ^ t) := by
    have : (1 : ℝ) / 2 ^ 44 ≤ 1 / 2 ^ t := by
      apply div_le_div_of_nonneg_left (by norm_num) (by positivity)
      exact pow_le_pow_right₀ (by norm_num) h44
    refine le_trans ?_ (mul_le_mul_of_nonneg_left this (by norm_num))
    norm_num
  have m0 := mul_le_mul_of_nonneg_right d0 hu.le
  have m1 := mul_le_mul_of_nonneg_right d1 hu.le
  rw [sub_mul, one_mul, ← e] at m0
  rw [← e] at m1
  have e2 : (lt1 t : ℝ) / 2 ^ (t + 1) = ((ln2Raw / 2 ^ (159 - (t + 1)) : ℤ) : ℝ) * (1 / 2 ^ (t + 1)) := by unfold lt1; ring
  have e3 : (51 : ℝ) / 100 / 2 ^ t = 1 / 2 * (1 / 2 ^ t) + 1 / 100 * (1 / 2 ^ t) := by ring
  rw [e2, e3, ← hu2, abs_le]
  constructor <;> linarith

/-- The offset is not rounded. -/
theorem offset_eq {n t : ℕ} (h44 : t ≤ 44) {e : ℤ} (h : |e| < 2 ^ n) :
    (⟨t + 1 + n + 1, n + 1, true, .TRN, .WRAP⟩ : Fmt).cvt
      ((⟨t + 1 + n + 1, n + 1, true, .TRN, .WRAP⟩ : Fmt).cvt (ln2 (t + 1)) * e) = ((lt1 t * e : ℤ) : ℚ) / 2 ^ (t + 1) := by
  obtain ⟨k0, k1⟩ := lt1_range h44
  set g : Fmt := ⟨t + 1 + n + 1, n + 1, true, .TRN, .WRAP⟩ with hg
  have hF : g.F = (t + 1 : ℕ) := by rw [hg]; unfold Fmt.F; push_cast; ring
  have hv : ∀ r : ℤ, g.val r = (r : ℚ) / 2 ^ (t + 1) := by
    intro r; unfold Fmt.val; rw [hF, zpow_neg, zpow_natCast, div_eq_mul_inv]
  have e1 : ln2 (t + 1) = g.val (lt1 t) := by
    have e : ln2 (t + 1) = (⟨t + 1, 0, false, .TRN, .WRAP⟩ : Fmt).val (lt1 t) := by
      unfold ln2
      rw [show (ln2Raw : ℚ) / 2 ^ 159 = (ln2Raw : ℚ) * 2 ^ (-((159 : ℕ) : ℤ)) by rw [zpow_neg, zpow_natCast, div_eq_mul_inv]]
      refine cvt_trunc (n := 159) (k := t + 1) (by simp) rfl rfl (by unfold Fmt.F; simp) (by omega) ?_ ?_
      · simpa [minRaw] using (show 0 ≤ ln2Raw / 2 ^ (159 - (t + 1)) from k0)
      · simp only [maxRaw]
        simpa using Int.le_sub_one_of_lt (show ln2Raw / 2 ^ (159 - (t + 1)) < 2 ^ (t + 1) from k1)
    rw [e]; exact Proof.Atan2.val_same (by rw [hF]; unfold Fmt.F; simp) _
  have hW : (2 : ℤ) ^ (g.W - 1) = 2 ^ (t + 1) * 2 ^ n := by
    rw [hg]; simp only []; rw [← pow_add]; congr 1
  have hcv : ∀ r : ℤ, |r| < 2 ^ (t + 1) * 2 ^ n → g.cvt (g.val r) = g.val r := by
    intro r hr
    obtain ⟨r0, r1⟩ := abs_lt.1 hr
    have hS : g.S = true := rfl
    refine Proof.Atan2.cvt_raw (by rw [hg]; simp) rfl ?_ ?_
    · rw [hS]; simp only [minRaw, if_true]; rw [hW]; linarith
    · rw [hS]; simp only [maxRaw, if_true]; rw [hW]; linarith
  have hq : (1 : ℤ) ≤ 2 ^ n := one_le_pow₀ (by norm_num)
  have hp : (0 : ℤ) < 2 ^ (t + 1) := by positivity
  have e2 : g.val (lt1 t) * e = g.val (lt1 t * e) := by rw [hv, hv]; push_cast; ring
  rw [e1, hcv _ (by rw [abs_of_nonneg k0]; nlinarith), e2, hcv, hv]
  rw [abs_mul, abs_of_nonneg k0]
  have := abs_nonneg e
  nlinarith

/-- The error of the sum, base e. -/
theorem log_tail {tf : Option ℕ} {t : ℕ} (ht44 : t ≤ 44) {x m : ℝ} {e : ℤ} {zc : ℚ} (z3 : 1 / 2 ≤ m) (z4 : m < 1) (z2 : x = m * 2 ^ e)
    (z7 : |(zc : ℝ) - Real.log m / csc .one| ≤ (5 + cutCost tf (2 / csc .one)) / 2 ^ t) :
    |((((lt1 t * e : ℤ) : ℚ) / 2 ^ (t + 1) + zc : ℚ) : ℝ) - Real.log x| ≤ (6 + 51 / 100 * |Real.logb 2 x| + cutCost tf 2) / 2 ^ t := by
  have hl := log_split (by linarith) z2
  have l2 : 0 < Real.log 2 := Real.log_pos (by norm_num)
  have hm : 0 < m := by linarith
  simp only [csc, if_true, div_one] at z7
  have hw : (0 : ℝ) < 1 / 2 ^ t := by positivity
  have a := lt1_near ht44
  have b : |(lt1 t : ℝ) * e / 2 ^ (t + 1) - e * Real.log 2| ≤ 51 / 100 / 2 ^ t * |(e : ℝ)| := by
    have e1 : (lt1 t : ℝ) * e / 2 ^ (t + 1) - e * Real.log 2 = ((lt1 t : ℝ) / 2 ^ (t + 1) - Real.log 2) * e := by ring
    rw [e1, abs_mul]
    exact mul_le_mul_of_nonneg_right a (abs_nonneg _)
  have c : |(e : ℝ)| ≤ |Real.logb 2 x| + 1 := by
    have e1 : Real.logb 2 x = Real.log m / Real.log 2 + e := by
      unfold Real.logb; rw [hl]; field_simp
    have g0 : Real.log m / Real.log 2 ≤ 0 := div_nonpos_of_nonpos_of_nonneg (Real.log_nonpos hm.le z4.le) l2.le
    have g1 : -1 ≤ Real.log m / Real.log 2 := by
      rw [le_div_iff₀ l2, neg_one_mul, ← Real.log_inv]
      exact Real.log_le_log (by norm_num) (by norm_num; linarith)
    have e2 : (e : ℝ) = Real.logb 2 x + -(Real.log m / Real.log 2) := by rw [e1]; ring
    rw [e2]
    refine (abs_add_le _ _).trans ?_
    have : |-(Real.log m / Real.log 2)| ≤ 1 := by rw [abs_neg, abs_le]; constructor <;> linarith
    linarith
  have d := mul_le_mul_of_nonneg_left c (show (0 : ℝ) ≤ 51 / 100 / 2 ^ t by positivity)
  have e1 : (((((lt1 t * e : ℤ) : ℚ) / 2 ^ (t + 1) + zc : ℚ)) : ℝ) - Real.log x =
      ((lt1 t : ℝ) * e / 2 ^ (t + 1) - e * Real.log 2) + ((zc : ℝ) - Real.log m) := by rw [hl]; push_cast; ring
  rw [e1]
  refine (abs_add_le _ _).trans ?_
  have e3 : (6 + 51 / 100 * |Real.logb 2 x| + cutCost tf 2) / 2 ^ t =
      51 / 100 / 2 ^ t * (|Real.logb 2 x| + 1) + (5 + cutCost tf 2) / 2 ^ t + 49 / 100 * (1 / 2 ^ t) := by ring
  rw [e3]
  linarith

/-- Base e. -/
theorem log_eq {tf : Option ℕ} {tq : QMode} {f out : Fmt} {t : ℕ} (hW : 1 ≤ f.W)
    (hS : f.S = false) (ht : fbits tf out.F.toNat = t) (h44 : max (fbits tf f.W) t ≤ 44)
    (hp1 : 1 ≤ fbits tf f.W) (hq : down tq = true ∨ tf = none) {x : ℚ} (hx : f.Rep x) (hx0 : 0 < x) :
    ∃ r : ℚ, log tf tq f out x = some (out.cvt ((interFmt out).cvt r)) ∧
      |(r : ℝ) - Real.log x| ≤ (6 + 51 / 100 * |Real.logb 2 x| + cutCost tf 2) / 2 ^ t := by
  obtain ⟨m, zc, z1, z2, z3, z4, z5, z7, -⟩ := log_parts .one (k := 1) (by norm_num) (fun h => by cases h) hW hS ht h44 hp1 hq hx hx0
  set e := (normed tf tq f x).2 with he
  have ht44 : t ≤ 44 := le_trans (le_max_right _ _) h44
  have ho := offset_eq (n := ofw f) ht44 (ofw_lt z5)
  refine ⟨((lt1 t * e : ℤ) : ℚ) / 2 ^ (t + 1) + zc, ?_, ?_⟩
  · unfold log
    simp only [ht, ← he]
    push_cast at z1
    rw [z1]
    simp only [Option.bind_eq_bind, Option.bind_some]
    rw [ho]
  · exact log_tail ht44 z3 z4 z2 z7

end Proof.Hcordic
