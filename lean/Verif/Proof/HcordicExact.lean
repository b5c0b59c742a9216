import Verif.Proof.HcordicLog3
import Verif.Proof.HcordicExp5

/-! # The hyperbolic CORDIC logarithm of powers of two and power of two of whole numbers -/

namespace Proof.Hcordic
open Ac Model.Hcordic

/-- The widths of the temporaries for which the logarithm of a power of two is one unit short. -/
def short : List ℕ := [7, 9, 12, 13, 15, 17, 18, 19, 20, 21, 25, 26, 30, 32, 35, 36, 38, 39, 43, 44]

theorem lo_half_all : Proof.Pwl.allLt 45 (fun ew => decide (ew < 3 ∨ lo .ln2 ew (2 ^ (ew - 1)) = -2 ^ ew - if ew ∈ short then 1 else 0)) = true := by
  decide +kernel

theorem lo_half {ew : ℕ} (h3 : 3 ≤ ew) (h44 : ew ≤ 44) : lo .ln2 ew (2 ^ (ew - 1)) = -2 ^ ew - if ew ∈ short then 1 else 0 := by
  have := of_decide_eq_true (Proof.Pwl.allLt_iff.1 lo_half_all ew (by omega))
  omega

/-- The argument of the reduced logarithm. -/
theorem normed_pow {tf : Option ℕ} {tq : QMode} {f : Fmt} (hW : 1 ≤ f.W) (hS : f.S = false) (hp1 : 1 ≤ fbits tf f.W)
    (hq : down tq = true ∨ tf = none) {k : ℤ} (hx : f.Rep (2 ^ k)) :
    normed tf tq f (2 ^ k) = (1 / 2, k + 1) ∧ |k + 1| ≤ max ((f.W : ℤ) - f.I) f.I := by
  obtain ⟨m, n1, n2, n3, n4, n5, n6, ⟨X, X0, X1, X2⟩, n8⟩ := normed_ok (tq := tq) hW hS rfl hp1 (by
    rcases hq with h | h
    · exact Or.inl h
    · right; rw [h]; exact le_refl _) hx (Fmt.z_pos k)
  set e := (normed tf tq f (2 ^ k)).2 with he
  have em : m = 2 ^ (k - e) := by
    rw [sub_eq_add_neg, zpow_add₀ (by norm_num : (2 : ℚ) ≠ 0), n1, mul_assoc, ← zpow_add₀ (by norm_num : (2 : ℚ) ≠ 0)]; simp
  have h1 : (-1 : ℤ) ≤ k - e := by
    rw [em, show (1 : ℚ) / 2 = 2 ^ (-1 : ℤ) by norm_num] at n2
    exact (zpow_le_zpow_iff_right₀ (by norm_num)).1 n2
  have h2 : k - e < 0 := by
    rw [em, show (1 : ℚ) = 2 ^ (0 : ℤ) by norm_num] at n3
    exact (zpow_lt_zpow_iff_right₀ (by norm_num)).1 n3
  have hk : e = k + 1 := by omega
  have hm : m = 1 / 2 := by rw [em, hk]; norm_num
  refine ⟨Prod.ext_iff.2 ⟨?_, by rw [← he, hk]⟩, by rw [← hk]; exact n8⟩
  apply le_antisymm (by rw [← hm]; exact n4)
  rw [X2, div_le_div_iff₀ (by norm_num) (by positivity)]
  have h3 : (2 : ℚ) ^ fbits tf f.W = 2 * 2 ^ (fbits tf f.W - 1) := by rw [← pow_succ']; congr 1; omega
  have : (2 : ℚ) ^ (fbits tf f.W - 1) ≤ X := by exact_mod_cast X0
  rw [h3]; linarith

theorem cut_half {t ew : ℕ} (h : t ≤ ew) (b : Bool) :
    (⟨t + 2, 2, true, .TRN, .WRAP⟩ : Fmt).cvt (((-2 ^ ew - if b then 1 else 0 : ℤ) : ℚ) / 2 ^ ew) = -1 - if b then 1 / 2 ^ t else 0 := by
  have hF : (⟨t + 2, 2, true, .TRN, .WRAP⟩ : Fmt).F = t := by unfold Fmt.F; simp
  have q : quant .TRN (((-2 ^ ew - if b then 1 else 0 : ℤ) : ℚ) / 2 ^ ew * 2 ^ ((⟨t + 2, 2, true, .TRN, .WRAP⟩ : Fmt).F)) =
      -2 ^ t - if b then 1 else 0 := by
    rw [hF, zpow_natCast]
    change ⌊_⌋ = _
    have p : (0 : ℚ) < 2 ^ ew := by positivity
    have p' : (0 : ℚ) < 2 ^ t := by positivity
    have le : (2 : ℚ) ^ t ≤ 2 ^ ew := pow_le_pow_right₀ (by norm_num) h
    have r0 : (2 : ℚ) ^ t / 2 ^ ew ≤ 1 := by rw [div_le_one p]; exact le
    have r1 : (0 : ℚ) < 2 ^ t / 2 ^ ew := by positivity
    cases b
    · simp only [Bool.false_eq_true, if_false, sub_zero]
      rw [Int.floor_eq_iff]
      push_cast
      rw [neg_div, div_self p.ne']
      constructor <;> linarith
    · simp only [if_true]
      rw [Int.floor_eq_iff]
      push_cast
      have : (-(2 : ℚ) ^ ew - 1) / 2 ^ ew * 2 ^ t = -2 ^ t - 2 ^ t / 2 ^ ew := by field_simp
      rw [this]
      constructor <;> linarith
  unfold Fmt.cvt Fmt.cvtRaw
  simp only
  rw [q]
  have p' : (1 : ℤ) ≤ 2 ^ t := one_le_pow₀ (by norm_num)
  have e : (2 : ℤ) ^ (t + 2 - 1) = 2 * 2 ^ t := by rw [show t + 2 - 1 = t + 1 by omega, pow_succ]; ring
  rw [ovf_of_range (by omega) (by simp only [loRaw, minRaw, if_true, e]; cases b <;> simp <;> omega)
    (by simp only [maxRaw, if_true, e]; cases b <;> simp <;> omega)]
  unfold Fmt.val
  rw [hF, zpow_neg, zpow_natCast]
  cases b
  · push_cast; field_simp; simp
  · have hz : (2 : ℚ) ^ t ≠ 0 := by positivity
    simp only [if_true]; push_cast; field_simp

theorem log2_pow {tf : Option ℕ} {tq : QMode} {f out : Fmt} {t : ℕ} (hW : 1 ≤ f.W)
    (hS : f.S = false) (ht : fbits tf out.F.toNat = t) (h4 : 3 ≤ max (fbits tf f.W) t) (h44 : max (fbits tf f.W) t ≤ 44)
    (hp1 : 1 ≤ fbits tf f.W) (hq : down tq = true ∨ tf = none) {k : ℤ} (hx : f.Rep (2 ^ k)) :
    log2 tf tq f out (2 ^ k) =
      some (out.cvt ((interFmt out).cvt (k - if max (fbits tf f.W) t ∈ short then 1 / 2 ^ t else 0 : ℚ))) := by
  obtain ⟨n1, n2⟩ := normed_pow (tq := tq) hW hS hp1 hq hx
  have ho : (⟨ofw f + 1, ofw f + 1, true, .TRN, .WRAP⟩ : Fmt).cvt (((k + 1 : ℤ)) : ℚ) = ((k + 1 : ℤ) : ℚ) := by
    have hv : ((k + 1 : ℤ) : ℚ) = (⟨ofw f + 1, ((ofw f + 1 : ℕ) : ℤ), true, .TRN, .WRAP⟩ : Fmt).val (k + 1) := by unfold Fmt.val Fmt.F; simp
    have hb := abs_lt.1 (ofw_lt n2)
    have := Proof.Atan2.cvt_raw (g := ⟨ofw f + 1, ((ofw f + 1 : ℕ) : ℤ), true, .TRN, .WRAP⟩) (r := k + 1) (by simp) rfl
      (by simp only [minRaw, if_true]; rw [Nat.add_sub_cancel]; linarith [hb.1])
      (by simp only [maxRaw, if_true]; rw [Nat.add_sub_cancel]; linarith [hb.2])
    rw [← hv] at this
    push_cast at this ⊢
    exact this
  obtain ⟨ew, hew⟩ : ∃ ew, max (fbits tf f.W) t = ew := ⟨_, rfl⟩
  rw [hew] at h4 h44 ⊢
  have hz := logRr_eq .ln2 (fa := ⟨fbits tf f.W, 0, false, tq, .WRAP⟩) (fz := ⟨t + 2, 2, true, .TRN, .WRAP⟩) (ew := ew)
    (by unfold Fmt.F; simp only; push_cast; omega) h4 h44 (X := 2 ^ (ew - 1)) le_rfl
    (pow_lt_pow_right₀ (by norm_num) (by omega)) (x := 1 / 2) (by
      push_cast
      rw [show (2 : ℚ) ^ ew = 2 * 2 ^ (ew - 1) by rw [← pow_succ']; congr 1; omega]; field_simp)
  have cu := cut_half (t := t) (ew := ew) (by omega) (decide (ew ∈ short))
  simp only [decide_eq_true_eq] at cu
  rw [lo_half h4 h44, cu] at hz
  unfold log2
  simp only [ht, n1]
  push_cast at hz ho ⊢
  rw [hz]
  simp only [Option.bind_eq_bind, Option.bind_some]
  rw [ho]
  congr 3
  ring

/-- The result of the reduced power at zero. -/
theorem eo_zero_all : Proof.Pwl.allLt 46 (fun ew => decide (ew < 10 ∨
    2 ^ ew - 3 ≤ eo ew (zIn ew 0) ∧ eo ew (zIn ew 0) ≤ 2 ^ ew - 1)) = true := by
  decide +kernel

theorem exp2_whole {tf : Option ℕ} {tq : QMode} {f out : Fmt} (ho : 1 ≤ out.W) (hSo : out.S = false) {n : ℤ} (hx : f.Rep n)
    (hf : (f.W : ℤ) - f.I ≤ 45) {t : ℕ} (ht : fbits tf out.F.toNat = t) (h9 : 9 ≤ t) (h44 : t ≤ 44) (hq : down tq = true) :
    ∃ d : ℤ, (d = 1 ∨ d = 2) ∧ exp2 tf tq f out n = some (out.cvt ((1 - d / 2 ^ t) * 2 ^ n : ℚ)) := by
  obtain ⟨hfp, -⟩ := Proof.PowPwl.fracPart_eq hx
  have hfr : Int.fract (n : ℚ) = 0 := Int.fract_intCast n
  set wa := (max ((f.W : ℤ) - f.I) 1).toNat with hwa
  obtain ⟨ew, hew⟩ : ∃ ew, max wa (t + 1) = ew := ⟨_, rfl⟩
  obtain ⟨v, v1, v2, v3, -, -, v4⟩ := exp2Rr_eq (fa := ⟨wa, 0, false, .TRN, .WRAP⟩) (fz := oE t tq) (ew := ew) (X := 0)
    hew (by omega) (by omega) (by positivity) (x := 0) (by simp)
  have hb := of_decide_eq_true (Proof.Pwl.allLt_iff.1 eo_zero_all ew (by omega))
  have hb' : 2 ^ ew - 3 ≤ eo ew (zIn ew 0) ∧ eo ew (zIn ew 0) ≤ 2 ^ ew - 1 := by omega
  obtain ⟨d, hd, hc⟩ : ∃ d : ℤ, (d = 1 ∨ d = 2) ∧ ⌊v * 2 ^ t⌋ = 2 ^ t - d := by
    obtain ⟨j, hj⟩ : ∃ j : ℤ, eo ew (zIn ew 0) = 2 ^ ew - j := ⟨2 ^ ew - eo ew (zIn ew 0), by ring⟩
    have j1 : 1 ≤ j := by omega
    have j3 : j ≤ 3 := by omega
    have e : v * 2 ^ t = 2 ^ t - j * (2 ^ t / 2 ^ ew) := by
      have : (eo ew (zIn ew ((0 : ℕ) : ℤ)) : ℚ) = 2 ^ ew - j := by
        rw [show ((0 : ℕ) : ℤ) = 0 from rfl, hj]; push_cast; ring
      rw [v4, this]; field_simp
    have r0 : (2 : ℚ) ^ t / 2 ^ ew ≤ 1 / 2 := by
      rw [div_le_div_iff₀ (by positivity) (by norm_num)]
      have : (2 : ℚ) ^ (t + 1) ≤ 2 ^ ew := pow_le_pow_right₀ (by norm_num) (by omega)
      rw [pow_succ] at this; linarith
    have r1 : (0 : ℚ) < 2 ^ t / 2 ^ ew := by positivity
    have jq1 : (1 : ℚ) ≤ j := by exact_mod_cast j1
    have jq3 : (j : ℚ) ≤ 3 := by exact_mod_cast j3
    generalize (2 : ℚ) ^ t / 2 ^ ew = u at e r0 r1
    have m0 : 0 < (j : ℚ) * u := by positivity
    have m1 : (j : ℚ) * u ≤ 3 / 2 := by
      calc (j : ℚ) * u ≤ 3 * (1 / 2) := mul_le_mul jq3 r0 r1.le (by norm_num)
        _ = 3 / 2 := by norm_num
    rcases le_or_gt ((j : ℚ) * u) 1 with g | g
    · refine ⟨1, Or.inl rfl, Int.floor_eq_iff.2 ?_⟩
      rw [e]; push_cast; constructor <;> linarith
    · refine ⟨2, Or.inr rfl, Int.floor_eq_iff.2 ?_⟩
      rw [e]; push_cast; constructor <;> linarith
  have p9 : (2 : ℤ) ^ 9 ≤ 2 ^ t := pow_le_pow_right₀ (by norm_num) h9
  have hcv : (oE t tq).cvt v = (oE t tq).val (2 ^ t - d) := by
    unfold Fmt.cvt Fmt.cvtRaw
    congr 1
    have hqn : quant (oE t tq).Q (v * 2 ^ (oE t tq).F) = 2 ^ t - d := by
      rw [oE_F, zpow_natCast]
      have hn : ¬ (v * 2 ^ t < 0) := not_lt.2 (by positivity)
      change quant tq _ = _
      cases tq <;> simp [down] at hq
      · exact hc
      · unfold quant; rw [if_neg hn]; exact hc
    rw [hqn]
    have e2 : (2 : ℤ) ^ (t + 1) = 2 * 2 ^ t := by rw [pow_succ]; ring
    exact ovf_of_range (by unfold oE; simp) (by simp [oE, loRaw, minRaw]; omega)
      (by simp only [oE, maxRaw, Bool.false_eq_true, if_false, e2]; omega)
  refine ⟨d, hd, ?_⟩
  unfold exp2
  simp only [ht, hfp, hfr]
  change (exp2Rr _ (oE t tq) _).bind _ = _
  rw [v1, Option.bind_some]
  congr 1
  change out.cvt (Model.Shift.leftUS (oE t tq) out ((oE t tq).raw ((oE t tq).cvt v)) ⌊(n : ℚ)⌋) = _
  rw [hcv, Fmt.raw_val, Int.floor_intCast, Proof.Shift.leftUS_eq (fx := oE t tq) (by unfold oE; simp) ho rfl hSo, Fmt.cvt_idem ho]
  · congr 2
    unfold Fmt.val
    rw [oE_F, zpow_neg, zpow_natCast]; push_cast; field_simp
  · have e2 : (2 : ℤ) ^ (t + 1) = 2 * 2 ^ t := by rw [pow_succ]; ring
    unfold Proof.Shift.InRange
    simp only [oE, minRaw, maxRaw, Bool.false_eq_true, if_false, e2]
    omega

end Proof.Hcordic
