import Verif.Proof.HcordicExp4
import Verif.Proof.PowPwl

/-! # The error of ac_exp2_cordic -/

namespace Proof.Hcordic
open Ac Model.Hcordic

theorem lf_lt : Proof.Pwl.allLt 46 (fun f => decide (0 ≤ ln2Raw / 2 ^ (159 - f) ∧ ln2Raw / 2 ^ (159 - f) < 2 ^ f)) = true := by
  decide +kernel

theorem ln2_eq {f : ℕ} (h1 : 1 ≤ f) (h45 : f ≤ 45) : (fcE f).cvt (ln2 f) = (fcE f).val (ln2Raw / 2 ^ (159 - f)) := by
  obtain ⟨k0, k1⟩ := of_decide_eq_true (Proof.Pwl.allLt_iff.1 lf_lt f (by omega))
  have e : ln2 f = (⟨f, 0, false, .TRN, .WRAP⟩ : Fmt).val (ln2Raw / 2 ^ (159 - f)) := by
    unfold ln2
    rw [show (ln2Raw : ℚ) / 2 ^ 159 = (ln2Raw : ℚ) * 2 ^ (-((159 : ℕ) : ℤ)) by rw [zpow_neg, zpow_natCast, div_eq_mul_inv]]
    refine cvt_trunc (n := 159) (k := f) (by simpa using h1) rfl rfl (by unfold Fmt.F; simp) (by omega) ?_ ?_
    · simpa [minRaw] using k0
    · simp only [maxRaw]
      simpa using Int.le_sub_one_of_lt k1
  rw [e, Proof.Atan2.val_same (g' := fcE f) (by rw [fcE_F]; unfold Fmt.F; simp)]
  have : (0 : ℤ) < 2 ^ f := by positivity
  exact fcE_cvt (by linarith) (by linarith)

theorem zIn_eq {f X : ℕ} (h1 : 1 ≤ f) (h45 : f ≤ 45) (hX : X < 2 ^ f) {x : ℚ} (hx : x = X / 2 ^ f) :
    (fcE f).cvt (x * (fcE f).cvt (ln2 f)) = (fcE f).val (zIn f X) := by
  rw [ln2_eq h1 h45, hx]
  have e : (X : ℚ) / 2 ^ f * (fcE f).val (ln2Raw / 2 ^ (159 - f)) =
      (((X : ℤ) * (ln2Raw / 2 ^ (159 - f)) : ℤ) : ℚ) * 2 ^ (-((2 * f : ℕ) : ℤ)) := by
    unfold Fmt.val
    rw [fcE_F, div_eq_mul_inv, ← zpow_natCast (2 : ℚ) f, ← zpow_neg]
    push_cast
    rw [show -(2 * (f : ℤ)) = -(f : ℤ) + -(f : ℤ) by ring, zpow_add₀ (by norm_num : (2 : ℚ) ≠ 0)]
    ring
  have hz := abs_le.1 (zIn_abs h45 hX)
  unfold zIn at hz
  have hp' : (2 : ℤ) ^ (f + 3 - 1) = 4 * 2 ^ f := by rw [show f + 3 - 1 = 2 + f by omega, pow_add]; norm_num
  have hp : (0 : ℤ) < 2 ^ f := by positivity
  rw [e, cvt_trunc (n := 2 * f) (k := f) (by unfold fcE; simp) rfl rfl (fcE_F f) (by omega)]
  · rw [show 2 * f - f = f by omega]; rfl
  · rw [show 2 * f - f = f by omega]
    simp only [fcE, minRaw, if_true]; linarith [hz.1]
  · rw [show 2 * f - f = f by omega]
    simp only [fcE, maxRaw, if_true]; linarith [hz.2]

theorem exp2Rr_core (fa fz : Fmt) (x : ℚ) : exp2Rr fa fz x =
    (core (max fa.W fz.W) ((fcE (max fa.W fz.W)).cvt (x * (fcE (max fa.W fz.W)).cvt (ln2 (max fa.W fz.W))))).map fz.cvt := by
  unfold exp2Rr core
  rw [Option.map_map]
  rfl

theorem exp2Rr_eq {fa fz : Fmt} {ew X : ℕ} (hew : max fa.W fz.W = ew) (h3 : 3 ≤ ew) (h45 : ew ≤ 45) (hX : X < 2 ^ ew) {x : ℚ}
    (hx : x = X / 2 ^ ew) : ∃ v : ℚ, exp2Rr fa fz x = some (fz.cvt v) ∧ 0 ≤ v ∧ v ≤ 2 - 1 / 2 ^ ew ∧
    (2 : ℝ) ^ (x : ℝ) ≤ v + 11 * (1 / 2 ^ ew) ∧ v - 5 / 2 * (1 / 2 ^ ew) ≤ (2 : ℝ) ^ (x : ℝ) ∧ v = eo ew (zIn ew X) / 2 ^ ew := by
  obtain ⟨g1, g2, g3, g4, g5⟩ := goodZ_all h3 h45 hX
  have hp : (0 : ℤ) < 2 ^ ew := by positivity
  have hc := core_eq h3 h45 g1 ⟨by linarith, by rw [pow_succ] at g3; linarith⟩
  refine ⟨(fcE ew).val (eo ew (zIn ew X)), ?_, ?_, ?_, ?_, ?_, by unfold Fmt.val; rw [fcE_F, zpow_neg, zpow_natCast, div_eq_mul_inv]⟩
  · rw [exp2Rr_core, hew, zIn_eq (by omega) h45 hX hx, hc]; rfl
  · exact mul_nonneg (by exact_mod_cast g2) (Fmt.z_pos _).le
  · have e : (fcE ew).val (eo ew (zIn ew X)) = (eo ew (zIn ew X) : ℚ) / 2 ^ ew := by
      unfold Fmt.val; rw [fcE_F, zpow_neg, zpow_natCast, div_eq_mul_inv]
    rw [e, div_le_iff₀ (by positivity), sub_mul, one_div, inv_mul_cancel₀ (by positivity)]
    have : (eo ew (zIn ew X) : ℚ) + 1 ≤ 2 ^ (ew + 1) := by exact_mod_cast g3
    rw [pow_succ] at this; linarith
  all_goals
    have e : (((fcE ew).val (eo ew (zIn ew X)) : ℚ) : ℝ) = (eo ew (zIn ew X) : ℝ) / 2 ^ ew := by
      unfold Fmt.val; rw [fcE_F, zpow_neg, zpow_natCast]; push_cast; rw [div_eq_mul_inv]
    have ex : (x : ℝ) = (X : ℝ) / 2 ^ ew := by rw [hx]; push_cast; rfl
    rw [e, ex]
  · rw [add_div] at g4; convert g4 using 2; ring
  · rw [sub_div] at g5; convert g5 using 2; ring

/-- Rounding modes that do not go up. -/
def down (q : QMode) : Bool := q = .TRN || q = .TRN_ZERO

theorem quant_down {q : QMode} (h : down q = true) {x : ℚ} (hx : 0 ≤ x) : quant q x = ⌊x⌋ := by
  unfold down at h
  cases q <;> simp at h
  · rfl
  · simp only [quant]; rw [if_neg (not_lt.2 hx)]

/-- The type of `exp2_xF`. -/
def oE (t : ℕ) (tq : QMode) : Fmt := ⟨t + 1, 1, false, tq, .WRAP⟩

theorem oE_F (t : ℕ) (tq : QMode) : (oE t tq).F = t := by unfold oE Fmt.F; simp

theorem oE_cvt {t : ℕ} {tq : QMode} {v : ℚ} (h0 : 0 ≤ v) (h1 : (down tq = true ∧ v < 2) ∨ v ≤ 2 - 1 / 2 ^ t) :
    ∃ r : ℤ, (oE t tq).cvt v = (oE t tq).val r ∧ Proof.Shift.InRange (oE t tq).W (oE t tq).S r ∧ |((oE t tq).cvt v) - v| ≤ 1 / 2 ^ t ∧
      (down tq = true → (oE t tq).cvt v ≤ v) := by
  have hv : ∀ r : ℤ, (oE t tq).val r = (r : ℚ) / 2 ^ t := by
    intro r; unfold Fmt.val; rw [oE_F, zpow_neg, zpow_natCast, div_eq_mul_inv]
  have hp : (0 : ℚ) < 2 ^ t := by positivity
  have hs0 : 0 ≤ v * 2 ^ t := by positivity
  obtain ⟨q0, q1, q2⟩ : 0 ≤ quant tq (v * 2 ^ t) ∧ quant tq (v * 2 ^ t) ≤ 2 ^ (t + 1) - 1 ∧
      |(quant tq (v * 2 ^ t) : ℚ) - v * 2 ^ t| ≤ 1 := by
    rcases h1 with ⟨hd, hv2⟩ | hv2
    · rw [quant_down hd hs0]
      refine ⟨Int.floor_nonneg.2 hs0, ?_, ?_⟩
      · apply Int.le_sub_one_of_lt
        rw [Int.floor_lt]
        push_cast; rw [pow_succ]; nlinarith
      · have a := Int.floor_le (v * 2 ^ t)
        have b := Int.lt_floor_add_one (v * 2 ^ t)
        rw [abs_le]; constructor <;> linarith
    · have hb : v * 2 ^ t ≤ ((2 ^ (t + 1) - 1 : ℤ) : ℚ) := by
        have := mul_le_mul_of_nonneg_right hv2 hp.le
        rw [sub_mul, one_div, inv_mul_cancel₀ hp.ne'] at this
        push_cast; rw [pow_succ]; linarith
      have e := quant_err tq (v * 2 ^ t)
      refine ⟨le_quant (by simpa using hs0), quant_le (by simpa using hb), ?_⟩
      have := e.le
      simpa using this
  have hc : (oE t tq).cvt v = (oE t tq).val (quant tq (v * 2 ^ t)) := by
    unfold Fmt.cvt Fmt.cvtRaw
    rw [oE_F, zpow_natCast]
    congr 1
    refine ovf_of_range (by unfold oE; simp) ?_ ?_
    · simpa [oE, loRaw, minRaw] using q0
    · simpa [oE, maxRaw] using q1
  refine ⟨quant tq (v * 2 ^ t), hc, ⟨?_, ?_⟩, ?_, ?_⟩
  · simpa [oE, minRaw] using q0
  · simpa [oE, maxRaw] using q1
  · rw [hc, hv]
    have e : (quant tq (v * 2 ^ t) : ℚ) / 2 ^ t - v = ((quant tq (v * 2 ^ t) : ℚ) - v * 2 ^ t) / 2 ^ t := by field_simp
    rw [e, abs_div, abs_of_pos hp]
    exact div_le_div_of_nonneg_right q2 hp.le
  · intro hd
    rw [hc, hv, div_le_iff₀ hp, quant_down hd hs0]
    exact Int.floor_le _

/-- The input of `ac_exp2_rr` in units of any larger number of bits. -/
theorem frac_nat {f : Fmt} {x : ℚ} (hx : f.Rep x) {ew : ℕ} (hew : (f.W : ℤ) - f.I ≤ ew) :
    ∃ X : ℕ, X < 2 ^ ew ∧ Int.fract x = X / 2 ^ ew := by
  obtain ⟨r, -, -, rfl⟩ := hx
  have e : f.val r * 2 ^ ew = ((r * 2 ^ (ew - f.F).toNat : ℤ) : ℚ) := by
    unfold Fmt.val
    rw [mul_assoc, ← zpow_natCast, ← zpow_add₀ (by norm_num : (2 : ℚ) ≠ 0)]
    push_cast
    rw [← zpow_natCast]
    congr 2
    unfold Fmt.F at *; omega
  have hp : (0 : ℚ) < 2 ^ ew := by positivity
  set R : ℤ := r * 2 ^ (ew - f.F).toNat with hR
  have hfr : Int.fract (f.val r) * 2 ^ ew = ((R - ⌊f.val r⌋ * 2 ^ ew : ℤ) : ℚ) := by
    unfold Int.fract; rw [sub_mul, e]; push_cast; ring
  have h0 : 0 ≤ R - ⌊f.val r⌋ * 2 ^ ew := by
    have : (0 : ℚ) ≤ ((R - ⌊f.val r⌋ * 2 ^ ew : ℤ) : ℚ) := by
      rw [← hfr]; exact mul_nonneg (Int.fract_nonneg _) hp.le
    exact_mod_cast this
  refine ⟨(R - ⌊f.val r⌋ * 2 ^ ew).toNat, ?_, ?_⟩
  · have : ((R - ⌊f.val r⌋ * 2 ^ ew : ℤ) : ℚ) < 2 ^ ew := by
      rw [← hfr]; have := mul_lt_mul_of_pos_right (Int.fract_lt_one (f.val r)) hp; linarith
    have h : R - ⌊f.val r⌋ * 2 ^ ew < 2 ^ ew := by exact_mod_cast this
    zify; rw [Int.toNat_of_nonneg h0]; exact h
  · rw [eq_div_iff hp.ne', hfr]
    exact_mod_cast (Int.toNat_of_nonneg h0).symm

/-- The reduced exponential of the fraction of a number. -/
theorem exp2Rr_near {wa t : ℕ} {tq : QMode} {x : ℚ} {X : ℕ} (hwa : wa ≤ 45) (h2 : 2 ≤ t) (h44 : t ≤ 44)
    (hX : X < 2 ^ max wa (t + 1)) (hXe : Int.fract x = X / 2 ^ max wa (t + 1))
    (hq : down tq = true ∨ (2 : ℝ) ^ ((Int.fract x : ℚ) : ℝ) ≤ 2 - 3 / 2 ^ t ∨
      wa ≤ t + 1 ∧ eo (t + 1) (zIn (t + 1) X) + 2 ≤ 2 ^ (t + 2)) :
    ∃ v : ℚ, exp2Rr ⟨wa, 0, false, .TRN, .WRAP⟩ (oE t tq) (Int.fract x) = some ((oE t tq).cvt v) ∧
      (∃ r : ℤ, (oE t tq).cvt v = (oE t tq).val r ∧ Proof.Shift.InRange (oE t tq).W (oE t tq).S r) ∧
      |(((oE t tq).cvt v * 2 ^ ⌊x⌋ : ℚ) : ℝ) - 2 ^ (x : ℝ)| ≤ 13 / 2 / 2 ^ t * 2 ^ (x : ℝ) := by
  obtain ⟨ew, hew⟩ : ∃ ew : ℕ, max wa (t + 1) = ew := ⟨_, rfl⟩
  rw [hew] at hX hXe
  obtain ⟨v, v1, v2, v3, v4, v5, v6⟩ := exp2Rr_eq (fa := ⟨wa, 0, false, .TRN, .WRAP⟩)
    (fz := oE t tq) hew (by omega) (by omega) hX hXe
  have hu : (1 : ℝ) / 2 ^ ew ≤ 1 / 2 / 2 ^ t := by
    rw [div_div, ← pow_succ']
    exact one_div_le_one_div_of_le (by positivity) (pow_le_pow_right₀ (by norm_num) (by omega))
  have hw : (0 : ℝ) < 1 / 2 ^ t := by positivity
  have hw2 : (1 : ℝ) / 2 / 2 ^ t = 1 / 2 * (1 / 2 ^ t) := by ring
  have hw3 : (3 : ℝ) / 2 ^ t = 3 * (1 / 2 ^ t) := by ring
  rw [hw2] at hu
  rw [hw3] at hq
  have hq' : (down tq = true ∧ v < 2) ∨ v ≤ 2 - 1 / 2 ^ t := by
    rcases hq with h | h | ⟨hw, h⟩
    · left
      refine ⟨h, ?_⟩
      have : (0 : ℚ) < 1 / 2 ^ ew := by positivity
      linarith
    · right
      have : ((v : ℚ) : ℝ) ≤ ((2 - 1 / 2 ^ t : ℚ) : ℝ) := by push_cast; linarith
      exact_mod_cast this
    · right
      have hE : ew = t + 1 := by omega
      have h' : (eo (t + 1) (zIn (t + 1) X) : ℚ) + 2 ≤ 2 ^ (t + 2) := by exact_mod_cast h
      rw [v6, hE, div_le_iff₀ (by positivity)]
      have e1 : (2 - 1 / 2 ^ t) * (2 : ℚ) ^ (t + 1) = 2 ^ (t + 2) - 2 := by
        rw [pow_succ, pow_succ]; field_simp; ring
      rw [e1]; linarith
  obtain ⟨r, r1, r2, r3, r4⟩ := oE_cvt (tq := tq) v2 hq'
  have hy : (|(((oE t tq).cvt v : ℚ) : ℝ) - 2 ^ ((Int.fract x : ℚ) : ℝ)|) ≤ 13 / 2 * (1 / 2 ^ t) := by
    have r3' := Rat.cast_le (K := ℝ) |>.2 r3
    push_cast at r3'
    obtain ⟨a, b⟩ := abs_le.1 r3'
    rw [abs_le]
    constructor <;> linarith
  refine ⟨v, v1, ⟨r, r1, r2⟩, ?_⟩
  have hp : (0 : ℝ) < 2 ^ (⌊x⌋ : ℤ) := by positivity
  have e : (2 : ℝ) ^ (x : ℝ) = 2 ^ ((Int.fract x : ℚ) : ℝ) * 2 ^ (⌊x⌋ : ℤ) := by
    rw [← Real.rpow_intCast, ← Real.rpow_add (by norm_num)]
    congr 1
    rw [Int.fract]; push_cast; ring
  have h1 : (1 : ℝ) ≤ 2 ^ ((Int.fract x : ℚ) : ℝ) := Real.one_le_rpow (by norm_num) (by exact_mod_cast Int.fract_nonneg x)
  push_cast
  rw [e, ← sub_mul, abs_mul, abs_of_pos hp, ← mul_assoc]
  refine mul_le_mul_of_nonneg_right (hy.trans ?_) hp.le
  have : (13 : ℝ) / 2 / 2 ^ t = 13 / 2 * (1 / 2 ^ t) := by ring
  rw [this]
  have := mul_le_mul_of_nonneg_left h1 (show (0 : ℝ) ≤ 13 / 2 * (1 / 2 ^ t) by positivity)
  linarith

theorem exp2_eq {tf : Option ℕ} {tq : QMode} {f out : Fmt} (ho : 1 ≤ out.W) (hSo : out.S = false) {x : ℚ} (hx : f.Rep x)
    (hf : (f.W : ℤ) - f.I ≤ 45) {t : ℕ} (ht : fbits tf out.F.toNat = t) (h2 : 2 ≤ t) (h44 : t ≤ 44)
    (hq : down tq = true ∨ (2 : ℝ) ^ ((Int.fract x : ℚ) : ℝ) ≤ 2 - 3 / 2 ^ t ∨ (f.W : ℤ) - f.I ≤ t ∧
      ∀ X : ℕ, Int.fract x = X / 2 ^ (t + 1) → eo (t + 1) (zIn (t + 1) X) + 2 ≤ 2 ^ (t + 2)) :
    ∃ r : ℚ, exp2 tf tq f out x = some (out.cvt r) ∧ |(r : ℝ) - 2 ^ (x : ℝ)| ≤ 13 / 2 / 2 ^ t * 2 ^ (x : ℝ) := by
  obtain ⟨hfp, -⟩ := Proof.PowPwl.fracPart_eq hx
  obtain ⟨X, hX, hXe⟩ := frac_nat hx (show (f.W : ℤ) - f.I ≤ (max (max ((f.W : ℤ) - f.I) 1).toNat (t + 1) : ℕ) by omega)
  obtain ⟨v, v1, ⟨r, r1, r2⟩, v2⟩ := exp2Rr_near (wa := (max ((f.W : ℤ) - f.I) 1).toNat) (by omega) h2 h44 hX hXe (by
    refine hq.imp_right (Or.imp_right ?_)
    rintro ⟨h, e⟩
    have hm : max (max ((f.W : ℤ) - f.I) 1).toNat (t + 1) = t + 1 := by omega
    rw [hm] at hXe
    exact ⟨by omega, e X hXe⟩)
  refine ⟨_, ?_, v2⟩
  unfold exp2
  simp only [ht, hfp]
  change (exp2Rr _ (oE t tq) _).bind _ = _
  rw [v1, Option.bind_some]
  congr 1
  change out.cvt (Model.Shift.leftUS (oE t tq) out ((oE t tq).raw ((oE t tq).cvt v)) ⌊x⌋) = _
  rw [r1, Fmt.raw_val, Proof.Shift.leftUS_eq (fx := oE t tq) (by unfold oE; simp) ho rfl hSo r2, Fmt.cvt_idem ho]

end Proof.Hcordic
