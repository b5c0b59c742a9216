import Verif.Proof.HcordicOrder
import Verif.Proof.HcordicPow

/-! # The logarithm to base 2 keeps the order of its arguments -/

namespace Proof.Hcordic
open Ac Model.Hcordic

theorem lo_top_all : Proof.Pwl.allLt 45 (fun ew => decide (ew < 1 ∨ lo .ln2 ew (2 ^ ew - 1) ≤ -1)) = true := by
  decide +kernel

theorem lo_mono_all {ew : ℕ} (h1 : 1 ≤ ew) (h44 : ew ≤ 44) {X Y : ℤ} (hX0 : 2 ^ (ew - 1) ≤ X) (hXY : X ≤ Y) (hY1 : Y < 2 ^ ew) :
    lo .ln2 ew X ≤ lo .ln2 ew Y := by
  by_cases h : 3 ≤ ew
  · exact lo_mono h h44 hX0 hXY hY1
  · interval_cases ew
    · norm_num at hX0 hY1
      obtain rfl : X = Y := by omega
      exact le_refl _
    · norm_num at hX0 hY1
      have hX1 : X < 4 := by omega
      have hY0 : 2 ≤ Y := by omega
      interval_cases X <;> interval_cases Y <;> first | omega | decide +kernel

/-- The least and the greatest reduced logarithm. -/
theorem lo_range {ew : ℕ} (h1 : 1 ≤ ew) (h44 : ew ≤ 44) {X : ℤ} (hX0 : 2 ^ (ew - 1) ≤ X) (hX1 : X < 2 ^ ew) :
    -2 ^ ew - 1 ≤ lo .ln2 ew X ∧ lo .ln2 ew X ≤ -1 := by
  have h2 := lo_mono_all h1 h44 hX0 (show X ≤ 2 ^ ew - 1 by omega) (show 2 ^ ew - 1 < 2 ^ ew by omega)
  have h4 := of_decide_eq_true (Proof.Pwl.allLt_iff.1 lo_top_all ew (by omega))
  refine ⟨?_, by omega⟩
  by_cases h3 : 3 ≤ ew
  · have h1 := lo_mono_all h1 h44 le_rfl hX0 hX1
    rw [lo_half h3 h44] at h1
    split_ifs at h1 <;> omega
  · interval_cases ew
    · norm_num at hX0 hX1
      obtain rfl : X = 1 := by omega
      decide +kernel
    · norm_num at hX0 hX1
      interval_cases X <;> decide +kernel

/-- Cutting to whole numbers keeps the order. -/
theorem cut_le {a b w : ℚ} {m n : ℤ} (hw : 0 < w) (h1 : m / w ≤ a) (hab : a ≤ b) (h2 : b < n / w + 1 / w) : m ≤ n := by
  have h : (m : ℚ) / w < (n + 1) / w := by rw [add_div]; linarith
  rw [div_lt_div_iff_of_pos_right hw] at h
  have : m < n + 1 := by exact_mod_cast h
  omega

/-- The parts of the logarithm: exponent `e`, mantissa `m` cut to `X`, reduced logarithm cut to `n`. -/
theorem log2_split {tf : Option ℕ} {tq : QMode} {f out : Fmt} {t p ew : ℕ} (hW : 1 ≤ f.W)
    (hS : f.S = false) (ht : fbits tf out.F.toNat = t) (hp : fbits tf f.W = p) (hew : max p t = ew) (h44 : ew ≤ 44)
    (hp1 : 1 ≤ p) (hq : down tq = true ∨ tf = none) {x : ℚ} (hx : f.Rep x) (hx0 : 0 < x) :
    ∃ (m : ℚ) (e X n : ℤ), log2 tf tq f out x = some (out.cvt ((interFmt out).cvt ((e : ℚ) + (n : ℚ) / 2 ^ t))) ∧
      |(((e : ℚ) + (n : ℚ) / 2 ^ t : ℚ) : ℝ) - Real.logb 2 x| ≤ (5 + cutCost tf 3) / 2 ^ t ∧
      x = m * 2 ^ e ∧ 1 / 2 ≤ m ∧ m < 1 ∧ (X : ℚ) / 2 ^ p ≤ m ∧ m < (X : ℚ) / 2 ^ p + 1 / 2 ^ p ∧ 2 ^ (p - 1) ≤ X ∧ X < 2 ^ p ∧
      (n : ℚ) / 2 ^ t ≤ (lo .ln2 ew (X * 2 ^ (ew - p)) : ℚ) / 2 ^ ew ∧ (lo .ln2 ew (X * 2 ^ (ew - p)) : ℚ) / 2 ^ ew < (n : ℚ) / 2 ^ t + 1 / 2 ^ t := by
  subst hp hew
  set p := fbits tf f.W
  set ew := max p t with hew
  obtain ⟨m, n1, n2, n3, n4, n5, n6, ⟨X, X0, X1, X2⟩, n8⟩ := normed_ok (tq := tq) hW hS (show fbits tf f.W = p from rfl) hp1 (by
    rcases hq with h | h
    · exact Or.inl h
    · right; show f.W ≤ fbits tf f.W; rw [h]; exact le_refl _) hx hx0
  obtain ⟨m', zc, z1, z2, z3, z4, z5, z7, -⟩ := log_parts .ln2 (k := 2) (by norm_num) (fun _ => le_refl _) hW hS ht h44 hp1 hq hx hx0
  have hpe : p ≤ ew := le_max_left _ _
  have hte : t ≤ ew := le_max_right _ _
  have e2 : (2 : ℤ) ^ ew = 2 ^ p * 2 ^ (ew - p) := by rw [← pow_add]; congr 1; omega
  have e2' : (2 : ℤ) ^ (ew - 1) = 2 ^ (p - 1) * 2 ^ (ew - p) := by rw [← pow_add]; congr 1; omega
  have hqp : (0 : ℤ) < 2 ^ (ew - p) := by positivity
  have hY0 : 2 ^ (ew - 1) ≤ X * 2 ^ (ew - p) := by rw [e2']; exact mul_le_mul_of_nonneg_right X0 hqp.le
  have hY1 : X * 2 ^ (ew - p) < 2 ^ ew := by rw [e2]; exact mul_lt_mul_of_pos_right X1 hqp
  have hxX : (X : ℚ) / 2 ^ p = ((X * 2 ^ (ew - p) : ℤ) : ℚ) / 2 ^ ew := by
    rw [show (2 : ℚ) ^ ew = 2 ^ p * 2 ^ (ew - p) by exact_mod_cast e2]
    push_cast; field_simp
  have hl := logRr_all .ln2 (fa := ⟨p, 0, false, tq, .WRAP⟩) (fz := ⟨t + 2, 2, true, .TRN, .WRAP⟩) (ew := ew)
    (by unfold Fmt.F; simp only []; push_cast; omega) (by omega) h44 hY0 hY1 hxX
  obtain ⟨l0, l1⟩ := lo_range (show 1 ≤ ew by omega) h44 hY0 hY1
  set v : ℤ := lo .ln2 ew (X * 2 ^ (ew - p))
  have hE : (0 : ℚ) < 2 ^ ew := by positivity
  have hE1 : (1 : ℚ) ≤ 2 ^ ew := one_le_pow₀ (by norm_num)
  have l0' : -(2 : ℚ) ^ ew - 1 ≤ v := by exact_mod_cast l0
  have l1' : (v : ℚ) ≤ -1 := by exact_mod_cast l1
  obtain ⟨t1, t2, n, t3⟩ := trunc_fit (zf := t) (k := 2) (by norm_num) (v := (v : ℚ) / 2 ^ ew)
    (by norm_num; rw [le_div_iff₀ hE]; linarith) (by norm_num; rw [div_lt_iff₀ hE]; linarith)
  rw [← X2] at hl
  push_cast at z1 hl
  rw [z1] at hl
  injection hl with hl
  push_cast at t1 t2 t3
  rw [t3] at hl t1 t2
  set e := (normed tf tq f x).2 with he
  have ho : (⟨ofw f + 1, ofw f + 1, true, .TRN, .WRAP⟩ : Fmt).cvt (e : ℚ) = e := by
    have hv : (e : ℚ) = (⟨ofw f + 1, ((ofw f + 1 : ℕ) : ℤ), true, .TRN, .WRAP⟩ : Fmt).val e := by unfold Fmt.val Fmt.F; simp
    have hb := abs_lt.1 (ofw_lt z5)
    have := Proof.Atan2.cvt_raw (g := ⟨ofw f + 1, ((ofw f + 1 : ℕ) : ℤ), true, .TRN, .WRAP⟩) (r := e) (by simp) rfl
      (by simp only [minRaw, if_true]; rw [Nat.add_sub_cancel]; linarith [hb.1])
      (by simp only [maxRaw, if_true]; rw [Nat.add_sub_cancel]; linarith [hb.2])
    rw [← hv] at this
    push_cast at this
    exact this
  refine ⟨m, e, X, n, ?_, ?_, n1, n2, n3, by rw [← X2]; exact n4, by rw [← X2]; exact n5, X0, X1, t1, by linarith⟩
  · unfold log2
    simp only [ht, ← he]
    rw [z1]
    simp only [Option.bind_eq_bind, Option.bind_some]
    rw [ho, hl]
  · rw [← hl]
    exact log2_tail (by linarith) z2 z7

/-- Exponents are in order, and mantissas with the same exponent. -/
theorem parts_le {x y m m' : ℚ} {e e' : ℤ} (hx : x = m * 2 ^ e) (hy : y = m' * 2 ^ e') (h1 : 1 / 2 ≤ m) (h2 : m' < 1) (hxy : x ≤ y) :
    e < e' ∨ e = e' ∧ m ≤ m' := by
  rcases lt_trichotomy e e' with h | h | h
  · exact Or.inl h
  · refine Or.inr ⟨h, ?_⟩
    rw [hx, hy, ← h] at hxy
    exact le_of_mul_le_mul_right hxy (Fmt.z_pos e)
  · exfalso
    have e1 : (2 : ℚ) ^ e' * 2 ≤ 2 ^ e := by
      rw [← zpow_add_one₀ (by norm_num)]
      exact zpow_le_zpow_right₀ (by norm_num) h
    have hp := Fmt.z_pos e'
    have a : m' * 2 ^ e' < 1 * 2 ^ e' := mul_lt_mul_of_pos_right h2 hp
    have b : 1 / 2 * (2 ^ e' * 2) ≤ m * (2 : ℚ) ^ e := mul_le_mul h1 e1 (by positivity) (by linarith)
    rw [hx, hy] at hxy
    linarith

/-- The sums of the exponent and the reduced logarithm are in order. -/
theorem log2_sums {tf : Option ℕ} {tq : QMode} {f out : Fmt} {t : ℕ} (hW : 1 ≤ f.W)
    (hS : f.S = false) (ht : fbits tf out.F.toNat = t) (h44 : max (fbits tf f.W) t ≤ 44)
    (hp1 : 1 ≤ fbits tf f.W) (hq : down tq = true ∨ tf = none) {x y : ℚ} (hx : f.Rep x) (hy : f.Rep y) (hx0 : 0 < x) (hxy : x ≤ y) :
    ∃ r r' : ℚ, log2 tf tq f out x = some (out.cvt ((interFmt out).cvt r)) ∧ log2 tf tq f out y = some (out.cvt ((interFmt out).cvt r')) ∧
      |(r : ℝ) - Real.logb 2 x| ≤ (5 + cutCost tf 3) / 2 ^ t ∧ |(r' : ℝ) - Real.logb 2 y| ≤ (5 + cutCost tf 3) / 2 ^ t ∧ r ≤ r' := by
  obtain ⟨p, hp⟩ : ∃ p, fbits tf f.W = p := ⟨_, rfl⟩
  obtain ⟨ew, hew⟩ : ∃ ew, max p t = ew := ⟨_, rfl⟩
  rw [hp] at h44 hp1
  rw [hew] at h44
  obtain ⟨m, e, X, n, a1, a2, a3, a4, a5, a6, a7, a8, a9, a10, a11⟩ := log2_split hW hS ht hp hew h44 hp1 hq hx hx0
  obtain ⟨m', e', Y, n', b1, b2, b3, b4, b5, b6, b7, b8, b9, b10, b11⟩ := log2_split hW hS ht hp hew h44 hp1 hq hy (hx0.trans_le hxy)
  refine ⟨_, _, a1, b1, a2, b2, ?_⟩
  have hpe : p ≤ ew := by rw [← hew]; exact le_max_left _ _
  have hte : t ≤ ew := by rw [← hew]; exact le_max_right _ _
  have e2 : (2 : ℤ) ^ ew = 2 ^ p * 2 ^ (ew - p) := by rw [← pow_add]; congr 1; omega
  have e2' : (2 : ℤ) ^ (ew - 1) = 2 ^ (p - 1) * 2 ^ (ew - p) := by rw [← pow_add]; congr 1; omega
  have hqp : (0 : ℤ) < 2 ^ (ew - p) := by positivity
  have hX0 : 2 ^ (ew - 1) ≤ X * 2 ^ (ew - p) := by rw [e2']; exact mul_le_mul_of_nonneg_right a8 hqp.le
  have hX1 : X * 2 ^ (ew - p) < 2 ^ ew := by rw [e2]; exact mul_lt_mul_of_pos_right a9 hqp
  have hY0 : 2 ^ (ew - 1) ≤ Y * 2 ^ (ew - p) := by rw [e2']; exact mul_le_mul_of_nonneg_right b8 hqp.le
  have hY1 : Y * 2 ^ (ew - p) < 2 ^ ew := by rw [e2]; exact mul_lt_mul_of_pos_right b9 hqp
  have hT : (0 : ℚ) < 2 ^ t := by positivity
  have hE : (0 : ℚ) < 2 ^ ew := by positivity
  rcases parts_le a3 b3 a4 b5 hxy with h | ⟨h, hm⟩
  · -- different exponents
    have c1 := (lo_range (by omega) h44 hX0 hX1).2
    have c2 := (lo_range (by omega) h44 hY0 hY1).1
    have c1' : (lo .ln2 ew (X * 2 ^ (ew - p)) : ℚ) ≤ -1 := by exact_mod_cast c1
    have c2' : -(2 : ℚ) ^ ew - 1 ≤ lo .ln2 ew (Y * 2 ^ (ew - p)) := by exact_mod_cast c2
    have i1 : (n : ℚ) < 0 := by
      have : (n : ℚ) / 2 ^ t < 0 := lt_of_le_of_lt a10 (div_neg_of_neg_of_pos (by linarith) hE)
      by_contra hn
      have := div_nonneg (not_lt.1 hn) hT.le
      linarith
    have i2 : -(2 : ℚ) ^ t - 1 < n' + 1 := by
      have u1 : (-(2 : ℚ) ^ ew - 1) / 2 ^ ew ≤ (lo .ln2 ew (Y * 2 ^ (ew - p)) : ℚ) / 2 ^ ew := div_le_div_of_nonneg_right c2' hE.le
      have u2 : (-(2 : ℚ) ^ ew - 1) / 2 ^ ew = -1 - 1 / 2 ^ ew := by field_simp
      have u3 : (1 : ℚ) / 2 ^ ew ≤ 1 / 2 ^ t := one_div_le_one_div_of_le hT (pow_le_pow_right₀ (by norm_num) hte)
      have u4 : (-(2 : ℚ) ^ t - 1) / 2 ^ t = -1 - 1 / 2 ^ t := by field_simp
      have u5 : (-(2 : ℚ) ^ t - 1) / 2 ^ t < (n' + 1) / 2 ^ t := by rw [u4, add_div]; linarith
      exact (div_lt_div_iff_of_pos_right hT).1 u5
    have i1' : n < 0 := by exact_mod_cast i1
    have i2' : -(2 : ℤ) ^ t - 1 < n' + 1 := by exact_mod_cast i2
    have i3 : (n : ℚ) ≤ n' + 2 ^ t := by
      have : n ≤ n' + 2 ^ t := by omega
      exact_mod_cast this
    have i4 : (n : ℚ) / 2 ^ t ≤ n' / 2 ^ t + 1 := by
      rw [show (n' : ℚ) / 2 ^ t + 1 = (n' + 2 ^ t) / 2 ^ t by field_simp]
      exact div_le_div_of_nonneg_right i3 hT.le
    have i5 : (e : ℚ) + 1 ≤ e' := by exact_mod_cast h
    linarith
  · have hXY : X ≤ Y := cut_le (show (0 : ℚ) < 2 ^ p by positivity) a6 hm b7
    have hl := lo_mono_all (by omega) h44 hX0 (mul_le_mul_of_nonneg_right hXY hqp.le) hY1
    have hl' : (lo .ln2 ew (X * 2 ^ (ew - p)) : ℚ) / 2 ^ ew ≤ (lo .ln2 ew (Y * 2 ^ (ew - p)) : ℚ) / 2 ^ ew :=
      div_le_div_of_nonneg_right (by exact_mod_cast hl) hE.le
    have hn : n ≤ n' := cut_le hT a10 hl' b11
    have : (n : ℚ) / 2 ^ t ≤ n' / 2 ^ t := div_le_div_of_nonneg_right (by exact_mod_cast hn) hT.le
    rw [h]; linarith

/-- The value of a number in the range of the output. -/
theorem inter_val {out : Fmt} (ho : 1 ≤ out.W) {r : ℚ} (h0 : loRaw out.W out.S out.O ≤ r * 2 ^ out.F) (h1 : r * 2 ^ out.F ≤ maxRaw out.W out.S) :
    out.cvt ((interFmt out).cvt r) = out.val (quant out.Q (r * 2 ^ out.F)) := by
  have q0 := le_quant (q := out.Q) h0
  have q1 := quant_le (q := out.Q) h1
  have e : (interFmt out).cvt r = out.val (quant out.Q (r * 2 ^ out.F)) := by
    unfold Fmt.cvt Fmt.cvtRaw
    have a : ovf (interFmt out).W (interFmt out).S (interFmt out).O (quant (interFmt out).Q (r * 2 ^ (interFmt out).F)) =
        quant out.Q (r * 2 ^ out.F) := by
      refine ovf_of_range ho ?_ q1
      refine le_trans ?_ q0
      refine le_trans (le_of_eq ?_) (minRaw_le_loRaw _ _ _)
      unfold interFmt loRaw
      cases out.S <;> simp
    rw [a]; rfl
  rw [e, Fmt.cvt_val ho q0 q1]

/-- A signed output keeps the order of numbers in its range. -/
theorem out_mono {out : Fmt} (ho : 1 ≤ out.W) (hS : out.S = true) {r r' : ℚ} {L L' E : ℝ} (h : |(r : ℝ) - L| ≤ E) (hr : |L| + E ≤ out.maxVal)
    (h' : |(r' : ℝ) - L'| ≤ E) (hr' : |L'| + E ≤ out.maxVal) (hle : r ≤ r') :
    out.cvt ((interFmt out).cvt r) ≤ out.cvt ((interFmt out).cvt r') := by
  have hl : loRaw out.W out.S out.O ≤ -maxRaw out.W out.S := by
    unfold loRaw minRaw maxRaw
    rw [hS]
    cases out.O <;> simp
  have hp := Fmt.z_pos out.F
  have key : ∀ {r : ℚ} {L : ℝ}, |(r : ℝ) - L| ≤ E → |L| + E ≤ out.maxVal →
      out.cvt ((interFmt out).cvt r) = out.val (quant out.Q (r * 2 ^ out.F)) := by
    intro r L h hr
    have ha : |(r : ℝ)| ≤ out.maxVal := by
      have : |(r : ℝ)| ≤ |L| + |(r : ℝ) - L| := by
        have := abs_add_le L ((r : ℝ) - L)
        rwa [add_sub_cancel] at this
      linarith
    have ha' : |r| ≤ out.maxVal := by exact_mod_cast ha
    have hb : |r * 2 ^ out.F| ≤ maxRaw out.W out.S := by
      rw [abs_mul, abs_of_pos hp, ← maxVal_pow]
      exact mul_le_mul_of_nonneg_right ha' hp.le
    obtain ⟨b0, b1⟩ := abs_le.1 hb
    exact inter_val ho (by
      refine le_trans ?_ b0
      exact_mod_cast hl) b1
  rw [key h hr, key h' hr', Fmt.val_le]
  exact quant_mono _ (mul_le_mul_of_nonneg_right hle hp.le)

/-- An unsigned output keeps the order of all numbers. -/
theorem out_mono_unsigned {out : Fmt} (ho : 1 ≤ out.W) (hS : out.S = false) {r r' : ℚ} (hle : r ≤ r') :
    out.cvt ((interFmt out).cvt r) ≤ out.cvt ((interFmt out).cvt r') := by
  have hO : (interFmt out).O = .SAT := by unfold interFmt; simp [hS]
  have key : ∀ r : ℚ, out.cvt ((interFmt out).cvt r) = (interFmt out).cvt r := by
    intro r
    obtain ⟨n, n0, n1, e⟩ := Fmt.rep_cvt (f := interFmt out) ho r
    rw [e]
    have : (interFmt out).val n = out.val n := rfl
    rw [this]
    refine Fmt.cvt_val ho ?_ n1
    have e1 : minRaw (interFmt out).W (interFmt out).S = 0 := by unfold interFmt minRaw; simp [hS]
    rw [e1] at n0
    exact (loRaw_nonpos _ _ _).trans n0
  rw [key, key]
  exact Fmt.cvt_mono (Or.inl hO) hle

end Proof.Hcordic
