import Verif.Proof.Arccos

/-! # The loop of ac_arcsin_cordic.h -/

namespace Proof.Arcsin
open Ac Model.Arcsin

variable {p : ℕ}

/-- The steps that the comparison with a quarter turn keeps on the right side of it do so by a margin. -/
theorem far_ok {h i : ℕ} (h1 : 11 ≤ h) (h2 : h ≤ 64) (i1 : 2 ≤ i) (i2 : i ≤ h + 2) {s : ℤ} (hs : Sums i s) :
    ((h : ℤ) + 1) * 2 ^ 128 + 2 ^ 12 * 2 ^ (2 * h) < |s| * 2 ^ (2 * h) := by
  suffices g : 2 * ((h : ℤ) + 1) * 2 ^ 128 < |s| * 2 ^ (2 * h) by
    obtain ⟨f1, -⟩ := sums_far hs i1 (by omega)
    have f3 : (2 : ℤ) ^ 128 ≤ |s| * 2 ^ 72 :=
      le_trans f1 (mul_le_mul_of_nonneg_left (pow_le_pow_right₀ (by norm_num) (by omega)) (abs_nonneg s))
    have f4 : 2 * (2 : ℤ) ^ 12 ≤ |s| := by omega
    have := mul_le_mul_of_nonneg_right f4 (show (0 : ℤ) ≤ 2 ^ (2 * h) by positivity)
    linarith
  obtain ⟨f1, f2⟩ := sums_far hs i1 (by omega)
  have hs0 := abs_nonneg s
  by_cases c : h ≤ 14
  · have f3 := f2 (by omega)
    have e : (2 : ℤ) ^ (2 * h) = 2 ^ 17 * 2 ^ (2 * h - 17) := by rw [← pow_add]; congr 1; omega
    have e2 : (32 : ℤ) ≤ 2 ^ (2 * h - 17) := by
      have : (2 : ℤ) ^ 5 ≤ 2 ^ (2 * h - 17) := pow_le_pow_right₀ (by norm_num) (by omega)
      linarith
    rw [e, ← mul_assoc]
    have := mul_le_mul f3 e2 (by norm_num) (by positivity)
    have hc : (h : ℤ) ≤ 14 := by exact_mod_cast c
    linarith
  · have e : (2 : ℤ) ^ (2 * h) = 2 ^ (h + 8) * 2 ^ (h - 8) := by rw [← pow_add]; congr 1; omega
    have f3 : (2 : ℤ) ^ 128 ≤ |s| * 2 ^ (h + 8) :=
      le_trans f1 (mul_le_mul_of_nonneg_left (pow_le_pow_right₀ (by norm_num) (by omega)) hs0)
    have e2 : 2 * ((h : ℤ) + 1) < 2 ^ (h - 8) := by
      obtain ⟨m, rfl⟩ : ∃ m, h = m + 15 := ⟨h - 15, by omega⟩
      rw [show m + 15 - 8 = m + 7 by omega, pow_add]
      have : ((m : ℤ) + 1) ≤ 2 ^ m := by exact_mod_cast Nat.lt_two_pow_self
      push_cast
      linarith
    rw [e, ← mul_assoc]
    have m1 := mul_lt_mul_of_pos_left e2 (show (0 : ℤ) < 2 ^ 128 by positivity)
    have m2 := mul_le_mul_of_nonneg_right f3 (show (0 : ℤ) ≤ 2 ^ (h - 8) by positivity)
    linarith

/-- Distance from the target angle before step `i`. -/
noncomputable def bnd (h i : ℕ) : ℝ := if i ≤ h + 3 then a (i - 1) + W (2 * h) else W (2 * h) + 4 / 2 ^ (h + 2) - 2 / 2 ^ (i - 1)

theorem bnd_early {h i : ℕ} (i1 : 1 ≤ i) (hi : i ≤ h + 2) : bnd h i ≤ 2 * a i + W (2 * h) ∧ bnd h (i + 1) = a i + W (2 * h) := by
  unfold bnd
  rw [if_pos (by omega), if_pos (by omega), Nat.add_sub_cancel]
  have := a_half (i - 1)
  rw [Nat.sub_add_cancel i1] at this
  exact ⟨by linarith, rfl⟩

theorem bnd_late {h i : ℕ} (hi : h + 3 ≤ i) : bnd h i + a i ≤ bnd h (i + 1) := by
  have ha := a_le i
  have e : (2 : ℝ) / 2 ^ (i - 1) = 2 * (2 / 2 ^ i) := by
    obtain ⟨j, rfl⟩ : ∃ j, i = j + 1 := ⟨i - 1, by omega⟩
    rw [Nat.add_sub_cancel, pow_succ]; field_simp
  have e1 : bnd h (i + 1) = W (2 * h) + 4 / 2 ^ (h + 2) - 2 / 2 ^ i := by
    unfold bnd; rw [if_neg (by omega), Nat.add_sub_cancel]
  rw [e1]
  unfold bnd
  split_ifs with c
  · obtain rfl : i = h + 3 := by omega
    have h2 := a_le (h + 2)
    rw [show h + 3 - 1 = h + 2 by omega]
    rw [show h + 3 - 1 = h + 2 by omega] at e
    have : (4 : ℝ) / 2 ^ (h + 2) = 2 * (2 / 2 ^ (h + 2)) := by ring
    linarith
  · rw [e]; linarith

theorem bnd_le {h i : ℕ} (hh : 11 ≤ h) (i1 : 2 ≤ i) : bnd h i ≤ 1.0914 := by
  have w := W_small (show 10 ≤ 2 * h by omega)
  unfold bnd
  split_ifs with c
  · have := a_le_one (show 1 ≤ i - 1 by omega)
    have := a_one
    linarith
  · have h1 : (4 : ℝ) / 2 ^ (h + 2) ≤ 4 / 2 ^ 4 := div_le_div_of_nonneg_left (by norm_num) (by norm_num) (pow_le_pow_right₀ (by norm_num) (by omega))
    have h2 : (0 : ℝ) < 2 / 2 ^ (i - 1) := by positivity
    norm_num at h1
    linarith

theorem W_tiny {h : ℕ} (hh : h ≤ 64) : (1 : ℝ) / 2 ^ 116 ≤ W (2 * h) := by
  have h1 : (1 : ℝ) / 2 ^ (h + 1) ≤ Real.sqrt ((((2 * h : ℕ) : ℝ) + 1) / 2 ^ (2 * h + 2)) := by
    refine Real.le_sqrt_of_sq_le ?_
    rw [div_pow, one_pow, ← pow_mul, show (h + 1) * 2 = 2 * h + 2 by ring]
    refine div_le_div_of_nonneg_right ?_ (by positivity)
    have : (0 : ℝ) ≤ ((2 * h : ℕ) : ℝ) := Nat.cast_nonneg _
    linarith
  have h2 : (1 : ℝ) / 2 ^ 116 ≤ 1 / 2 ^ (h + 1) := one_div_le_one_div_of_le (by positivity) (pow_le_pow_right₀ (by norm_num) (by omega))
  unfold W
  have := mul_le_mul (show (1 : ℝ) ≤ Real.pi by linarith [Real.pi_gt_three]) h1 (by positivity) Real.pi_pos.le
  linarith

theorem dang_int (hp : p ≤ 128) (i : ℕ) : |dang p i * 2 ^ 128 - T i * 2 ^ p| ≤ 2 ^ 128 := by
  have hq : (0 : ℤ) < 2 ^ (128 - p) := by positivity
  have d1 := Int.mul_ediv_add_emod (T i) (2 ^ (128 - p))
  have d2 := Int.emod_lt_of_pos (T i) hq
  have d3 := Int.emod_nonneg (T i) hq.ne'
  have e : (2 : ℤ) ^ 128 = 2 ^ p * 2 ^ (128 - p) := by rw [← pow_add]; congr 1; omega
  have hpp : (0 : ℤ) < 2 ^ p := by positivity
  have k : dang p i * 2 ^ 128 - T i * 2 ^ p = -(2 ^ p * (T i % 2 ^ (128 - p))) := by
    rw [e]; unfold dang; linear_combination 2 ^ p * d1
  rw [k, abs_neg, abs_of_nonneg (mul_nonneg hpp.le d3), e]
  exact mul_le_mul_of_nonneg_left d2.le hpp.le

/-- The state of the arcsine loop before step `i`. -/
def SInv (h : ℕ) (t : ℚ) (i : ℕ) (s : St) : Prop :=
  ∃ (X Y N Θ u : ℤ) (ψ : ℝ), s = ⟨(dp (2 * h)).val X, (dp (2 * h)).val Y, (dp (2 * h)).val N, (dpTheta (2 * h) 1).val Θ⟩ ∧
    Vars (2 * h) (Real.cos (β t)) i Y X N ψ ∧ |ψ - β t| ≤ bnd h i ∧ Sums i u ∧ |ψ - Real.pi * (u / 2 ^ 128)| ≤ ((aeSum i : ℚ) : ℝ) ∧
    |Θ * 2 ^ 128 - (2 ^ 127 - u) * 2 ^ (2 * h)| ≤ ((i : ℤ) - 1) * 2 ^ 128 ∧ Acc (2 * h) i Θ (Real.pi / 2 - ψ) ∧ (i = 1 → X = 0 ∧ ψ = 0 ∧ Θ = 2 ^ (2 * h - 1))

theorem selSin_eq (hp : 20 < p) {X Y N Θ : ℤ} : selSin p ⟨(dp p).val X, (dp p).val Y, (dp p).val N, (dpTheta p 1).val Θ⟩ =
    (decide (decide (0 ≤ X) = decide (Y ≤ N)) && decide (Θ ≤ 2 ^ (p - 1))) := by
  unfold selSin
  have hz : (0 : ℚ) = (dp p).val 0 := by simp [Fmt.val]
  have hh : (1 / 2 : ℚ) = (dpTheta p 1).val (2 ^ (p - 1)) := by
    rw [tval]; push_cast
    rw [show p = p - 1 + 1 by omega, Nat.add_sub_cancel, pow_succ]; field_simp
  rw [hz, hh]
  simp only [Fmt.val_le, Fmt.val_lt, if_pos hp]
  rcases le_or_gt Y N with c | c <;> rcases le_or_gt 0 X with d | d <;> simp [c, d, not_le.2, not_lt.2]

theorem first_sin {h : ℕ} (h1 : 11 ≤ h) (h2 : h ≤ 64) {t : ℚ} (ht : |t| ≤ 1) :
    ∃ s, rotate (2 * h) 1 0 (selSin (2 * h) (start (2 * h) 1 t)) (start (2 * h) 1 t) = some s ∧ SInv h t 1 s := by
  obtain ⟨e, n0, n1⟩ := start_eq (p := 2 * h) (g := 1) (by norm_num) ht
  obtain ⟨b1, b2, b3⟩ := β_facts ht
  rw [e, selSin_eq (by omega)]
  have : (decide (decide ((0 : ℤ) ≤ 2 ^ (2 * h + 2)) = decide ((0 : ℤ) ≤ ⌊|t| * 2 ^ (2 * h + 2)⌋)) && decide ((0 : ℤ) ≤ 2 ^ (2 * h - 1))) = true := by
    have q1 : (0 : ℤ) ≤ 2 ^ (2 * h + 2) := by positivity
    have q2 : (0 : ℤ) ≤ 2 ^ (2 * h - 1) := by positivity
    simp [n0, q1, q2]
  rw [this, rotate_zero (by omega) (by omega) (by norm_num) n0 n1]
  have h0 : aeSum 1 = 0 := by simp [aeSum, ae]
  have q : (2 : ℤ) ^ (2 * h) = 2 * 2 ^ (2 * h - 1) := by
    rw [← pow_succ']; congr 1; omega
  refine ⟨_, rfl, 0, _, _, _, 0, 0, rfl, ⟨le_rfl, ?_, ?_⟩, ?_, .one, ?_, ?_, ?_, fun _ => ⟨rfl, rfl, rfl⟩⟩
  · simpa using near_sin
  · rw [b1]; exact arg_one
  · unfold bnd
    rw [if_pos (by omega), Nat.sub_self, a_zero, zero_sub, abs_neg, abs_of_nonneg b2]
    have := W_nonneg (2 * h)
    linarith
  · rw [h0]; simp
  · rw [q]
    have : (2 : ℤ) ^ (2 * h - 1) * 2 ^ 128 - (2 ^ 127 - 0) * (2 * 2 ^ (2 * h - 1)) = 0 := by ring
    rw [this]; simp
  · unfold Acc
    have e2 : ((2 ^ (2 * h - 1) : ℤ) : ℝ) / 2 ^ (2 * h) = 1 / 2 := by
      push_cast
      rw [show 2 * h = 2 * h - 1 + 1 by omega, Nat.add_sub_cancel, pow_succ]; field_simp
    rw [e2, h0]
    simp
    ring

/-- One side only: the angle stays near the target. -/
theorem one_side {h : ℕ} (h1 : 11 ≤ h) (h2 : h ≤ 64) {t : ℚ} (ht : |t| ≤ 1) {i : ℕ} (hi : i ≤ h + 2) {X Y N Θ u : ℤ} {ψ : ℝ}
    (hv : Vars (2 * h) (Real.cos (β t)) i Y X N ψ) (hr : |ψ| ≤ 2.9) (hu : Sums i u)
    (hψ : |ψ - Real.pi * (u / 2 ^ 128)| ≤ ((aeSum i : ℚ) : ℝ)) (hΘ : |Θ * 2 ^ 128 - (2 ^ 127 - u) * 2 ^ (2 * h)| ≤ ((i : ℤ) - 1) * 2 ^ 128)
    (hone : i = 1 → X = 0 ∧ ψ = 0 ∧ Θ = 2 ^ (2 * h - 1)) :
    ((decide (decide (0 ≤ X) = decide (Y ≤ N)) && decide (Θ ≤ 2 ^ (2 * h - 1))) = true → β t ≤ ψ + W (2 * h)) ∧
    ((decide (decide (0 ≤ X) = decide (Y ≤ N)) && decide (Θ ≤ 2 ^ (2 * h - 1))) = false → ψ ≤ β t + W (2 * h)) := by
  obtain ⟨b1, b2, b3⟩ := β_facts ht
  have hpi := Real.pi_gt_d2
  have i1 := hv.one
  obtain ⟨c1, c2⟩ := hv.angle (by omega) b2 (by linarith) (by linarith)
  obtain ⟨s1, s2⟩ := hv.sign (by omega) (by omega) hr
  have q : (2 : ℤ) ^ (2 * h) = 2 * 2 ^ (2 * h - 1) := by
    rw [← pow_succ']; congr 1; omega
  have hae := Rat.cast_le (K := ℝ) |>.2 (aeSum_mono (show i ≤ 130 by omega))
  push_cast at hae
  have hW0 := W_nonneg (2 * h)
  have hi1 : (i : ℤ) - 1 ≤ h + 1 := by omega
  have hi2 := mul_le_mul_of_nonneg_right hi1 (show (0 : ℤ) ≤ 2 ^ 128 by positivity)
  rw [abs_le] at hΘ hψ
  have h2h : (0 : ℤ) < 2 ^ (2 * h) := by positivity
  -- the tolerance of the stored angles is below the tolerance of the comparison
  have tiny := W_tiny h2
  by_cases cΘ : Θ ≤ 2 ^ (2 * h - 1)
  · -- the angle is positive
    have pos : 0 ≤ X ∧ 0 ≤ ψ := by
      by_cases ci : i = 1
      · obtain ⟨g1, g2, g3⟩ := hone ci
        rw [g1, g2]; exact ⟨le_rfl, le_rfl⟩
      · have far := far_ok h1 h2 (by omega) hi hu
        have u0 : 0 < u := by
          by_contra hc
          push Not at hc
          rw [abs_of_nonpos hc] at far
          linarith
        rw [abs_of_pos u0] at far
        have farR : ((h : ℝ) + 1) / 2 ^ (2 * h) + 1 / 2 ^ 116 < (u : ℝ) / 2 ^ 128 := by
          have e : ((h : ℝ) + 1) / 2 ^ (2 * h) + 1 / 2 ^ 116 = ((h + 1) * 2 ^ 128 + 2 ^ 12 * 2 ^ (2 * h)) / 2 ^ (2 * h) / 2 ^ 128 := by
            field_simp
          rw [e, div_lt_div_iff_of_pos_right (by positivity), div_lt_iff₀ (by positivity)]
          have := Int.cast_lt (R := ℝ) |>.2 far
          rw [Int.cast_add, Int.cast_mul, Int.cast_mul, Int.cast_mul, Int.cast_pow, Int.cast_pow, Int.cast_pow, Int.cast_add] at this
          exact_mod_cast this
        have big : η (2 * h) + 1 / 2 ^ 116 < Real.pi * ((u : ℝ) / 2 ^ 128) := by
          have m := mul_lt_mul_of_pos_left farR Real.pi_pos
          have e : η (2 * h) = Real.pi * (3 / 20 * (2 * h + 1) / 2 ^ (2 * h)) := by
            unfold η; push_cast; rw [pow_add]; field_simp; norm_num
          have m2 : Real.pi * (3 / 20 * (2 * h + 1) / 2 ^ (2 * h)) ≤ Real.pi * (((h : ℝ) + 1) / 2 ^ (2 * h)) := by
            refine mul_le_mul_of_nonneg_left (div_le_div_of_nonneg_right ?_ (by positivity)) Real.pi_pos.le
            have : (0 : ℝ) ≤ h := Nat.cast_nonneg _
            linarith
          have m3 : (1 : ℝ) / 2 ^ 116 ≤ Real.pi * (1 / 2 ^ 116) := le_mul_of_one_le_left (by positivity) (by linarith)
          rw [mul_add] at m
          rw [e]
          linarith
        have hη := η_nonneg (2 * h)
        constructor
        · by_contra hc
          push Not at hc
          have := s2 hc.le
          linarith [hψ.1]
        · linarith [hψ.1]
    obtain ⟨x0, p0⟩ := pos
    rw [abs_of_nonneg p0] at c1 c2
    simp only [x0, cΘ, decide_true, Bool.and_true, decide_eq_true_eq, decide_eq_false_iff_not]
    constructor
    · intro g; exact c2 (by simpa using g)
    · intro g; exact c1 (by have : ¬ Y ≤ N := by simpa using g
                            omega)
  · simp only [cΘ, decide_false, Bool.and_false, Bool.false_eq_true, false_imp_iff, true_and, forall_const]
    push Not at cΘ
    by_cases ci : i = 1
    · obtain ⟨g1, g2, g3⟩ := hone ci
      omega
    · have far := far_ok h1 h2 (by omega) hi hu
      have u0 : u < 0 := by
        by_contra hc
        push Not at hc
        rw [abs_of_nonneg hc] at far
        linarith
      have : Real.pi * ((u : ℝ) / 2 ^ 128) ≤ 0 := by
        have : (u : ℝ) ≤ 0 := by exact_mod_cast u0.le
        exact mul_nonpos_of_nonneg_of_nonpos (by linarith) (div_nonpos_of_nonpos_of_nonneg this (by positivity))
      linarith [hψ.2]

theorem next_sin {h : ℕ} (h1 : 11 ≤ h) (h2 : h ≤ 64) {t : ℚ} (ht : |t| ≤ 1) {i : ℕ} (hi : i ≤ 2 * h + 1) {s : St} (hs : SInv h t i s) :
    ∃ s', rotate (2 * h) 1 i (selSin (2 * h) s) s = some s' ∧ SInv h t (i + 1) s' := by
  obtain ⟨X, Y, N, Θ, u, ψ, rfl, hv, hb, hu, hψ, hΘ, ha, hone⟩ := hs
  obtain ⟨b1, b2, b3⟩ := β_facts ht
  have i1 := hv.one
  have hpi := Real.pi_lt_d2
  have hpi2 := Real.pi_gt_d2
  have hr : |ψ| ≤ 2.9 := by
    by_cases ci : i = 1
    · rw [(hone ci).2.1, abs_zero]; norm_num
    · have := bnd_le h1 (show 2 ≤ i by omega)
      rw [abs_le] at hb ⊢
      constructor <;> linarith
  rw [selSin_eq (by omega)]
  have side := fun hi => one_side h1 h2 ht (i := i) hi hv hr hu hψ hΘ hone
  set sel := (decide (decide (0 ≤ X) = decide (Y ≤ N)) && decide (Θ ≤ 2 ^ (2 * h - 1))) with hsel
  have hσ := sg_cases sel
  have hσ' : -sg sel = 1 ∨ -sg sel = -1 := by rcases hσ with e | e <;> rw [e] <;> simp
  have hv' := hv.step hσ'
  rw [neg_mul, sub_neg_eq_add, neg_mul, ← sub_eq_add_neg] at hv'
  have ha' := ha.step (by omega) (by omega) hσ
  have eψ : ψ + ((-sg sel : ℤ) : ℝ) * a i = ψ - sg sel * a i := by push_cast; ring
  have eφ : Real.pi / 2 - ψ + sg sel * a i = Real.pi / 2 - (ψ - sg sel * a i) := by ring
  rw [eψ] at hv'
  rw [eφ] at ha'
  have ai := a_nonneg i
  have hb' : |ψ - sg sel * a i - β t| ≤ bnd h (i + 1) := by
    by_cases c : i ≤ h + 2
    · obtain ⟨e1, e2⟩ := bnd_early i1 c
      obtain ⟨d1, d2⟩ := side c
      rw [e2]
      have w := W_nonneg (2 * h)
      rw [abs_le] at hb ⊢
      rcases hc : sel with _ | _
      · have := d2 hc
        simp only [sg, Bool.false_eq_true, if_false, Int.cast_neg, Int.cast_one]
        constructor <;> linarith
      · have := d1 hc
        simp only [sg, if_true, Int.cast_one]
        constructor <;> linarith
    · have := bnd_late (h := h) (i := i) (by omega)
      rw [abs_le] at hb ⊢
      rcases hσ with e | e <;> rw [e] <;> push_cast <;> constructor <;> linarith
  have hr' : |Real.pi / 2 - (ψ - sg sel * a i)| ≤ 3.1 := by
    have := bnd_le h1 (show 2 ≤ i + 1 by omega)
    rw [abs_le] at hb' ⊢
    constructor <;> linarith
  have t0 : 0 ≤ Real.cos (β t) := by rw [b1]; exact_mod_cast abs_nonneg t
  obtain ⟨f1, f2, f3⟩ := hv.fit (by omega) t0 (Real.cos_le_one _) (by omega)
  obtain ⟨g1, g2, g3⟩ := hv'.fit (by omega) t0 (Real.cos_le_one _) (by omega)
  have g4 := ha'.fit (by omega) (by omega) (by omega) hr'
  rw [abs_lt] at g4
  refine ⟨_, rotate_eq (by omega) (by omega) (by norm_num) i1 (by omega) sel f2 f1 f3 g2 g1 g3 (by rw [Nat.add_sub_cancel]; linarith [g4.1])
    (by rw [Nat.add_sub_cancel]; exact g4.2), _, _, _, _, u - sg sel * T i, _, rfl, hv', hb', ?_, ?_, ?_, ha', by omega⟩
  · rcases hσ with e | e <;> rw [e]
    · rw [one_mul]; exact .down hu
    · rw [neg_one_mul, sub_neg_eq_add]; exact .up hu
  · have te := T_err (show i < 130 by omega)
    rw [show aeSum (i + 1) = aeSum i + ae i from rfl]
    push_cast
    have e3 : ψ - (sg sel : ℝ) * a i - Real.pi * ((u - (sg sel : ℝ) * T i) / 2 ^ 128) =
        (ψ - Real.pi * (u / 2 ^ 128)) + sg sel * ((T i : ℝ) / 2 ^ 128 * Real.pi - a i) := by ring
    rw [e3]
    refine le_trans (abs_add_le _ _) (add_le_add hψ ?_)
    rw [abs_mul]
    have : |((sg sel : ℤ) : ℝ)| = 1 := by rcases hσ with e | e <;> rw [e] <;> norm_num
    rw [this, one_mul]
    exact te
  · have di := dang_int (show 2 * h ≤ 128 by omega) i
    have e4 : (Θ + sg sel * dang (2 * h) i) * 2 ^ 128 - (2 ^ 127 - (u - sg sel * T i)) * 2 ^ (2 * h) =
        (Θ * 2 ^ 128 - (2 ^ 127 - u) * 2 ^ (2 * h)) + sg sel * (dang (2 * h) i * 2 ^ 128 - T i * 2 ^ (2 * h)) := by ring
    rw [e4]
    refine le_trans (abs_add_le _ _) ?_
    rw [abs_mul]
    have : |sg sel| = 1 := by rcases hσ with e | e <;> rw [e] <;> norm_num
    rw [this, one_mul, show (((i + 1 : ℕ) : ℤ) - 1) = i by push_cast; ring]
    linarith

theorem runSin_eq {h : ℕ} (h1 : 11 ≤ h) (h2 : h ≤ 64) {t : ℚ} (ht : |t| ≤ 1) : ∃ s, runSin (2 * h) t = some s ∧ SInv h t (2 * h + 2) s := by
  unfold runSin
  have key : ∀ k, k ≤ 2 * h + 1 → ∃ s, forUp (fun i s => s.bind fun s => rotate (2 * h) 1 i (selSin (2 * h) s) s) (k + 1) (some (start (2 * h) 1 t)) = some s ∧
      SInv h t (k + 1) s := by
    intro k
    induction k with
    | zero =>
      intro _
      obtain ⟨s, h1, h2⟩ := first_sin h1 h2 ht
      exact ⟨s, by simpa [forUp] using h1, h2⟩
    | succ k ih =>
      intro hk
      obtain ⟨s, h3, h4⟩ := ih (by omega)
      obtain ⟨s', h5, h6⟩ := next_sin h1 h2 ht (by omega) h4
      refine ⟨s', ?_, h6⟩
      rw [forUp, h3]; exact h5
  exact key (2 * h + 1) le_rfl

/-- Bound of the error, in half turns. -/
noncomputable def errS (h : ℕ) : ℝ := Real.sqrt ((((2 * h : ℕ) : ℝ) + 1) / 2 ^ (2 * h + 2)) + 1 / 3 / 2 ^ h + (2 * h + 1) / 2 ^ (2 * h) + 1 / 2 ^ 117

theorem SInv.out {h : ℕ} (h1 : 11 ≤ h) (h2 : h ≤ 64) {t : ℚ} (ht : |t| ≤ 1) {s : St} (hs : SInv h t (2 * h + 2) s) :
    ∃ Θ : ℤ, s.theta = (dpTheta (2 * h) 1).val Θ ∧ |Θ| < 2 ^ (2 * h) ∧ |(Θ : ℝ) / 2 ^ (2 * h) - (1 / 2 - β t / Real.pi)| ≤ errS h := by
  obtain ⟨X, Y, N, Θ, u, ψ, rfl, hv, hb, hu, hψ, hΘ, ha, hone⟩ := hs
  have hpi := Real.pi_pos
  have hpi3 := Real.pi_gt_three
  have hb1 : bnd h (2 * h + 2) ≤ W (2 * h) + 1 / 2 ^ h := by
    unfold bnd
    rw [if_neg (by omega)]
    have e : (4 : ℝ) / 2 ^ (h + 2) = 1 / 2 ^ h := by rw [pow_add]; field_simp; norm_num
    have : (0 : ℝ) < 2 / 2 ^ (2 * h + 2 - 1) := by positivity
    rw [e]; linarith
  have hacc := ha.bound (by omega) (by omega) le_rfl
  refine ⟨Θ, rfl, ?_, ?_⟩
  · refine ha.fit (by omega) (by omega) le_rfl ?_
    obtain ⟨b1, b2, b3⟩ := β_facts ht
    have := bnd_le h1 (show 2 ≤ 2 * h + 2 by omega)
    have hpi2 := Real.pi_lt_d2
    rw [abs_le] at hb ⊢
    constructor <;> linarith
  have e : (Θ : ℝ) / 2 ^ (2 * h) - (1 / 2 - β t / Real.pi) = (Real.pi * (Θ / 2 ^ (2 * h)) - (Real.pi / 2 - β t)) / Real.pi := by field_simp
  rw [e, abs_div, abs_of_pos hpi, div_le_iff₀ hpi]
  have h3 := abs_sub_le (Real.pi * ((Θ : ℝ) / 2 ^ (2 * h))) (Real.pi / 2 - ψ) (Real.pi / 2 - β t)
  rw [abs_sub_comm (Real.pi * ((Θ : ℝ) / 2 ^ (2 * h))) (Real.pi / 2 - ψ), show Real.pi / 2 - ψ - (Real.pi / 2 - β t) = -(ψ - β t) by ring, abs_neg] at h3
  refine le_trans h3 ?_
  have e1 : (1 : ℝ) / 2 ^ h ≤ Real.pi * (1 / 3 / 2 ^ h) := by
    have : 0 < (1 : ℝ) / 2 ^ h := by positivity
    rw [show Real.pi * (1 / 3 / 2 ^ h) = Real.pi / 3 * (1 / 2 ^ h) by ring]
    exact le_mul_of_one_le_left this.le (by linarith)
  have e5 : (1 : ℝ) / 2 ^ 116 ≤ Real.pi * (1 / 2 ^ 117) := by
    have e : (1 : ℝ) / 2 ^ 116 = 2 * (1 / 2 ^ 117) := by norm_num
    rw [e]
    exact mul_le_mul_of_nonneg_right (by linarith) (by positivity)
  have e6 : (((2 * h : ℕ) : ℝ) + 1) * (Real.pi / 2 ^ (2 * h)) = Real.pi * ((2 * h + 1) / 2 ^ (2 * h)) := by push_cast; ring
  unfold errS
  rw [e6] at hacc
  unfold W at hb1
  linarith

/-- How the sign of the argument is given back. -/
theorem sin_out {p : ℕ} {o : Fmt} {t : ℚ} {Θ : ℤ} (h : |Θ| < 2 ^ p) {e : ℝ} (he : |(|(Θ : ℝ) / 2 ^ p| - (1 / 2 - β t / Real.pi))| ≤ e) :
    ∃ r : ℚ, (if ((dpTheta p 1).val Θ < 0) ≠ (t < 0) then o.cvt (-(dpTheta p 1).val Θ) else o.cvt ((dpTheta p 1).val Θ)) = o.cvt r ∧ |r| < 1 ∧
      |(r : ℝ) - Real.arcsin (t : ℝ) / Real.pi| ≤ e := by
  have hpp : (0 : ℚ) < 2 ^ p := by positivity
  have hpi := Real.pi_pos
  have hlt : |(Θ : ℚ) / 2 ^ p| < 1 := by
    rw [abs_div, abs_of_pos hpp, div_lt_one hpp]
    have : ((|Θ| : ℤ) : ℚ) < ((2 ^ p : ℤ) : ℚ) := by exact_mod_cast h
    push_cast at this
    exact this
  have he' : |((|(Θ : ℚ) / 2 ^ p| : ℚ) : ℝ) - (1 / 2 - β t / Real.pi)| ≤ e := by push_cast; exact he
  have eq : 1 / 2 - β t / Real.pi = Real.arcsin ((|t| : ℚ) : ℝ) / Real.pi := by
    unfold β; rw [Real.arccos_eq_pi_div_two_sub_arcsin]; field_simp; ring
  rw [eq] at he'
  rw [tval]
  by_cases c : t < 0
  · refine ⟨-|(Θ : ℚ) / 2 ^ p|, ?_, by rw [abs_neg, abs_abs]; exact hlt, ?_⟩
    · by_cases d : (Θ : ℚ) / 2 ^ p < 0
      · simp only [c, d, ne_eq, not_true_eq_false, if_false]
        rw [abs_of_neg d, neg_neg]
      · have : ((Θ : ℚ) / 2 ^ p < 0) ≠ (t < 0) := by simp only [c, d]; simp
        rw [if_pos this, abs_of_nonneg (not_lt.1 d)]
    · rw [abs_of_neg c] at he'
      push_cast at he' ⊢
      rw [Real.arcsin_neg] at he'
      rw [← abs_neg]
      refine le_trans (le_of_eq ?_) he'
      congr 1; ring
  · refine ⟨|(Θ : ℚ) / 2 ^ p|, ?_, by rw [abs_abs]; exact hlt, ?_⟩
    · by_cases d : (Θ : ℚ) / 2 ^ p < 0
      · have : ((Θ : ℚ) / 2 ^ p < 0) ≠ (t < 0) := by simp only [c, d]; simp
        rw [if_pos this, abs_of_neg d]
      · simp only [c, d, ne_eq, not_true_eq_false, if_false]
        rw [abs_of_nonneg (not_lt.1 d)]
    · rw [abs_of_nonneg (not_lt.1 c)] at he'
      exact he'

theorem quarter {t : ℚ} (ht : |t| ≤ 1) : 0 ≤ 1 / 2 - β t / Real.pi := by
  obtain ⟨-, -, b3⟩ := β_facts ht
  have hpi := Real.pi_pos
  rw [sub_nonneg, div_le_iff₀ hpi]; linarith

theorem sin_main {o : Fmt} {h : ℕ} (ho : pF o = 2 * h) (h1 : 11 ≤ h) (h2 : h ≤ 64) {t : ℚ} (ht : |t| ≤ 1) :
    ∃ r : ℚ, arcsin o t = some (o.cvt r) ∧ |r| < 1 ∧ |(r : ℝ) - Real.arcsin (t : ℝ) / Real.pi| ≤ errS h := by
  obtain ⟨s, hs, hi⟩ := runSin_eq h1 h2 ht
  obtain ⟨Θ, g1, g2, g3⟩ := hi.out h1 h2 ht
  unfold arcsin
  rw [ho, hs, Option.map_some, g1]
  have q := quarter ht
  have hle : |(|(Θ : ℝ) / 2 ^ (2 * h)| - (1 / 2 - β t / Real.pi))| ≤ errS h := by
    refine le_trans ?_ g3
    have := abs_abs_sub_abs_le ((Θ : ℝ) / 2 ^ (2 * h)) (1 / 2 - β t / Real.pi)
    rwa [abs_of_nonneg q] at this
  obtain ⟨r, r1, r2, r3⟩ := sin_out (o := o) g2 hle
  exact ⟨r, by rw [r1], r2, r3⟩

end Proof.Arcsin
