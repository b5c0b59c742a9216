import Verif.Proof.Complex
import Verif.Props.SqrtPwl

/-! # The square root of a complex number -/

namespace Proof.ComplexSqrt
open Ac Model.Complex Proof.Complex

variable {f fm out : Fmt} {a b : ℚ}

theorem tmod_two (e : ℤ) : e.tmod 2 = 0 ↔ e % 2 = 0 := Proof.SqrtPwl.tmod_two e

theorem tdiv_even {e : ℤ} (h : e % 2 = 0) : e.tdiv 2 = e / 2 :=
  Int.tdiv_eq_ediv_of_dvd (Int.dvd_of_emod_eq_zero h)

theorem rtI_eq (I : ℤ) : rtI I = if I % 2 = 0 then I / 2 + 1 else (I + 1) / 2 := by
  unfold rtI
  simp only [tmod_two]
  split_ifs with h
  · rw [tdiv_even h]
  · rw [tdiv_even (by omega)]

theorem rtF_eq (n : ℤ) : rtF n = n / 2 + 22 := by
  unfold rtF
  simp only [tmod_two]
  split_ifs with h
  · rw [tdiv_even h]
  · rw [tdiv_even (by omega)]; omega

theorem modFmt_eq (f : Fmt) : modFmt f = ⟨f.W + 22, f.I, false, .TRN, .WRAP⟩ := by
  have h1 : rtI (2 * f.I - 1) = f.I := by rw [rtI_eq]; split_ifs <;> omega
  have h2 : rtF (2 * f.F) = f.F + 22 := by rw [rtF_eq]; omega
  unfold modFmt rtSqrt
  rw [h1, h2]
  congr 1
  unfold Fmt.F; omega

theorem tF_eq (f : Fmt) : tF f = f.F + 22 := by
  unfold tF; rw [modFmt_eq]; unfold Fmt.F; simp only; push_cast; omega

theorem tW_eq (f : Fmt) : tW f = f.W + 23 := by unfold tW; rw [tF_eq]; unfold Fmt.F; ring

theorem tFmt_eq (f : Fmt) : tFmt f = ⟨f.W + 23, f.I + 1, false, .TRN, .SAT⟩ := by
  unfold tFmt; rw [tW_eq]; congr 1
theorem tFmt'_eq (f : Fmt) : tFmt' f = ⟨f.W + 24, f.I + 1, false, .TRN, .WRAP⟩ := by
  unfold tFmt'; rw [tW_eq]; congr 1
theorem sqFmt_eq (f : Fmt) : sqFmt f = ⟨f.W + 23, f.I, false, .TRN, .WRAP⟩ := by
  unfold sqFmt; rw [tW_eq]; congr 1

theorem tFmt_F (f : Fmt) : (tFmt f).F = f.F + 22 := by rw [tFmt_eq]; unfold Fmt.F; push_cast; ring
theorem tFmt'_F (f : Fmt) : (tFmt' f).F = f.F + 23 := by rw [tFmt'_eq]; unfold Fmt.F; push_cast; ring
theorem sqFmt_F (f : Fmt) : (sqFmt f).F = f.F + 23 := by rw [sqFmt_eq]; unfold Fmt.F; push_cast; ring
theorem modFmt_F (f : Fmt) : (modFmt f).F = f.F + 22 := by rw [modFmt_eq]; unfold Fmt.F; push_cast; ring

/-- Half of a saturated sum: exact, but not below zero. -/
theorem half_sat {t : ℚ} {k : ℤ} (ht : t = k * 2 ^ (-(f.F + 22))) (h1 : t < 2 ^ (f.I + 1)) :
    (sqFmt f).cvt ((tFmt' f).shr ((tFmt' f).cvt ((tFmt f).cvt t)) 1) = max t 0 / 2 ∧ (sqFmt f).Rep (max t 0 / 2) := by
  have hz := Fmt.z_pos (-(f.F + 22))
  have hW : (f.W : ℤ) = f.I + f.F := by unfold Fmt.F; ring
  -- the raw integer of the saturated number
  set K := max k 0 with hK
  have hK0 : 0 ≤ K := le_max_right _ _
  have hval : max t 0 = (K : ℚ) * 2 ^ (-(f.F + 22)) := by
    rw [ht, hK]
    push_cast
    rw [max_mul_of_nonneg _ _ hz.le, zero_mul]
  have hKub : K < 2 ^ (f.W + 23) := by
    have h2 : (K : ℚ) * 2 ^ (-(f.F + 22)) < 2 ^ (f.I + 1) := by
      rw [← hval]; exact max_lt h1 (Fmt.z_pos _)
    have h3 := mul_lt_mul_of_pos_right h2 (Fmt.z_pos (f.F + 22))
    rw [mul_assoc, Fmt.z_add, Fmt.z_add, neg_add_cancel, zpow_zero, mul_one,
      show f.I + 1 + (f.F + 22) = ((f.W + 23 : ℕ) : ℤ) by push_cast; rw [hW]; ring, zpow_natCast] at h3
    exact_mod_cast h3
  have e1 : (tFmt f).cvt t = max t 0 := by
    unfold Fmt.cvt Fmt.cvtRaw
    rw [ht, tFmt_F, mul_assoc, Fmt.z_add, neg_add_cancel, zpow_zero, mul_one, quant_intCast, tFmt_eq]
    have : ovf (f.W + 23) false .SAT k = K := by
      rw [hK]
      unfold ovf
      simp only [maxRaw, minRaw, hK] at *
      simp only [Bool.false_eq_true, if_false] at *
      split_ifs <;> omega
    simp only [this]
    rw [← ht, hval]
    unfold Fmt.val Fmt.F
    congr 2
    push_cast; ring
  have hv' : max t 0 = (tFmt' f).val (2 * K) := by
    rw [hval]; unfold Fmt.val; rw [tFmt'_F]
    have : (2 : ℚ) ^ (-(f.F + 22)) = 2 * 2 ^ (-(f.F + 23)) := by rw [← Fmt.z_succ]; congr 1; ring
    rw [this]; push_cast; ring
  have e2 : (tFmt' f).cvt (max t 0) = max t 0 := by
    refine Fmt.cvt_rep (by rw [tFmt'_eq]; simp) (by rw [tFmt'_eq]; simp) ⟨2 * K, ?_, ?_, hv'⟩
    · rw [tFmt'_eq]; simp [minRaw, hK0]
    · rw [tFmt'_eq]; simp only [maxRaw]
      have : (2 : ℤ) ^ (f.W + 24) = 2 * 2 ^ (f.W + 23) := by rw [show f.W + 24 = f.W + 23 + 1 by ring, pow_succ]; ring
      simp only [Bool.false_eq_true, if_false, this]; omega
  have e3 : (tFmt' f).shr (max t 0) 1 = (sqFmt f).val K := by
    unfold Fmt.shr
    rw [hv', Fmt.raw_val]
    have h4 : ⌊((2 * K : ℤ) : ℚ) * (2 : ℚ) ^ (-1 : ℤ)⌋ = K := by
      rw [Int.floor_eq_iff]; push_cast; constructor
      · apply le_of_eq; rw [zpow_neg, zpow_one]; ring
      · rw [zpow_neg, zpow_one]; linarith
    rw [h4, wrap_of_range (by rw [tFmt'_eq]; simp)]
    · unfold Fmt.val; rw [tFmt'_F, sqFmt_F]
    · rw [tFmt'_eq]; simp [minRaw, hK0]
    · rw [tFmt'_eq]; simp only [maxRaw]
      have : (2 : ℤ) ^ (f.W + 24) = 2 * 2 ^ (f.W + 23) := by rw [show f.W + 24 = f.W + 23 + 1 by ring, pow_succ]; ring
      simp only [Bool.false_eq_true, if_false, this]; omega
  have hv : max t 0 / 2 = (sqFmt f).val K := by
    rw [hval]; unfold Fmt.val; rw [sqFmt_F]
    have : (2 : ℚ) ^ (-(f.F + 22)) = 2 * 2 ^ (-(f.F + 23)) := by rw [← Fmt.z_succ]; congr 1; ring
    rw [this]; ring
  have hrep : (sqFmt f).Rep (max t 0 / 2) := by
    refine ⟨K, ?_, ?_, hv⟩
    · rw [sqFmt_eq]; simp [minRaw, hK0]
    · rw [sqFmt_eq]; simp only [maxRaw]; simp only [Bool.false_eq_true, if_false]; omega
  refine ⟨?_, hrep⟩
  rw [e1, e2, e3, ← hv]
  exact Fmt.cvt_rep (by rw [sqFmt_eq]; simp) (by rw [sqFmt_eq]; simp) hrep

/-- The magnitude, as the algorithm computes it. -/
theorem mod_facts (q : QMode) (hW : 1 ≤ f.W) (hS : f.S = true) (ha : f.Rep a) (hb : f.Rep b) (hWm : 1 ≤ fm.W)
    (hSm : fm.S = false) (hrep : fm.Rep (a ^ 2 + b ^ 2)) :
    ∃ (m : ℚ) (k : ℤ), Model.PwlFixed.sqrt q true fm (modFmt f) (a ^ 2 + b ^ 2) = some m ∧
      m = k * 2 ^ (-(f.F + 22)) ∧ 0 ≤ m ∧ m ≤ 19 / 25 * 2 ^ f.I ∧
      |(m : ℝ) - Real.sqrt ((a : ℝ) ^ 2 + (b : ℝ) ^ 2)| ≤ Real.sqrt ((a : ℝ) ^ 2 + (b : ℝ) ^ 2) * (1 / 799) := by
  have hoW : 1 ≤ (modFmt f).W := by rw [modFmt_eq]; simp
  have hI0 := Fmt.z_pos f.I
  by_cases h0 : a = 0 ∧ b = 0
  · refine ⟨0, 0, ?_, by simp, le_rfl, by positivity, ?_⟩
    · rw [h0.1, h0.2]; simpa using Props.SqrtPwl.C30_zero q true fm hoW
    · rw [h0.1, h0.2]; simp
  have hz : a ≠ 0 ∨ b ≠ 0 := by by_contra hc; push Not at hc; exact h0 hc
  have hl := m_low ha hb hz
  have hu := m_up hW ha hb
  have hm : 0 < a ^ 2 + b ^ 2 := lt_of_lt_of_le (Fmt.z_pos _) hl
  obtain ⟨r, -, h1, -, h2, h3, -, -⟩ := Props.SqrtPwl.C30_sqrt q true hWm hSm hoW (by rw [modFmt_eq]) hrep hrep hm le_rfl
    (Or.inl rfl)
  have h4 := Props.SqrtPwl.near_sqrt hm h2 h3
  have hr : r ≤ 3 / 4 * 2 ^ f.I := by
    refine le_of_sq_le_sq ?_ (by positivity)
    have e1 : (2 : ℚ) ^ I1 f = 1 / 2 * (2 ^ f.I) ^ 2 := by
      unfold I1; rw [if_pos hS, pow_two, Fmt.z_add, show (1 / 2 : ℚ) = 2 ^ (-1 : ℤ) by norm_num, Fmt.z_add]
      congr 1; ring
    rw [e1] at hu
    have := (abs_le.1 h3).2
    have e2 : (0 : ℚ) < (2 ^ f.I) ^ 2 := by positivity
    rw [mul_pow]
    linarith
  have hW2 : (2 : ℚ) ^ (-(modFmt f).F) ≤ 1 / 100 * 2 ^ f.I := by
    rw [modFmt_F]
    have e1 : (2 : ℚ) ^ (-(f.F + 22)) ≤ 2 ^ (-7 + f.I) := Fmt.z_le (by unfold Fmt.F; omega)
    rw [← Fmt.z_add] at e1
    have : (2 : ℚ) ^ (-7 : ℤ) = 1 / 128 := by norm_num
    rw [this] at e1
    linarith
  have hmx : r ≤ (modFmt f).maxVal := by
    rw [rec_max (by rw [modFmt_eq])]
    have : (modFmt f).I = f.I := by rw [modFmt_eq]
    rw [this]; linarith
  have hn := cvt_near hoW h2.le hmx
  obtain ⟨hn1, hn2⟩ := abs_lt.1 hn
  have hnn : 0 ≤ (modFmt f).cvt r := by
    obtain ⟨k, k0, -, e⟩ := Fmt.rep_cvt hoW r
    rw [e]; unfold Fmt.val
    rw [modFmt_eq] at k0
    have k0' : 0 ≤ k := by simpa [minRaw] using k0
    exact mul_nonneg (by exact_mod_cast k0') (Fmt.z_pos _).le
  refine ⟨_, (modFmt f).cvtRaw r, h1, ?_, hnn, ?_, ?_⟩
  · unfold Fmt.cvt Fmt.val; rw [modFmt_F]
  · linarith
  · set M := Real.sqrt ((a : ℝ) ^ 2 + (b : ℝ) ^ 2) with hM
    have hMe : Real.sqrt ((a ^ 2 + b ^ 2 : ℚ) : ℝ) = M := by push_cast; rfl
    rw [hMe] at h4
    have hMl : (((2 : ℚ) ^ (-f.F) : ℚ) : ℝ) ≤ M := by
      rw [hM]
      apply Real.le_sqrt_of_sq_le
      have e : ((2 : ℚ) ^ (-f.F)) ^ 2 ≤ a ^ 2 + b ^ 2 := by
        rw [pow_two, Fmt.z_add]; convert hl using 2; ring
      exact_mod_cast e
    have hn' : |(((modFmt f).cvt r : ℚ) : ℝ) - (r : ℝ)| ≤ (((2 : ℚ) ^ (-f.F) : ℚ) : ℝ) * (1 / 2 ^ 22) := by
      have e : (2 : ℚ) ^ (-(modFmt f).F) = 2 ^ (-f.F) * (1 / 2 ^ 22) := by
        rw [modFmt_F, show (1 / 2 ^ 22 : ℚ) = 2 ^ (-22 : ℤ) by norm_num, Fmt.z_add]; congr 1; ring
      rw [e] at hn
      have := (Rat.cast_lt (K := ℝ)).2 hn
      push_cast at this ⊢
      exact this.le
    have hM0 : 0 ≤ M := Real.sqrt_nonneg _
    calc |(((modFmt f).cvt r : ℚ) : ℝ) - M| ≤ |(((modFmt f).cvt r : ℚ) : ℝ) - (r : ℝ)| + |(r : ℝ) - M| := abs_sub_le _ _ _
      _ ≤ M * (1 / 2 ^ 22) + M / 800 := by
          refine add_le_add (le_trans hn' ?_) h4
          exact mul_le_mul_of_nonneg_right hMl (by norm_num)
      _ ≤ M * (1 / 799) := by linarith

theorem xy_F (f : Fmt) : -60 ≤ f.I + f.W → (xyFmt f).F = ((f.W : ℤ) + 23) / 2 + 22 ∧ (xyFmt f).I = rtI f.I ∧
    2 ≤ (xyFmt f).W ∧ (xyFmt f).S = false := by
  intro h
  have h1 := rtI_eq f.I
  have h2 := rtF_eq (tW f)
  rw [tW_eq] at h2
  have h3 : 2 ≤ rtI f.I + rtF (f.W + 23) := by rw [h1, h2]; split_ifs <;> omega
  have hx : xyFmt f = ⟨(rtI f.I + rtF (f.W + 23)).toNat, rtI f.I, false, .TRN, .WRAP⟩ := by
    unfold xyFmt rtSqrt; rw [tW_eq]
  rw [hx]
  refine ⟨?_, rfl, ?_, rfl⟩
  · unfold Fmt.F; simp only; omega
  · simp only; omega

/-- The square root of one of the two halves, as the algorithm computes it. -/
theorem root_facts (q : QMode) (hI : -26 ≤ f.I) (hW : 1 ≤ f.W) {s : ℚ} (hrep : (sqFmt f).Rep s)
    (h0 : 0 ≤ s) (h1 : s ≤ 63 / 100 * 2 ^ f.I) {M : ℝ} (hM : (((2 : ℚ) ^ (-f.F) : ℚ) : ℝ) ≤ M) (hsM : (s : ℝ) ≤ M * (1 + 1 / 1500)) :
    ∃ x : ℚ, Model.PwlFixed.sqrt q true (sqFmt f) (xyFmt f) s = some x ∧ 0 ≤ x ∧ (xyFmt f).Rep x ∧
      |(x : ℝ) ^ 2 - s| ≤ s / 440 + M / 400000 := by
  obtain ⟨xF, xI, xW, xS⟩ := xy_F f (by omega)
  have hMpos : 0 < M := lt_of_lt_of_le (by exact_mod_cast Fmt.z_pos (-f.F)) hM
  rcases eq_or_lt_of_le h0 with h | h
  · subst h
    refine ⟨0, Props.SqrtPwl.C30_zero q true _ (by omega), le_rfl, ?_, ?_⟩
    · exact ⟨0, by rw [xS]; simp [minRaw], maxRaw_nonneg _ _, by simp [Fmt.val]⟩
    · simp; positivity
  obtain ⟨r, -, e1, -, r0, e2, -, -⟩ := Props.SqrtPwl.C30_sqrt q true (f := sqFmt f) (out := xyFmt f) (by rw [sqFmt_eq]; simp)
    (by rw [sqFmt_eq]) (by omega) xS hrep hrep h le_rfl (Or.inl rfl)
  have hu0 := Fmt.z_pos (-(xyFmt f).F)
  have hr : r ≤ 6 / 10 * 2 ^ (xyFmt f).I := by
    refine le_of_sq_le_sq ?_ (mul_nonneg (by norm_num) (Fmt.z_pos _).le)
    have h2 : 2 * (2 : ℚ) ^ f.I ≤ (2 ^ (xyFmt f).I) ^ 2 := by
      rw [pow_two, Fmt.z_add, ← Fmt.z_succ]
      refine Fmt.z_le ?_
      rw [xI, rtI_eq]; split_ifs <;> omega
    have := (abs_le.1 e2).2
    rw [mul_pow]
    linarith
  have hmx : r ≤ (xyFmt f).maxVal := by
    rw [rec_max xS]
    have h2 : (2 : ℚ) ^ (-(xyFmt f).F) ≤ 1 / 4 * 2 ^ (xyFmt f).I := by
      rw [show (1 / 4 : ℚ) = 2 ^ (-2 : ℤ) by norm_num, Fmt.z_add]
      refine Fmt.z_le ?_
      unfold Fmt.F; omega
    have := Fmt.z_pos (xyFmt f).I
    linarith
  have hn := cvt_near (by omega) r0.le hmx
  set x := (xyFmt f).cvt r with hx
  have hxr : (xyFmt f).Rep x := Fmt.rep_cvt (by omega) r
  have hx0 : 0 ≤ x := by
    obtain ⟨k, k0, -, e⟩ := hxr
    rw [e]; unfold Fmt.val
    rw [xS] at k0
    have k0' : 0 ≤ k := by simpa [minRaw] using k0
    exact mul_nonneg (by exact_mod_cast k0') (Fmt.z_pos _).le
  refine ⟨x, e1, hx0, hxr, ?_⟩
  set u : ℚ := 2 ^ (-(xyFmt f).F) with hu
  have hu2 : u ^ 2 ≤ 1 / 2 ^ 40 * 2 ^ (-f.F) := by
    rw [hu, pow_two, Fmt.z_add, show (1 / 2 ^ 40 : ℚ) = 2 ^ (-40 : ℤ) by norm_num, Fmt.z_add]
    refine Fmt.z_le ?_
    rw [xF]; unfold Fmt.F; omega
  -- in the reals, with the root of `M`
  set g := Real.sqrt M with hg
  have hg0 : 0 ≤ g := Real.sqrt_nonneg _
  have hgg : g ^ 2 = M := Real.sq_sqrt hMpos.le
  have hug : (u : ℝ) ≤ 1 / 2 ^ 20 * g := by
    refine le_of_sq_le_sq ?_ (mul_nonneg (by norm_num) hg0)
    have h2 : ((u ^ 2 : ℚ) : ℝ) ≤ ((1 / 2 ^ 40 * 2 ^ (-f.F) : ℚ) : ℝ) := Rat.cast_le.2 hu2
    rw [mul_pow, hgg]
    push_cast at h2 hM
    have := mul_le_mul_of_nonneg_left hM (by norm_num : (0 : ℝ) ≤ 1 / 2 ^ 40)
    calc (u : ℝ) ^ 2 ≤ _ := h2
      _ ≤ _ := this
      _ = _ := by norm_num
  have e2R : |(r : ℝ) ^ 2 - s| ≤ s / 440 := by
    have := (Rat.cast_le (K := ℝ)).2 e2
    push_cast at this; exact this
  have hrg : (r : ℝ) ≤ 102 / 100 * g := by
    refine le_of_sq_le_sq ?_ (mul_nonneg (by norm_num) hg0)
    rw [mul_pow, hgg]
    have := (abs_le.1 e2R).2
    linarith
  have hnR : |(x : ℝ) - r| ≤ u := by
    have := (Rat.cast_lt (K := ℝ)).2 hn
    push_cast at this; exact this.le
  have hxR0 : (0 : ℝ) ≤ x := by exact_mod_cast hx0
  have hrR0 : (0 : ℝ) < r := by exact_mod_cast r0
  have huR0 : (0 : ℝ) < u := by exact_mod_cast hu0
  have hx2 : (x : ℝ) ≤ 103 / 100 * g := by have := (abs_le.1 hnR).2; linarith
  have key : |(x : ℝ) ^ 2 - (r : ℝ) ^ 2| ≤ M / 400000 := by
    have : (x : ℝ) ^ 2 - (r : ℝ) ^ 2 = (x - r) * (x + r) := by ring
    rw [this, abs_mul, abs_of_nonneg (by linarith : (0 : ℝ) ≤ x + r)]
    calc |(x : ℝ) - r| * (x + r) ≤ (1 / 2 ^ 20 * g) * (205 / 100 * g) :=
          mul_le_mul (le_trans hnR hug) (by linarith) (by linarith) (mul_nonneg (by norm_num) hg0)
      _ = 205 / 100 / 2 ^ 20 * M := by rw [← hgg]; ring
      _ ≤ M / 400000 := by linarith
  calc |(x : ℝ) ^ 2 - s| ≤ |(x : ℝ) ^ 2 - (r : ℝ) ^ 2| + |(r : ℝ) ^ 2 - s| := abs_sub_le _ _ _
    _ ≤ _ := by linarith

theorem half_err {M m c : ℝ} (hM : |c| ≤ M) (hm : |m - M| ≤ M * (1 / 799)) :
    |max (m + c) 0 / 2 - (M + c) / 2| ≤ M / 1598 ∧ max (m + c) 0 / 2 ≤ M * (1 + 1 / 1500) := by
  obtain ⟨c1, c2⟩ := abs_le.1 hM
  obtain ⟨d1, d2⟩ := abs_le.1 hm
  have hM0 : 0 ≤ M := le_trans (abs_nonneg _) hM
  constructor
  · rw [abs_le]
    rcases le_total (m + c) 0 with h | h
    · rw [max_eq_right h]; constructor <;> linarith
    · rw [max_eq_left h]; constructor <;> linarith
  · rcases le_total (m + c) 0 with h | h
    · rw [max_eq_right h]; linarith
    · rw [max_eq_left h]; linarith

theorem sqrt_eq (q : QMode) (hW : 1 ≤ f.W) (hS : f.S = true) (hI : -26 ≤ f.I) (ha : f.Rep a) (hb : f.Rep b) (hWm : 1 ≤ fm.W)
    (hSm : fm.S = false) (hOm : fm.O ≠ .SAT_SYM) (hrep : fm.Rep (a ^ 2 + b ^ 2)) {M : ℝ}
    (hM : M = Real.sqrt ((a : ℝ) ^ 2 + (b : ℝ) ^ 2)) :
    ∃ x y : ℚ, Model.Complex.sqrt q f fm out a b = some (out.cvt x, out.cvt (if b < 0 then -y else y)) ∧
      (xyFmt f).Rep x ∧ (xyFmt f).Rep y ∧ 0 ≤ x ∧ 0 ≤ y ∧
      |(x : ℝ) ^ 2 - (M + a) / 2| ≤ M / 340 ∧ |(y : ℝ) ^ 2 - (M - a) / 2| ≤ M / 340 := by
  obtain ⟨m, k, hm, hmk, m0, m1, m2⟩ := mod_facts q hW hS ha hb hWm hSm hrep
  rw [← hM] at m2
  have hM0 : 0 ≤ M := by rw [hM]; exact Real.sqrt_nonneg _
  have haM : |(a : ℝ)| ≤ M := by
    rw [hM]; apply Real.le_sqrt_of_sq_le; rw [sq_abs]; have := sq_nonneg (b : ℝ); linarith
  have hab := abs_rep hW ha
  rw [if_pos hS] at hab
  have hI1 : (2 : ℚ) ^ (f.I - 1) = 1 / 2 * 2 ^ f.I := by
    rw [show (1 / 2 : ℚ) = 2 ^ (-1 : ℤ) by norm_num, Fmt.z_add]; congr 1; ring
  rw [hI1] at hab
  obtain ⟨ab1, ab2⟩ := abs_le.1 hab
  have hIp := Fmt.z_pos f.I
  obtain ⟨ra, -, -, era⟩ := id ha
  have hak : a = ((ra * 2 ^ 22 : ℤ) : ℚ) * 2 ^ (-(f.F + 22)) := by
    rw [era]; unfold Fmt.val
    have : (2 : ℚ) ^ (-f.F) = 2 ^ 22 * 2 ^ (-(f.F + 22)) := by
      rw [← zpow_natCast (2 : ℚ) 22, Fmt.z_add]; congr 1; push_cast; ring
    rw [this]; push_cast; ring
  have hI2 : (2 : ℚ) ^ (f.I + 1) = 2 * 2 ^ f.I := Fmt.z_succ _
  obtain ⟨p1, p2⟩ := half_sat (f := f) (t := m + a) (k := k + ra * 2 ^ 22) (by rw [hmk, hak]; push_cast; ring)
    (by rw [hI2]; linarith)
  obtain ⟨n1, n2⟩ := half_sat (f := f) (t := m - a) (k := k - ra * 2 ^ 22) (by rw [hmk, hak]; push_cast; ring)
    (by rw [hI2]; linarith)
  have g1 := half_err (c := a) haM m2
  have g2 := half_err (c := -a) (by rwa [abs_neg]) m2
  have c1 : ((max (m + a) 0 / 2 : ℚ) : ℝ) = max ((m : ℝ) + a) 0 / 2 := by push_cast; rfl
  have c2 : ((max (m - a) 0 / 2 : ℚ) : ℝ) = max ((m : ℝ) + -a) 0 / 2 := by push_cast; rw [sub_eq_add_neg]
  rw [← c1] at g1
  rw [← c2] at g2
  set sr : ℚ := max (m + a) 0 / 2 with hsr
  set si : ℚ := max (m - a) 0 / 2 with hsi
  have sr0 : 0 ≤ sr := by rw [hsr]; have := le_max_right (m + a) 0; linarith
  have si0 : 0 ≤ si := by rw [hsi]; have := le_max_right (m - a) 0; linarith
  have sr1 : sr ≤ 63 / 100 * 2 ^ f.I := by
    rw [hsr]; have : max (m + a) 0 ≤ 126 / 100 * 2 ^ f.I := max_le (by linarith) (by linarith); linarith
  have si1 : si ≤ 63 / 100 * 2 ^ f.I := by
    rw [hsi]; have : max (m - a) 0 ≤ 126 / 100 * 2 ^ f.I := max_le (by linarith) (by linarith); linarith
  have main : ∃ x y : ℚ, Model.PwlFixed.sqrt q true (sqFmt f) (xyFmt f) sr = some x ∧
      Model.PwlFixed.sqrt q true (sqFmt f) (xyFmt f) si = some y ∧ (xyFmt f).Rep x ∧ (xyFmt f).Rep y ∧ 0 ≤ x ∧ 0 ≤ y ∧
      |(x : ℝ) ^ 2 - sr| ≤ sr / 440 + M / 400000 ∧ |(y : ℝ) ^ 2 - si| ≤ si / 440 + M / 400000 := by
    by_cases h0 : a = 0 ∧ b = 0
    · obtain ⟨xF, xI, xW, xS⟩ := xy_F f (by omega)
      have hMz : M = 0 := by rw [hM, h0.1, h0.2]; simp
      have s1 : sr = 0 := by
        have := g1.2; rw [hMz] at this; have h2 : (sr : ℝ) ≤ 0 := by linarith
        exact le_antisymm (by exact_mod_cast h2) sr0
      have s2 : si = 0 := by
        have := g2.2; rw [hMz] at this; have h2 : (si : ℝ) ≤ 0 := by linarith
        exact le_antisymm (by exact_mod_cast h2) si0
      have z := Props.SqrtPwl.C30_zero q true (sqFmt f) (out := xyFmt f) (by omega)
      have zr : (xyFmt f).Rep 0 := ⟨0, by rw [xS]; simp [minRaw], maxRaw_nonneg _ _, by simp [Fmt.val]⟩
      rw [s1, s2]
      exact ⟨0, 0, z, z, zr, zr, le_rfl, le_rfl, by simp [hMz], by simp [hMz]⟩
    · have hz : a ≠ 0 ∨ b ≠ 0 := by by_contra hc; push Not at hc; exact h0 hc
      have hMl : (((2 : ℚ) ^ (-f.F) : ℚ) : ℝ) ≤ M := by
        rw [hM]
        apply Real.le_sqrt_of_sq_le
        have e : ((2 : ℚ) ^ (-f.F)) ^ 2 ≤ a ^ 2 + b ^ 2 := by
          rw [pow_two, Fmt.z_add]; convert m_low ha hb hz using 2; ring
        exact_mod_cast e
      obtain ⟨x, x1, x2, x3, x4⟩ := root_facts q hI hW p2 sr0 sr1 hMl g1.2
      obtain ⟨y, y1, y2, y3, y4⟩ := root_facts q hI hW n2 si0 si1 hMl g2.2
      exact ⟨x, y, x1, y1, x3, y3, x2, y2, x4, y4⟩
  obtain ⟨x, y, x1, y1, xr, yr, x0, y0, x4, y4⟩ := main
  refine ⟨x, y, ?_, xr, yr, x0, y0, ?_, ?_⟩
  · unfold Model.Complex.sqrt
    rw [magSqr_eq hWm hOm hrep, hm]
    simp only [Option.bind_eq_bind, Option.bind_some]
    rw [p1, n1, x1]
    simp only [Option.bind_some]
    rw [y1]; rfl
  · calc |(x : ℝ) ^ 2 - (M + a) / 2| ≤ |(x : ℝ) ^ 2 - sr| + |(sr : ℝ) - (M + a) / 2| := abs_sub_le _ _ _
      _ ≤ M / 340 := by have := g1.1; have := g1.2; linarith
  · calc |(y : ℝ) ^ 2 - (M - a) / 2| ≤ |(y : ℝ) ^ 2 - si| + |(si : ℝ) - (M - a) / 2| := abs_sub_le _ _ _
      _ ≤ M / 340 := by
          have h1 := g2.1; have := g2.2; rw [← sub_eq_add_neg] at h1; linarith

end Proof.ComplexSqrt
