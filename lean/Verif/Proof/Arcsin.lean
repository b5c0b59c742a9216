import Verif.Proof.ArcsinCore
import Verif.Proof.Atan2

/-! # The loops of ac_arcsin_cordic.h and ac_arccos_cordic.h -/

namespace Proof.Arcsin
open Ac Model.Arcsin
open Proof.Atan2 (cvt_floor cvt_raw shr_raw val_same vec)
open Proof.Cordic (val_add val_sub)

variable {p g : ℕ}

theorem dF (p : ℕ) : (dp p).F = (p + 2 : ℕ) := by unfold dp Fmt.F; push_cast; ring

theorem tF (p g : ℕ) : (dpTheta p g).F = p := by unfold dpTheta Fmt.F; push_cast; ring

theorem dmin (p : ℕ) : minRaw (dp p).W (dp p).S = -2 ^ (p + 4) := by simp [minRaw, dp]

theorem dmax (p : ℕ) : maxRaw (dp p).W (dp p).S = 2 ^ (p + 4) - 1 := by simp [maxRaw, dp]

theorem dfit {r : ℤ} (h : |r| < 2 ^ (p + 4)) : (dp p).cvt ((dp p).val r) = (dp p).val r := by
  rw [abs_lt] at h
  refine cvt_raw (by simp [dp]) rfl ?_ ?_
  · rw [dmin]; linarith
  · rw [dmax]; omega

theorem tfit (hg : 1 ≤ g) {r : ℤ} (h0 : -2 ^ (p + g - 1) ≤ r) (h1 : r < 2 ^ (p + g - 1)) :
    (dpTheta p g).cvt ((dpTheta p g).val r) = (dpTheta p g).val r := by
  refine cvt_raw (by simp [dpTheta]; omega) rfl ?_ ?_
  · simpa [minRaw, dpTheta] using h0
  · simp only [maxRaw, dpTheta, if_true]; omega

theorem div_range {M r : ℤ} (h : |r| < M) (k : ℕ) : |r / 2 ^ k| < M ∧ |r - r / 2 ^ k| < M := by
  have hp : (0 : ℤ) < 2 ^ k := by positivity
  have h1 : (1 : ℤ) ≤ 2 ^ k := hp
  rw [abs_lt] at h
  rcases le_or_gt 0 r with c | c
  · have a1 := Int.ediv_nonneg c hp.le
    have a2 := Int.ediv_le_self (2 ^ k) c
    rw [abs_lt, abs_lt]
    omega
  · have a1 : r / 2 ^ k < 0 := Int.ediv_neg_of_neg_of_pos c hp
    have a2 : r ≤ r / 2 ^ k := by
      rw [Int.le_ediv_iff_mul_le hp]
      nlinarith
    rw [abs_lt, abs_lt]
    omega

theorem dshr {r : ℤ} (h : |r| < 2 ^ (p + 4)) (k : ℕ) : (dp p).shr ((dp p).val r) k = (dp p).val (r / 2 ^ k) := by
  have := (div_range h k).1
  rw [abs_lt] at this
  refine shr_raw (by simp [dp]) k ?_ ?_
  · rw [dmin]; linarith
  · rw [dmax]; omega

/-- The angle of step `i` in units of the type of `theta`. -/
def dang (p i : ℕ) : ℤ := T i / 2 ^ (128 - p)

theorem table_len : table.length = 130 := by decide +kernel

theorem T_le {i : ℕ} (hi : i < 130) : 10 * T i ≤ 7 * 2 ^ 128 := by
  obtain ⟨h0, h1⟩ := T_pos hi
  have : (1 : ℤ) ≤ 2 ^ i := one_le_pow₀ (by norm_num)
  nlinarith

theorem dang_range (h1 : 1 ≤ p) (hp : p ≤ 128) {i : ℕ} (hi : i < 130) : 0 ≤ dang p i ∧ dang p i < 2 ^ p := by
  have hq : (0 : ℤ) < 2 ^ (128 - p) := by positivity
  have e : (2 : ℤ) ^ 128 = 2 ^ p * 2 ^ (128 - p) := by rw [← pow_add]; congr 1; omega
  constructor
  · exact Int.ediv_nonneg (T_pos hi).1 hq.le
  · unfold dang
    rw [Int.ediv_lt_iff_lt_mul hq, ← e]
    have := T_le hi
    linarith

theorem angle_eq (h1 : 1 ≤ p) (hp : p ≤ 128) (hg : 1 ≤ g) {i : ℕ} (hi : i < 130) :
    ∃ v, angle p i = some v ∧ (dpTheta p g).cvt v = (dpTheta p g).val (dang p i) := by
  obtain ⟨d0, d1⟩ := dang_range h1 hp hi
  have hl : i < table.length := by rw [table_len]; exact hi
  have hT : table[i]? = some (T i) := by
    unfold T
    rw [List.getElem?_eq_getElem hl, List.getD_eq_getElem?_getD, List.getElem?_eq_getElem hl, Option.getD_some]
  have hF : (⟨p, 0, false, .TRN, .WRAP⟩ : Fmt).F = p := by unfold Fmt.F; push_cast; ring
  refine ⟨_, by unfold angle; rw [if_neg (by omega), hT, Option.map_some], ?_⟩
  have hfl : ⌊(T i : ℚ) / 2 ^ 128 * 2 ^ (⟨p, 0, false, .TRN, .WRAP⟩ : Fmt).F⌋ = dang p i := by
    have e2 : (T i : ℚ) / 2 ^ 128 * 2 ^ (⟨p, 0, false, .TRN, .WRAP⟩ : Fmt).F = (T i : ℚ) / ((2 ^ (128 - p) : ℕ) : ℚ) := by
      rw [hF, zpow_natCast]
      have e : (2 : ℚ) ^ 128 = 2 ^ p * 2 ^ (128 - p) := by rw [← pow_add]; congr 1; omega
      rw [e]; push_cast
      field_simp
    rw [e2, Rat.floor_intCast_div_natCast]
    unfold dang; push_cast; rfl
  rw [cvt_floor (g := ⟨p, 0, false, .TRN, .WRAP⟩) (by simpa using h1) rfl rfl (by rw [hfl]; simpa [minRaw] using d0)
    (by rw [hfl]; simp [maxRaw]; omega), hfl, val_same (g' := dpTheta p g) (by rw [hF, tF])]
  refine tfit hg ?_ ?_
  · have : (0 : ℤ) < 2 ^ (p + g - 1) := by positivity
    linarith
  · exact lt_of_lt_of_le d1 (pow_le_pow_right₀ (by norm_num) (by omega))

/-- The direction as a number. -/
def sg (sel : Bool) : ℤ := if sel then 1 else -1

theorem rotate_eq (h1 : 1 ≤ p) (hp : p ≤ 128) (hg : 1 ≤ g) {i : ℕ} (i1 : 1 ≤ i) (hi : i < 130) {X Y N Θ : ℤ} (sel : Bool)
    (hX : |X| < 2 ^ (p + 4)) (hY : |Y| < 2 ^ (p + 4)) (hN : |N| < 2 ^ (p + 4))
    (hX' : |X - X / 2 ^ (2 * i) - sg sel * (Y / 2 ^ (i - 1))| < 2 ^ (p + 4))
    (hY' : |Y - Y / 2 ^ (2 * i) + sg sel * (X / 2 ^ (i - 1))| < 2 ^ (p + 4)) (hN' : |N + N / 2 ^ (2 * i)| < 2 ^ (p + 4))
    (h0 : -2 ^ (p + g - 1) ≤ Θ + sg sel * dang p i) (h2 : Θ + sg sel * dang p i < 2 ^ (p + g - 1)) :
    rotate p g i sel ⟨(dp p).val X, (dp p).val Y, (dp p).val N, (dpTheta p g).val Θ⟩ =
      some ⟨(dp p).val (X - X / 2 ^ (2 * i) - sg sel * (Y / 2 ^ (i - 1))), (dp p).val (Y - Y / 2 ^ (2 * i) + sg sel * (X / 2 ^ (i - 1))),
        (dp p).val (N + N / 2 ^ (2 * i)), (dpTheta p g).val (Θ + sg sel * dang p i)⟩ := by
  obtain ⟨v, hv, hd⟩ := angle_eq h1 hp hg hi
  have e1 : ((i : ℤ) - 1) = ((i - 1 : ℕ) : ℤ) := by omega
  have e2 : (2 * (i : ℤ)) = ((2 * i : ℕ) : ℤ) := by push_cast; rfl
  unfold rotate
  simp only [hv, Option.bind_eq_bind, Option.bind_some, hd, e1, e2, dshr hX, dshr hY, dshr hN, val_sub, val_add,
    dfit (div_range hX (2 * i)).2, dfit (div_range hY (2 * i)).2, dfit hN']
  cases sel with
  | true =>
    simp only [sg, if_true, one_mul] at *
    rw [dfit hX', dfit hY', tfit hg h0 h2]
  | false =>
    simp only [sg, if_false, Bool.false_eq_true, neg_one_mul, sub_neg_eq_add, ← sub_eq_add_neg] at *
    rw [dfit hX', dfit hY', tfit hg h0 h2]

theorem start_eq (hg : 1 ≤ g) {t : ℚ} (ht : |t| ≤ 1) : start p g t =
    ⟨(dp p).val (2 ^ (p + 2)), (dp p).val 0, (dp p).val ⌊|t| * 2 ^ (p + 2)⌋, (dpTheta p g).val 0⟩ ∧
    0 ≤ ⌊|t| * 2 ^ (p + 2)⌋ ∧ ⌊|t| * 2 ^ (p + 2)⌋ ≤ 2 ^ (p + 2) := by
  have hpp : (0 : ℚ) < 2 ^ (p + 2) := by positivity
  have n0 : 0 ≤ ⌊|t| * 2 ^ (p + 2)⌋ := Int.floor_nonneg.2 (by positivity)
  have n1 : ⌊|t| * 2 ^ (p + 2)⌋ ≤ 2 ^ (p + 2) := by
    have h : |t| * 2 ^ (p + 2) ≤ ((2 ^ (p + 2) : ℤ) : ℚ) := by push_cast; exact mul_le_of_le_one_left hpp.le ht
    have := Int.floor_mono h
    rwa [Int.floor_intCast] at this
  have hlt : (2 : ℤ) ^ (p + 2) < 2 ^ (p + 4) := pow_lt_pow_right₀ (by norm_num) (by omega)
  have hN : |⌊|t| * 2 ^ (p + 2)⌋| < 2 ^ (p + 4) := by rw [abs_of_nonneg n0]; linarith
  refine ⟨?_, n0, n1⟩
  have hz : (dp p).val 0 = 0 := by simp [Fmt.val]
  have hz' : (dpTheta p g).val 0 = 0 := by simp [Fmt.val]
  have h1 : (dp p).val (2 ^ (p + 2)) = 1 := by
    unfold Fmt.val
    rw [dF, zpow_neg, zpow_natCast]; push_cast; field_simp
  have ht' : (dp p).cvt |t| = (dp p).val ⌊|t| * 2 ^ (p + 2)⌋ := by
    rw [abs_lt] at hN
    have e : (2 : ℚ) ^ (dp p).F = 2 ^ (p + 2) := by rw [dF, zpow_natCast]
    rw [cvt_floor (by simp [dp]) rfl rfl, e]
    · rw [dmin, e]; linarith
    · rw [dmax, e]; omega
  unfold start
  have c1 : (dp p).cvt (1 : ℚ) = (dp p).val (2 ^ (p + 2)) := by
    rw [← h1]; exact dfit (by rw [abs_of_pos (by positivity)]; exact hlt)
  have c2 : (dp p).cvt (0 : ℚ) = (dp p).val 0 := by
    rw [← hz]; exact dfit (by rw [abs_zero]; positivity)
  have c3 : (dpTheta p g).cvt (0 : ℚ) = (dpTheta p g).val 0 := by
    rw [← hz']
    exact tfit hg (by have : (0 : ℤ) < 2 ^ (p + g - 1) := by positivity
                      linarith) (by positivity)
  have c4 : (if t < 0 then (dp p).cvt (-t) else (dp p).cvt t) = (dp p).cvt |t| := by
    split_ifs with c
    · rw [abs_of_neg c]
    · rw [abs_of_nonneg (not_lt.1 c)]
  rw [c1, c2, c3, c4, ht', dfit hN]

theorem rotate_zero (h1 : 1 ≤ p) (hp : p ≤ 128) (hg : 1 ≤ g) {N : ℤ} (n0 : 0 ≤ N) (n1 : N ≤ 2 ^ (p + 2)) :
    rotate p g 0 true ⟨(dp p).val (2 ^ (p + 2)), (dp p).val 0, (dp p).val N, (dpTheta p g).val 0⟩ =
      some ⟨(dp p).val 0, (dp p).val (2 ^ (p + 3)), (dp p).val (2 * N), (dpTheta p g).val (2 ^ (p - 1))⟩ := by
  obtain ⟨v, hv, hd⟩ := angle_eq h1 hp hg (show 0 < 130 by norm_num)
  have d0 : dang p 0 = 2 ^ (p - 1) := by
    unfold dang
    have : T 0 = 2 ^ 127 := by decide +kernel
    rw [this]
    refine Int.ediv_eq_of_eq_mul_left (by positivity) ?_
    rw [← pow_add]; congr 1; omega
  have q1 : (2 : ℤ) ^ (p + 3) = 2 * 2 ^ (p + 2) := by rw [pow_succ]; ring
  have q2 : (2 : ℤ) ^ (p + 4) = 4 * 2 ^ (p + 2) := by rw [pow_add, pow_add]; ring
  have q0 : (0 : ℤ) < 2 ^ (p + 2) := by positivity
  have hA : |(2 : ℤ) ^ (p + 2)| < 2 ^ (p + 4) := by rw [abs_of_pos q0]; linarith
  have hB : |(2 : ℤ) ^ (p + 3)| < 2 ^ (p + 4) := by rw [abs_of_pos (by positivity)]; linarith
  have hZ : |(0 : ℤ)| < 2 ^ (p + 4) := by rw [abs_zero]; positivity
  have hN : |N| < 2 ^ (p + 4) := by rw [abs_of_nonneg n0]; linarith
  have hN2 : |2 * N| < 2 ^ (p + 4) := by rw [abs_of_nonneg (by linarith)]; linarith
  have s0 : ∀ r : ℤ, |r| < 2 ^ (p + 4) → (dp p).shr ((dp p).val r) 0 = (dp p).val r := by
    intro r hr
    have := dshr hr 0
    rwa [pow_zero, Int.ediv_one] at this
  have s1 : ∀ r : ℤ, |2 * r| < 2 ^ (p + 4) → (dp p).shr ((dp p).val r) (0 - 1) = (dp p).val (2 * r) := by
    intro r hr
    rw [abs_lt] at hr
    unfold Fmt.shr
    rw [Fmt.raw_val]
    have : ⌊(r : ℚ) * 2 ^ (-(0 - 1 : ℤ))⌋ = 2 * r := by
      rw [show (r : ℚ) * 2 ^ (-(0 - 1 : ℤ)) = ((2 * r : ℤ) : ℚ) by norm_num; ring, Int.floor_intCast]
    rw [this, wrap_of_range (by simp [dp]) (by rw [dmin]; linarith) (by rw [dmax]; omega)]
  unfold rotate
  simp only [hv, Option.bind_eq_bind, Option.bind_some, hd, Nat.cast_zero, mul_zero, s0 _ hA, s0 _ hZ, s0 _ hN]
  rw [s1 0 (by simpa using hZ), s1 _ (by rw [← q1]; exact hB), mul_zero, ← q1]
  simp only [val_sub, val_add, Int.sub_self, Int.zero_add, if_true, dfit hZ, dfit hB]
  rw [← two_mul, dfit hN2, d0, tfit hg]
  · have : (0 : ℤ) < 2 ^ (p - 1) := by positivity
    have : (0 : ℤ) < 2 ^ (p + g - 1) := by positivity
    linarith
  · exact pow_lt_pow_right₀ (by norm_num) (by omega)

/-- Vectors along an axis after step 0. -/
theorem near_cos : Near (p + 2) 1 0 (2 ^ (p + 3)) (Real.pi / 2) 0 := by
  unfold Near
  rw [S_one, Complex.exp_mul_I, ← Complex.ofReal_cos, ← Complex.ofReal_sin, Real.cos_pi_div_two, Real.sin_pi_div_two, mul_zero]
  have : vec 0 (2 ^ (p + 3)) - ((2 : ℝ) : ℂ) * ((2 ^ (p + 2) : ℝ) : ℂ) * (((0 : ℝ) : ℂ) + ((1 : ℝ) : ℂ) * Complex.I) = 0 := by
    unfold vec
    push_cast
    rw [pow_succ 2 (p + 2)]
    ring
  rw [this, norm_zero]

theorem near_sin : Near (p + 2) 1 (2 ^ (p + 3)) 0 0 0 := by
  unfold Near
  rw [S_one, mul_zero]
  have : vec (2 ^ (p + 3)) 0 - ((2 : ℝ) : ℂ) * ((2 ^ (p + 2) : ℝ) : ℂ) * Complex.exp (((0 : ℝ) : ℂ) * Complex.I) = 0 := by
    unfold vec
    push_cast
    rw [zero_mul, Complex.exp_zero, pow_succ 2 (p + 2)]
    ring
  rw [this, norm_zero]

theorem arg_one {t : ℚ} : |((2 * ⌊|t| * 2 ^ (p + 2)⌋ : ℤ) : ℝ) - S 1 * (((|t| : ℚ) : ℝ) * 2 ^ (p + 2))| ≤ S 1 * (1 + (((1 : ℕ) : ℝ) - 1) * (2 / 5)) := by
  rw [S_one]
  have h1 := Rat.cast_le (K := ℝ) |>.2 (Int.floor_le (|t| * 2 ^ (p + 2)))
  have h2 := Rat.cast_lt (K := ℝ) |>.2 (Int.lt_floor_add_one (|t| * 2 ^ (p + 2)))
  push_cast at h1 h2 ⊢
  rw [abs_le]
  constructor <;> linarith

/-- How the accumulated angle in units relates to the angle. -/
theorem theta_step (hp : p ≤ 128) {i : ℕ} (hi : i < 130) {Θ : ℤ} {φ e : ℝ} (h : |φ - Real.pi * (Θ / 2 ^ p)| ≤ e) {σ : ℤ} (hσ : σ = 1 ∨ σ = -1) :
    |(φ + σ * a i) - Real.pi * (((Θ + σ * dang p i : ℤ) : ℝ) / 2 ^ p)| ≤ e + Real.pi / 2 ^ p + ((ae i : ℚ) : ℝ) := by
  have ht := T_err hi
  have hpi := Real.pi_pos
  have hq : (0 : ℤ) < 2 ^ (128 - p) := by positivity
  have d1 := Int.mul_ediv_add_emod (T i) (2 ^ (128 - p))
  have d2 := Int.emod_lt_of_pos (T i) hq
  have d3 := Int.emod_nonneg (T i) hq.ne'
  have hpp : (0 : ℝ) < 2 ^ p := by positivity
  have e128 : (2 : ℝ) ^ 128 = 2 ^ p * 2 ^ (128 - p) := by rw [← pow_add]; congr 1; omega
  have b : |(T i : ℝ) / 2 ^ 128 - (dang p i : ℝ) / 2 ^ p| ≤ 1 / 2 ^ p := by
    have d1' : (2 : ℝ) ^ (128 - p) * (dang p i : ℝ) + ((T i % 2 ^ (128 - p) : ℤ) : ℝ) = T i := by
      unfold dang; exact_mod_cast d1
    have d2' : ((T i % 2 ^ (128 - p) : ℤ) : ℝ) ≤ 2 ^ (128 - p) := by exact_mod_cast d2.le
    have d3' : (0 : ℝ) ≤ ((T i % 2 ^ (128 - p) : ℤ) : ℝ) := by exact_mod_cast d3
    have hqr : (0 : ℝ) < 2 ^ (128 - p) := by positivity
    rw [← d1', e128]
    have e : ((2 : ℝ) ^ (128 - p) * (dang p i : ℝ) + ((T i % 2 ^ (128 - p) : ℤ) : ℝ)) / (2 ^ p * 2 ^ (128 - p)) - (dang p i : ℝ) / 2 ^ p =
        ((T i % 2 ^ (128 - p) : ℤ) : ℝ) / 2 ^ (128 - p) / 2 ^ p := by field_simp; ring
    rw [e, abs_of_nonneg (by positivity)]
    exact div_le_div_of_nonneg_right ((div_le_one hqr).2 d2') hpp.le
  have hσa : |((σ : ℤ) : ℝ)| = 1 := by rcases hσ with rfl | rfl <;> norm_num
  have e1 : (φ + σ * a i) - Real.pi * (((Θ + σ * dang p i : ℤ) : ℝ) / 2 ^ p) =
      (φ - Real.pi * (Θ / 2 ^ p)) + (-σ * ((T i : ℝ) / 2 ^ 128 * Real.pi - a i) +
        σ * (Real.pi * ((T i : ℝ) / 2 ^ 128 - (dang p i : ℝ) / 2 ^ p))) := by push_cast; ring
  rw [e1]
  refine le_trans (abs_add_le _ _) ?_
  have := abs_add_le (-σ * ((T i : ℝ) / 2 ^ 128 * Real.pi - a i)) (σ * (Real.pi * ((T i : ℝ) / 2 ^ 128 - (dang p i : ℝ) / 2 ^ p)))
  rw [abs_mul, abs_mul, abs_mul, abs_neg, hσa, one_mul, one_mul, abs_of_pos hpi] at this
  have m := mul_le_mul_of_nonneg_left b hpi.le
  rw [mul_one_div] at m
  linarith

end Proof.Arcsin
