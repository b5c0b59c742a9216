import Verif.Proof.Cordic

/-! # The result of the CORDIC -/

namespace Proof.Cordic
open Ac Model.Cordic

variable {t : Fmt}

/-- Unit of the output. -/
noncomputable def lsb (t : Fmt) : ℝ := 2 ^ (-t.F)

theorem lsb_pos : 0 < lsb t := zpow_pos (by norm_num) _

theorem u_facts (h1 : 1 ≤ t.W) (h68 : t.W ≤ 68) : (t.W + 2 : ℕ) * u t ≤ lsb t / 2 ∧ u t ≤ lsb t / 32 := by
  obtain ⟨f1, f2, f3, f4, f5⟩ := icw_facts h1 h68
  have e : lsb t = u t * 2 ^ (logIter (t.W + 1) + 1) := by
    unfold lsb u
    rw [← zpow_natCast, ← zpow_add₀ (by norm_num)]
    congr 1
    simp only [xyFmt, Fmt.F, f1]
    push_cast; ring
  have hu := u_pos (t := t)
  constructor
  · have : ((t.W + 2 : ℕ) : ℝ) ≤ 2 ^ logIter (t.W + 1) := by exact_mod_cast f4
    have := mul_le_mul_of_nonneg_right this hu.le
    rw [e, pow_succ]
    linarith
  · have : (2 : ℝ) ^ 5 ≤ 2 ^ (logIter (t.W + 1) + 1) := pow_le_pow_right₀ (by norm_num) (by omega)
    have := mul_le_mul_of_nonneg_left this hu.le
    rw [e]
    linarith

/-- Bound of the rounding errors of the vector. -/
noncomputable def errV (t : Fmt) (C : ℝ) : ℝ := |C| * (lsb t / 16) + 0.83 * lsb t

theorem err_le (h1 : 1 ≤ t.W) (h68 : t.W ≤ 68) (C : ℝ) :
    G (t.W + 1) * ((|C| + 1) * u t + (t.W + 1 : ℕ) * u t) ≤ errV t C := by
  obtain ⟨a, b⟩ := u_facts h1 h68
  have hG := G_le (t.W + 1)
  have hGp := G_pos (t.W + 1)
  have hu := u_pos (t := t)
  have hl := lsb_pos (t := t)
  have e : (|C| + 1) * u t + (t.W + 1 : ℕ) * u t = |C| * u t + (t.W + 2 : ℕ) * u t := by push_cast; ring
  rw [e]
  unfold errV
  have c1 : |C| * u t + (t.W + 2 : ℕ) * u t ≤ |C| * (lsb t / 32) + lsb t / 2 :=
    add_le_add (mul_le_mul_of_nonneg_left b (abs_nonneg C)) a
  have c2 : (0 : ℝ) ≤ |C| * u t + (t.W + 2 : ℕ) * u t := by positivity
  have hCl : 0 ≤ |C| * lsb t := by positivity
  calc _ ≤ 1.66 * (|C| * (lsb t / 32) + lsb t / 2) := mul_le_mul hG c1 c2 (by norm_num)
    _ ≤ _ := by linarith

/-- The scaled factor. -/
noncomputable def cK (t : Fmt) (C : ℝ) : ℝ := C * ((KT (t.W + 1) : ℝ) / 2 ^ 71)

theorem cK_gain (h68 : t.W ≤ 68) (C : ℝ) : |cK t C * G (t.W + 1) - C| ≤ |C| * (1 / 2 ^ 51) := by
  have := (k_err (n := t.W + 1) (by omega) (by omega)).1
  unfold cK
  rw [show C * ((KT (t.W + 1) : ℝ) / 2 ^ 71) * G (t.W + 1) - C = C * ((KT (t.W + 1) : ℝ) / 2 ^ 71 * G (t.W + 1) - 1) by ring, abs_mul]
  exact mul_le_mul_of_nonneg_left this (abs_nonneg C)

theorem range_ok (h1 : 1 ≤ t.W) (h68 : t.W ≤ 68) (C : ℝ) :
    |cK t C| * G (t.W + 1) + G (t.W + 1) * ((|C| + 1) * u t + (t.W + 1 : ℕ) * u t) ≤
      |C| * (1 + lsb t / 16 + 1 / 2 ^ 51) + 0.83 * lsb t := by
  have a := err_le h1 h68 C
  have b := cK_gain h68 C
  have hG := G_pos (t.W + 1)
  have c : |cK t C| * G (t.W + 1) ≤ |C| + |C| * (1 / 2 ^ 51) := by
    rw [← abs_of_pos hG, ← abs_mul]
    have := abs_sub_abs_le_abs_sub (cK t C * G (t.W + 1)) C
    linarith
  unfold errV at a
  linarith

/-- What the caller has to leave free at the top of the range. -/
def Room (t : Fmt) (C : ℚ) : Prop := |(C : ℝ)| * (1 + lsb t / 16 + 1 / 2 ^ 50) + 2 * lsb t ≤ 2 ^ (t.I - 1)

theorem Room.range {C : ℚ} (h : Room t C) (h1 : 1 ≤ t.W) (h68 : t.W ≤ 68) :
    |cK t C| * G (t.W + 1) + G (t.W + 1) * ((|(C : ℝ)| + 1) * u t + (t.W + 1 : ℕ) * u t) < 2 ^ (t.I - 1) := by
  refine lt_of_le_of_lt (range_ok h1 h68 C) (lt_of_lt_of_le ?_ h)
  have hl := lsb_pos (t := t)
  have : |(C : ℝ)| * (1 + lsb t / 16 + 1 / 2 ^ 51) ≤ |(C : ℝ)| * (1 + lsb t / 16 + 1 / 2 ^ 50) :=
    mul_le_mul_of_nonneg_left (by norm_num) (abs_nonneg _)
  linarith

set_option maxHeartbeats 1000000 in
theorem start_inv (h1 : 1 ≤ t.W) (h68 : t.W ≤ 68) (hI : 1 ≤ t.I) {C : ℚ} (hC : Room t C) {target : ℚ} (t0 : -1 ≤ target)
    (t1 : target < 1) :
    Inv t target (cK t C) ((|(C : ℝ)| + 1) * u t) 0 (start t target C ((KT (t.W + 1) : ℚ) / 2 ^ 71)) := by
  have hW : 1 ≤ (xyFmt t).W := by have := (icw_facts h1 h68).1; simp [xyFmt]; omega
  have hw2 : 2 ≤ icw t := by have := (icw_facts h1 h68).1; have := (icw_facts h1 h68).2.1; omega
  obtain ⟨-, k0, k1⟩ := k_err (n := t.W + 1) (by omega) (by omega)
  have k0' : (0 : ℚ) < (KT (t.W + 1) : ℚ) / 2 ^ 71 := by
    have : (0 : ℚ) < KT (t.W + 1) := by exact_mod_cast k0
    positivity
  have k1' : (KT (t.W + 1) : ℚ) / 2 ^ 71 < 1 := by
    rw [div_lt_one (by positivity)]
    have : KT (t.W + 1) < 2 ^ 71 := by omega
    exact_mod_cast this
  have hIp : (1 : ℚ) ≤ 2 ^ ((xyFmt t).I - 1) := one_le_zpow₀ (by norm_num) (by simp [xyFmt]; omega)
  have hu := u_pos (t := t)
  have huq : (0 : ℚ) < 2 ^ (-(xyFmt t).F) := Fmt.z_pos _
  set K : ℚ := (KT (t.W + 1) : ℚ) / 2 ^ 71 with hK
  -- the constant in the type of x and y
  have ek := trn_fit (g := xyFmt t) hW rfl rfl rfl (v := K) (by linarith) (by linarith)
  obtain ⟨n1, n2⟩ := floor_near (g := xyFmt t) K
  rw [← ek] at n1 n2
  have kn : 0 ≤ (xyFmt t).cvt K := by
    rw [ek]
    unfold Fmt.val
    have : (0 : ℚ) ≤ (⌊K * 2 ^ (xyFmt t).F⌋ : ℤ) := by
      have : 0 ≤ ⌊K * 2 ^ (xyFmt t).F⌋ := Int.floor_nonneg.2 (mul_nonneg k0'.le (Fmt.z_pos _).le)
      exact_mod_cast this
    exact mul_nonneg this huq.le
  set k := (xyFmt t).cvt K with hk
  -- the room
  have hR := hC.range h1 h68
  have hCl : |C| < 2 ^ ((xyFmt t).I - 1) := by
    refine lt_cast ?_
    refine lt_of_lt_of_le ?_ hC
    have hl := lsb_pos (t := t)
    have : 0 ≤ |(C : ℝ)| * (lsb t / 16 + 1 / 2 ^ 50) := by positivity
    linarith
  have hCk : |C * k| ≤ |C| := by
    rw [abs_mul, abs_of_nonneg kn]
    exact mul_le_of_le_one_right (abs_nonneg C) (by linarith)
  have hCk' := abs_lt.1 (lt_of_le_of_lt hCk hCl)
  have es := trn_fit (g := xyFmt t) hW rfl rfl rfl (v := C * k) (by linarith [hCk'.1]) hCk'.2
  obtain ⟨m1, m2⟩ := floor_near (g := xyFmt t) (C * k)
  set S : ℤ := ⌊C * k * 2 ^ (xyFmt t).F⌋ with hS
  -- error of the scaled factor
  have hErr : |(((xyFmt t).val S : ℚ) : ℝ) - cK t C| ≤ (|(C : ℝ)| + 1) * u t := by
    have q : |(xyFmt t).val S - C * K| ≤ (|C| + 1) * 2 ^ (-(xyFmt t).F) := by
      have a1 : |(xyFmt t).val S - C * k| ≤ 2 ^ (-(xyFmt t).F) := by rw [abs_le]; constructor <;> linarith
      have a2 : |C * k - C * K| ≤ |C| * 2 ^ (-(xyFmt t).F) := by
        rw [← mul_sub, abs_mul]
        refine mul_le_mul_of_nonneg_left ?_ (abs_nonneg C)
        rw [abs_le]; constructor <;> linarith
      have := abs_sub_le ((xyFmt t).val S) (C * k) (C * K)
      linarith
    have := Rat.cast_le (K := ℝ) |>.2 q
    rw [Rat.cast_mul, u_cast, Rat.cast_abs, Rat.cast_sub, Rat.cast_add, Rat.cast_abs, Rat.cast_one, Rat.cast_mul, hK, Rat.cast_div,
      Rat.cast_intCast, Rat.cast_pow, Rat.cast_ofNat] at this
    exact this
  have hSb : |(xyFmt t).val S| < 2 ^ ((xyFmt t).I - 1) := by
    refine lt_cast (lt_of_le_of_lt ?_ hR)
    have hG1 : (1 : ℝ) ≤ G (t.W + 1) := by rw [← G_zero]; exact G_mono (by omega)
    have a : |(((xyFmt t).val S : ℚ) : ℝ)| ≤ |cK t C| + (|(C : ℝ)| + 1) * u t := by
      have := abs_sub_abs_le_abs_sub (((xyFmt t).val S : ℚ) : ℝ) (cK t C)
      linarith
    have b1 : |cK t C| ≤ |cK t C| * G (t.W + 1) := le_mul_of_one_le_right (abs_nonneg _) hG1
    have b2 : (|(C : ℝ)| + 1) * u t ≤ G (t.W + 1) * ((|(C : ℝ)| + 1) * u t + (t.W + 1 : ℕ) * u t) := by
      have p1 : 0 ≤ (|(C : ℝ)| + 1) * u t := by positivity
      have p2 : 0 ≤ ((t.W + 1 : ℕ) : ℝ) * u t := by positivity
      have := mul_le_mul_of_nonneg_right hG1 (add_nonneg p1 p2)
      linarith
    linarith
  have hneg : -(xyFmt t).val S = (xyFmt t).val (-S) := by unfold Fmt.val; push_cast; ring
  have f1 : (xyFmt t).cvt ((xyFmt t).val S) = (xyFmt t).val S := val_fit hW rfl rfl rfl hSb
  have f2 : (xyFmt t).cvt ((xyFmt t).val (-S)) = (xyFmt t).val (-S) := val_fit hW rfl rfl rfl (by rw [← hneg, abs_neg]; exact hSb)
  have v0 : (0 : ℚ) = (xyFmt t).val 0 := by simp [Fmt.val]
  have f3 : (xyFmt t).cvt (0 : ℚ) = (xyFmt t).val 0 := by
    rw [v0]; exact val_fit hW rfl rfl rfl (by rw [← v0]; simp; linarith)
  -- the accumulator
  have e2 : (accFmt t).F = icw t := by simp [accFmt, Fmt.F]
  have accv : ∀ A : ℤ, (accFmt t).val A = A / 2 ^ icw t := by
    intro A; unfold Fmt.val; rw [e2, zpow_neg, zpow_natCast, div_eq_mul_inv]
  have hpw : (2 : ℚ) ^ icw t = 2 * 2 ^ (icw t - 1) := by rw [← pow_succ']; congr 1; omega
  have hp0 : (0 : ℚ) < 2 ^ (icw t - 1) := by positivity
  have va : (1 / 2 : ℚ) = (accFmt t).val (2 ^ (icw t - 1)) := by
    rw [accv, hpw]; push_cast; field_simp
  have vb : (-1 / 2 : ℚ) = (accFmt t).val (-2 ^ (icw t - 1)) := by
    rw [accv, hpw]; push_cast; field_simp
  have vz : (0 : ℚ) = (accFmt t).val 0 := by simp [Fmt.val]
  have hB0 : (B t 0 : ℚ) = 2 ^ (icw t - 1) := by simp [B]
  have fit : ∀ A : ℤ, |target * 2 ^ icw t - A| ≤ B t 0 → (accFmt t).cvt ((accFmt t).val A) = (accFmt t).val A :=
    fun A h => acc_fit h1 h68 t0 t1 (Nat.zero_le _) h
  unfold start
  simp only
  rw [es, f1, f3]
  by_cases c1 : target > 1 / 2
  · rw [if_pos c1]
    have hb : |target * 2 ^ icw t - ((2 ^ (icw t - 1) : ℤ) : ℚ)| ≤ B t 0 := by
      rw [hB0, hpw]; push_cast
      rw [abs_le]; constructor <;> nlinarith
    rw [va, fit _ hb]
    refine ⟨0, S, _, Real.pi / 2, rfl, ?_, ?_, hb⟩
    · rw [← va]; simp [aeSum]; ring_nf
    · unfold vec
      rw [← v0, G_zero, Complex.ofReal_div, Complex.ofReal_ofNat, Complex.exp_pi_div_two_mul_I]
      simp only [Rat.cast_zero, Complex.ofReal_zero, zero_add, Complex.ofReal_one, one_mul, Nat.cast_zero, zero_mul, add_zero]
      rw [← sub_mul, norm_mul, Complex.norm_I, mul_one, ← Complex.ofReal_sub, Complex.norm_real]
      exact hErr
  · rw [if_neg c1]
    by_cases c2 : target < -1 / 2
    · rw [if_pos c2, hneg, f2]
      have hb : |target * 2 ^ icw t - ((-2 ^ (icw t - 1) : ℤ) : ℚ)| ≤ B t 0 := by
        rw [hB0, hpw]; push_cast
        rw [abs_le]; constructor <;> nlinarith
      rw [vb, fit _ hb]
      refine ⟨0, -S, _, -(Real.pi / 2), rfl, ?_, ?_, hb⟩
      · rw [← vb]; simp [aeSum]; ring_nf
      · unfold vec
        rw [← v0, ← hneg, G_zero, Complex.ofReal_neg, Complex.ofReal_div, Complex.ofReal_ofNat, neg_mul, Complex.exp_neg,
          Complex.exp_pi_div_two_mul_I, Complex.inv_I]
        simp only [Rat.cast_zero, Complex.ofReal_zero, zero_add, Complex.ofReal_one, one_mul, Nat.cast_zero, zero_mul, add_zero,
          Rat.cast_neg, Complex.ofReal_neg]
        rw [mul_neg, neg_mul, ← neg_sub', norm_neg, ← sub_mul, norm_mul, Complex.norm_I, mul_one, ← Complex.ofReal_sub,
          Complex.norm_real]
        exact hErr
    · rw [if_neg c2]
      have hb : |target * 2 ^ icw t - ((0 : ℤ) : ℚ)| ≤ B t 0 := by
        rw [hB0, hpw, Int.cast_zero, sub_zero]
        have d0 := mul_le_mul_of_nonneg_right (not_lt.1 c2) hp0.le
        have d1 := mul_le_mul_of_nonneg_right (not_lt.1 c1) hp0.le
        rw [abs_le]; constructor <;> linarith
      rw [vz, fit _ hb]
      refine ⟨S, 0, _, 0, rfl, ?_, ?_, hb⟩
      · rw [← vz]; simp [aeSum]
      · unfold vec
        rw [← v0, G_zero]
        simp only [Rat.cast_zero, Complex.ofReal_zero, zero_mul, add_zero, Complex.exp_zero, mul_one, Complex.ofReal_one, one_mul,
          Nat.cast_zero]
        rw [← Complex.ofReal_sub, Complex.norm_real]
        exact hErr

/-- The whole loop. -/
theorem run_inv (h1 : 1 ≤ t.W) (h68 : t.W ≤ 68) (hI : 1 ≤ t.I) {C : ℚ} (hC : Room t C) {f : Fmt} {a : ℚ}
    (t0 : -1 ≤ (targetFmt f).cvt a) (t1 : (targetFmt f).cvt a < 1) :
    ∃ s, run f t a C = some s ∧ Inv t ((targetFmt f).cvt a) (cK t C) ((|(C : ℝ)| + 1) * u t) (t.W + 1) s := by
  unfold run
  have hk : kOf (numIter t) = some ((KT (t.W + 1) : ℚ) / 2 ^ 71) := kOf_eq (n := t.W + 1) (by omega)
  simp only [hk, Option.bind_eq_bind, Option.bind_some]
  refine forUp_inv (P := fun i so => ∃ s, so = some s ∧ Inv t ((targetFmt f).cvt a) (cK t C) ((|(C : ℝ)| + 1) * u t) i s)
    ⟨_, rfl, start_inv h1 h68 hI hC t0 t1⟩ ?_
  rintro i so hi ⟨s, rfl, hs⟩
  obtain ⟨s', e, hs'⟩ := step_inv h1 h68 t0 t1 (by have := u_pos (t := t); positivity) (hC.range h1 h68) hi hs
  exact ⟨s', e, hs'⟩

/-- The angle is reduced to one full turn. -/
theorem target_eq {f : Fmt} (hf : f.I ≤ f.W) (r : ℤ) :
    -1 ≤ (targetFmt f).cvt (f.val r) ∧ (targetFmt f).cvt (f.val r) < 1 ∧
      ∃ m : ℤ, (targetFmt f).cvt (f.val r) = f.val r + 2 * m := by
  obtain ⟨n, hn⟩ : ∃ n : ℕ, f.W - f.I = n := ⟨(f.W - f.I).toNat, by omega⟩
  have hW : (targetFmt f).W = n + 1 := by simp [targetFmt]; omega
  have hF : (targetFmt f).F = n := by
    have : (targetFmt f).F = (targetFmt f).W - 1 := rfl
    rw [this, hW]; push_cast; ring
  have hFf : f.F = n := hn
  have e : (targetFmt f).cvt (f.val r) = (wrap (n + 1) true r : ℚ) / 2 ^ n := by
    unfold Fmt.cvt Fmt.cvtRaw
    rw [hF, ← hFf, Fmt.val_mul_pow, hW]
    simp only [targetFmt, quant, Int.floor_intCast, ovf]
    unfold Fmt.val
    have : (Fmt.mk (f.W - (f.I - 1)).toNat 1 true .TRN .WRAP).F = n := hF
    rw [this, zpow_neg, zpow_natCast, div_eq_mul_inv]
  obtain ⟨w0, w1⟩ := wrap_range (W := n + 1) (S := true) (by omega) r
  simp only [minRaw, maxRaw, if_true, Nat.add_sub_cancel] at w0 w1
  have hp : (0 : ℚ) < 2 ^ n := by positivity
  obtain ⟨m, hm⟩ := (wrap_modEq (n + 1) true r).symm.dvd
  refine ⟨?_, ?_, m, ?_⟩
  · rw [e, le_div_iff₀ hp]
    have : ((-2 ^ n : ℤ) : ℚ) ≤ wrap (n + 1) true r := by exact_mod_cast w0
    push_cast at this; linarith
  · rw [e, div_lt_one hp]
    have : wrap (n + 1) true r < 2 ^ n := by omega
    exact_mod_cast this
  · rw [e]
    have hw : wrap (n + 1) true r = r + 2 ^ (n + 1) * m := by linarith
    rw [hw]
    unfold Fmt.val
    rw [hFf, zpow_neg, zpow_natCast, Int.cast_add, Int.cast_mul, Int.cast_pow, pow_succ]
    push_cast
    field_simp

/-- The angle left at the end. -/
theorem left_le (h1 : 1 ≤ t.W) (h68 : t.W ≤ 68) {target : ℚ} {A : ℤ} (h : |target * 2 ^ icw t - A| ≤ B t (t.W + 1)) :
    |target - (accFmt t).val A| ≤ 7 / 8 / 2 ^ t.W + 1 / 2 ^ 64 := by
  obtain ⟨f1, f2, f3, f4, f5⟩ := icw_facts h1 h68
  have e2 : (accFmt t).F = icw t := by simp [accFmt, Fmt.F]
  have accv : (accFmt t).val A = A / 2 ^ icw t := by
    unfold Fmt.val; rw [e2, zpow_neg, zpow_natCast, div_eq_mul_inv]
  have hw : (0 : ℚ) < 2 ^ icw t := by positivity
  have e : target - (accFmt t).val A = (target * 2 ^ icw t - A) / 2 ^ icw t := by rw [accv]; field_simp
  rw [e, abs_div, abs_of_pos hw]
  refine le_trans (div_le_div_of_nonneg_right h hw.le) ?_
  have hB : B t (t.W + 1) = D t t.W + t.W * δ t := by simp [B]
  rw [hB]
  have hD : (D t t.W : ℚ) / 2 ^ icw t ≤ 3 / 8 / 2 ^ t.W := by
    have a := Int.floor_le ((T t.W : ℚ) / 2 ^ 71 * 2 ^ icw t)
    have b := T_le (i := t.W) (by omega)
    have b' : (T t.W : ℚ) * 2 ^ t.W ≤ 3 * 2 ^ 68 := by exact_mod_cast b
    rw [div_le_iff₀ hw]
    refine le_trans a (mul_le_mul_of_nonneg_right ?_ hw.le)
    rw [div_div, div_le_div_iff₀ (by positivity) (by positivity)]
    have := mul_le_mul_of_nonneg_right b' (show (0 : ℚ) ≤ 8 by norm_num)
    rw [show (3 : ℚ) * 2 ^ 71 = 3 * 2 ^ 68 * 8 by norm_num]
    linarith
  have hδ : (t.W : ℚ) * δ t / 2 ^ icw t ≤ 1 / 2 / 2 ^ t.W + 1 / 2 ^ 64 := by
    unfold δ
    by_cases hc : icw t ≤ 71
    · rw [show icw t - 71 = 0 by omega]
      have : (t.W : ℚ) * ((2 ^ 0 : ℤ) : ℚ) / 2 ^ icw t ≤ 1 / 2 / 2 ^ t.W := by
        rw [f1, pow_add, pow_add]
        have hL : (t.W : ℚ) ≤ 2 ^ logIter (t.W + 1) := by
          have : t.W ≤ 2 ^ logIter (t.W + 1) := by omega
          exact_mod_cast this
        rw [div_div, div_le_div_iff₀ (by positivity) (by positivity)]
        have := mul_le_mul_of_nonneg_right hL (show (0 : ℚ) ≤ 2 * 2 ^ t.W by positivity)
        push_cast
        linarith
      have h64 : (0 : ℚ) ≤ 1 / 2 ^ 64 := by positivity
      linarith
    · have e3 : (2 : ℚ) ^ icw t = 2 ^ (icw t - 71) * 2 ^ 71 := by rw [← pow_add]; congr 1; omega
      have hp : (0 : ℚ) < 2 ^ (icw t - 71) := by positivity
      have : (t.W : ℚ) * ((2 ^ (icw t - 71) : ℤ) : ℚ) / 2 ^ icw t = t.W / 2 ^ 71 := by
        rw [e3]; push_cast; field_simp
      rw [this]
      have hWq : (t.W : ℚ) ≤ 68 := by exact_mod_cast h68
      have p1 : (t.W : ℚ) / 2 ^ 71 ≤ 68 / 2 ^ 71 := div_le_div_of_nonneg_right hWq (by positivity)
      have p2 : (68 : ℚ) / 2 ^ 71 ≤ 1 / 2 ^ 64 := by norm_num
      have p3 : (0 : ℚ) ≤ 1 / 2 / 2 ^ t.W := by positivity
      linarith
  push_cast
  rw [add_div]
  have : (3 : ℚ) / 8 / 2 ^ t.W + 1 / 2 / 2 ^ t.W = 7 / 8 / 2 ^ t.W := by ring
  linarith

/-- The state at the end against the cosine and the sine. -/
theorem final (h1 : 1 ≤ t.W) (h68 : t.W ≤ 68) {C target : ℚ} {s : St}
    (h : Inv t target (cK t C) ((|(C : ℝ)| + 1) * u t) (t.W + 1) s) :
    |target - s.acc| ≤ 7 / 8 / 2 ^ t.W + 1 / 2 ^ 64 ∧
    |(s.x : ℝ) - C * Real.cos (Real.pi * target)| ≤ |(C : ℝ)| * (lsb t / 16 + 5 / 2 ^ t.W + 1 / 2 ^ 50) + 0.83 * lsb t ∧
    |(s.y : ℝ) - C * Real.sin (Real.pi * target)| ≤ |(C : ℝ)| * (lsb t / 16 + 5 / 2 ^ t.W + 1 / 2 ^ 50) + 0.83 * lsb t ∧
    |(s.x : ℝ)| ≤ |(C : ℝ)| * (1 + lsb t / 16 + 1 / 2 ^ 51) + 0.83 * lsb t ∧
    |(s.y : ℝ)| ≤ |(C : ℝ)| * (1 + lsb t / 16 + 1 / 2 ^ 51) + 0.83 * lsb t := by
  obtain ⟨X, Y, A, φ, rfl, ha, hv, hb⟩ := h
  obtain ⟨f1, f2, f3, f4, f5⟩ := icw_facts h1 h68
  have hleft := left_le h1 h68 hb
  have hu := u_pos (t := t)
  have hE : 0 ≤ (|(C : ℝ)| + 1) * u t := by positivity
  obtain ⟨b1, b2⟩ := vec_bound hE le_rfl hv
  have hrange := range_ok h1 h68 C
  refine ⟨hleft, ?_, ?_, le_trans b1 hrange, le_trans b2 hrange⟩
  all_goals
    have hpi := Real.pi_pos
    have hpi4 := Real.pi_lt_d4
    have hWp : (0 : ℝ) < 1 / 2 ^ t.W := by positivity
    -- the angle
    have hang : |φ - Real.pi * target| ≤ 4.5 * (1 / 2 ^ t.W) + 1 / 2 ^ 52 := by
      have l : |((accFmt t).val A : ℝ) - target| ≤ 7 / 8 * (1 / 2 ^ t.W) + 1 / 2 ^ 64 := by
        have := Rat.cast_le (K := ℝ) |>.2 hleft
        rw [Rat.cast_abs, Rat.cast_sub, Rat.cast_add, Rat.cast_div, Rat.cast_div, Rat.cast_pow, Rat.cast_div, Rat.cast_pow,
          abs_sub_comm] at this
        refine le_trans this (le_of_eq ?_)
        push_cast; ring
      have n : ((t.W + 1 : ℕ) : ℝ) * (Real.pi / 2 ^ icw t) ≤ Real.pi * (1 / 2 * (1 / 2 ^ t.W)) := by
        rw [f1, pow_add, pow_add]
        have hL : ((t.W + 1 : ℕ) : ℝ) ≤ 2 ^ logIter (t.W + 1) := by
          have : t.W + 1 ≤ 2 ^ logIter (t.W + 1) := by omega
          exact_mod_cast this
        have hLp : (0 : ℝ) < 2 ^ logIter (t.W + 1) := by positivity
        have hpp : (0 : ℝ) < 2 ^ t.W := by positivity
        rw [show ((t.W + 1 : ℕ) : ℝ) * (Real.pi / (2 ^ t.W * 2 ^ 1 * 2 ^ logIter (t.W + 1))) =
          ((t.W + 1 : ℕ) : ℝ) / 2 ^ logIter (t.W + 1) * (Real.pi * (1 / 2 * (1 / 2 ^ t.W))) by field_simp]
        exact mul_le_of_le_one_left (by positivity) ((div_le_one hLp).2 hL)
      have a53 : ((aeSum (t.W + 1) : ℚ) : ℝ) ≤ 1 / 2 ^ 53 := by
        have := Rat.cast_le (K := ℝ) |>.2 (aeSum_mono (n := t.W + 1) (by omega))
        rw [Rat.cast_div, Rat.cast_pow, Rat.cast_one, Rat.cast_ofNat] at this
        exact this
      have l' := mul_le_mul_of_nonneg_left l hpi.le
      rw [← abs_of_pos hpi, ← abs_mul, abs_of_pos hpi, mul_sub] at l'
      have tri := abs_sub_le φ (Real.pi * ((accFmt t).val A : ℚ)) (Real.pi * target)
      have m1 : Real.pi * (1 / 2 ^ t.W) ≤ 3.1416 * (1 / 2 ^ t.W) := mul_le_mul_of_nonneg_right hpi4.le hWp.le
      have m2 : Real.pi * (1 / 2 ^ 64) ≤ 3.1416 * (1 / 2 ^ 64) := mul_le_mul_of_nonneg_right hpi4.le (by positivity)
      have m3 : (3.1416 : ℝ) * (1 / 2 ^ 64) + 1 / 2 ^ 53 ≤ 1 / 2 ^ 52 := by norm_num
      have e1 : Real.pi * (7 / 8 * (1 / 2 ^ t.W) + 1 / 2 ^ 64) + Real.pi * (1 / 2 * (1 / 2 ^ t.W)) =
          11 / 8 * (Real.pi * (1 / 2 ^ t.W)) + Real.pi * (1 / 2 ^ 64) := by ring
      linarith
    have hgain := cK_gain h68 (C : ℝ)
    have hvec : ‖vec t X Y - cK t C * (G (t.W + 1) * Complex.exp (φ * Complex.I))‖ ≤ errV t C := le_trans hv (err_le h1 h68 C)
    have fin : ∀ (p q r : ℝ), |p| ≤ 1 → |p - r| ≤ |φ - Real.pi * target| → |q - cK t C * G (t.W + 1) * p| ≤ errV t C →
        |q - C * r| ≤ |(C : ℝ)| * (lsb t / 16 + 5 / 2 ^ t.W + 1 / 2 ^ 50) + 0.83 * lsb t := by
      intro p q r hp hr hq
      have e : q - C * r = (q - cK t C * G (t.W + 1) * p) + (cK t C * G (t.W + 1) - C) * p + C * (p - r) := by ring
      rw [e]
      refine le_trans (abs_add_three _ _ _) ?_
      rw [abs_mul, abs_mul]
      have c1 : |cK t C * G (t.W + 1) - C| * |p| ≤ |(C : ℝ)| * (1 / 2 ^ 51) :=
        le_trans (mul_le_of_le_one_right (abs_nonneg _) hp) hgain
      have c2 : |(C : ℝ)| * |p - r| ≤ |(C : ℝ)| * (4.5 * (1 / 2 ^ t.W) + 1 / 2 ^ 52) :=
        mul_le_mul_of_nonneg_left (le_trans hr hang) (abs_nonneg _)
      unfold errV at hq
      have c3 : |(C : ℝ)| * (lsb t / 16) + |(C : ℝ)| * (1 / 2 ^ 51) + |(C : ℝ)| * (4.5 * (1 / 2 ^ t.W) + 1 / 2 ^ 52) ≤
          |(C : ℝ)| * (lsb t / 16 + 5 / 2 ^ t.W + 1 / 2 ^ 50) := by
        rw [← mul_add, ← mul_add]
        refine mul_le_mul_of_nonneg_left ?_ (abs_nonneg _)
        have : (1 : ℝ) / 2 ^ 51 + 1 / 2 ^ 52 ≤ 1 / 2 ^ 50 := by norm_num
        have e5 : (5 : ℝ) / 2 ^ t.W = 5 * (1 / 2 ^ t.W) := by ring
        rw [e5]
        linarith
      linarith
    have hexp : (cK t C : ℂ) * (G (t.W + 1) * Complex.exp (φ * Complex.I)) =
        ((cK t C * G (t.W + 1) * Real.cos φ : ℝ) : ℂ) + ((cK t C * G (t.W + 1) * Real.sin φ : ℝ) : ℂ) * Complex.I := by
      rw [Complex.exp_mul_I]; push_cast; ring
  · refine fin (Real.cos φ) _ _ (Real.abs_cos_le_one _) (Real.abs_cos_sub_cos_le _ _) ?_
    rw [hexp] at hvec
    have := le_trans (Complex.abs_re_le_norm _) hvec
    simpa [vec, ← Complex.ofReal_cos, ← Complex.ofReal_sin, -Complex.ofReal_cos, -Complex.ofReal_sin] using this
  · refine fin (Real.sin φ) _ _ (Real.abs_sin_le_one _) (Real.abs_sin_sub_sin_le _ _) ?_
    rw [hexp] at hvec
    have := le_trans (Complex.abs_im_le_norm _) hvec
    simpa [vec, ← Complex.ofReal_cos, ← Complex.ofReal_sin, -Complex.ofReal_cos, -Complex.ofReal_sin] using this

/-- The outputs do not overflow. -/
theorem out_cvt (h1 : 1 ≤ t.W) (hS : t.S = true) {C : ℚ} (hC : Room t C) {v : ℚ}
    (hv : |(v : ℝ)| ≤ |(C : ℝ)| * (1 + lsb t / 16 + 1 / 2 ^ 51) + 0.83 * lsb t) : |(t.cvt v : ℝ) - v| ≤ lsb t := by
  have hl := lsb_pos (t := t)
  have hmono : |(C : ℝ)| * (1 + lsb t / 16 + 1 / 2 ^ 51) ≤ |(C : ℝ)| * (1 + lsb t / 16 + 1 / 2 ^ 50) :=
    mul_le_mul_of_nonneg_left (by norm_num) (abs_nonneg _)
  have hb : |(v : ℝ)| ≤ 2 ^ (t.I - 1) - lsb t := by unfold Room at hC; linarith
  have hbq : |v| ≤ 2 ^ (t.I - 1) - 2 ^ (-t.F) := by
    have : (((|v| : ℚ)) : ℝ) ≤ (((2 : ℚ) ^ (t.I - 1) - 2 ^ (-t.F) : ℚ) : ℝ) := by push_cast; exact hb
    exact_mod_cast this
  obtain ⟨v0, v1⟩ := abs_le.1 hbq
  have hz := Fmt.z_pos t.F
  have hp := half_pow h1
  have hm : (2 : ℚ) ^ (-t.F) * 2 ^ t.F = 1 := by rw [← zpow_add₀ (by norm_num)]; simp
  have r1 : v * 2 ^ t.F ≤ (maxRaw t.W t.S : ℚ) := by
    rw [hS]
    simp only [maxRaw, if_true]
    rw [Int.cast_sub, ← hp, Int.cast_one]
    have := mul_le_mul_of_nonneg_right v1 hz.le
    linarith
  have r0 : (loRaw t.W t.S t.O : ℚ) ≤ v * 2 ^ t.F := by
    have a : (loRaw t.W t.S t.O : ℤ) ≤ -2 ^ (t.W - 1) + 1 := by
      rw [hS]
      cases t.O <;> simp [loRaw, minRaw, maxRaw]
    have a' : ((loRaw t.W t.S t.O : ℤ) : ℚ) ≤ ((-2 ^ (t.W - 1) + 1 : ℤ) : ℚ) := by exact_mod_cast a
    refine le_trans a' ?_
    rw [Int.cast_add, Int.cast_neg, ← hp, Int.cast_one]
    have := mul_le_mul_of_nonneg_right v0 hz.le
    linarith
  have h := (Fmt.cvt_err h1 r0 r1).le
  rw [Rat.cast_id] at h
  have := Rat.cast_le (K := ℝ) |>.2 h
  rw [Rat.cast_abs, Rat.cast_sub, Rat.cast_zpow, Rat.cast_ofNat] at this
  exact this

end Proof.Cordic
