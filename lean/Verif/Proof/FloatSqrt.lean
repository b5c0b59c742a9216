import Verif.Proof.FloatRec
import Verif.Proof.ComplexSqrt
import Verif.Proof.IsqrtPwl
import Verif.Proof.IsqrtVha

/-! # Lemmas for C61 and C62 -/

namespace Proof.FloatSqrt
open Ac Model.Float Model.PwlFixed Proof.Float Proof.PwlFixed

/-- A mantissa that is not negative, without its sign bit. -/
theorem pos_rep {t : FFmt} (hW : 1 ≤ t.W) {m : ℚ} (hm : t.mant.Rep m) (h0 : 0 ≤ m) : (posMant t).Rep m := by
  obtain ⟨r, r0, r1, rfl⟩ := hm
  have hr : 0 ≤ r := by
    by_contra hc
    have : ((r : ℤ) : ℚ) < 0 := by exact_mod_cast not_le.1 hc
    rw [mant_val] at h0
    have := mul_neg_of_neg_of_pos this (Fmt.z_pos (t.I - t.W))
    linarith
  refine ⟨r, by simpa [minRaw, posMant] using hr, by simpa [maxRaw, posMant, FFmt.mant] using r1, ?_⟩
  rw [mant_val]
  unfold Fmt.val Fmt.F posMant
  congr 2
  push_cast [Nat.cast_sub hW]; ring

theorem pos_cvt {t : FFmt} (hW : 2 ≤ t.W) {m : ℚ} (hm : t.mant.Rep m) (h0 : 0 ≤ m) : (posMant t).cvt m = m :=
  Fmt.cvt_rep (by show 1 ≤ t.W - 1; omega) (by simp [posMant]) (pos_rep (by omega) hm h0)

theorem mant_lt {t : FFmt} (hW : 1 ≤ t.W) {m : ℚ} (hm : t.mant.Rep m) : m < 2 ^ (t.I - 1) := by
  obtain ⟨r, -, r1, rfl⟩ := hm
  rw [mant_val]
  have hr : r < 2 ^ (t.W - 1) := by
    have : r ≤ 2 ^ (t.W - 1) - 1 := by simpa [maxRaw, FFmt.mant] using r1
    omega
  have : ((r : ℤ) : ℚ) < ((2 ^ (t.W - 1) : ℤ) : ℚ) := by exact_mod_cast hr
  have := mul_lt_mul_of_pos_right this (Fmt.z_pos (t.I - t.W))
  refine lt_of_lt_of_eq this ?_
  push_cast
  rw [← zpow_natCast, Fmt.z_add]
  congr 1
  push_cast [Nat.cast_sub hW]; ring

/-- The squares of two factors that are close. -/
theorem sq_close {c y m κ η a b : ℚ} (hc : 0 < c) (h1 : a * m ≤ c ^ 2) (h2 : c ^ 2 ≤ b * m) (hη : η ≤ κ) (h0 : 0 ≤ η)
    (h : |y - κ * c| ≤ η * c) : (κ - η) ^ 2 * (a * m) ≤ y ^ 2 ∧ y ^ 2 ≤ (κ + η) ^ 2 * (b * m) := by
  obtain ⟨e1, e2⟩ := abs_le.1 h
  have l : (κ - η) * c ≤ y := by linarith
  have u : y ≤ (κ + η) * c := by linarith
  have l0 : 0 ≤ (κ - η) * c := mul_nonneg (by linarith) hc.le
  have y0 : 0 ≤ y := le_trans l0 l
  constructor
  · calc (κ - η) ^ 2 * (a * m) ≤ (κ - η) ^ 2 * c ^ 2 := mul_le_mul_of_nonneg_left h1 (sq_nonneg _)
      _ = ((κ - η) * c) ^ 2 := by ring
      _ ≤ y ^ 2 := pow_le_pow_left₀ l0 l 2
  · calc y ^ 2 ≤ ((κ + η) * c) ^ 2 := pow_le_pow_left₀ y0 u 2
      _ = (κ + η) ^ 2 * c ^ 2 := by ring
      _ ≤ _ := mul_le_mul_of_nonneg_left h2 (sq_nonneg _)

theorem sq_z (k : ℤ) : ((2 : ℚ) ^ k) ^ 2 = 2 ^ (2 * k) := by rw [pow_two, Fmt.z_add]; congr 1; ring

theorem le_of_sq {a b : ℚ} (hb : 0 ≤ b) (h : a ^ 2 ≤ b ^ 2) : a ≤ b := le_of_sq_le_sq h hb

/-- A positive number below three quarters of the range fits an unsigned type. -/
theorem fit34 {o : Fmt} (hW : 2 ≤ o.W) {x : ℚ} (h : x ≤ 3 / 4 * 2 ^ o.I) : x * 2 ^ o.F ≤ 2 ^ o.W - 1 := by
  have h1 := mul_le_mul_of_nonneg_right h (Fmt.z_pos o.F).le
  rw [mul_assoc, Fmt.z_add, show o.I + o.F = (o.W : ℤ) by unfold Fmt.F; ring, zpow_natCast] at h1
  have : (4 : ℚ) ≤ 2 ^ o.W := by
    calc (4 : ℚ) = 2 ^ 2 := by norm_num
      _ ≤ _ := pow_le_pow_right₀ (by norm_num) hW
  linarith

theorem rt_W {t : FFmt} (hW : 2 ≤ t.W) : 1 ≤ (Model.Complex.rtSqrt (t.W - t.I) (t.I - 1)).W := by
  have : (Model.Complex.rtSqrt (t.W - t.I) (t.I - 1)).W =
      (Model.Complex.rtI (t.I - 1) + Model.Complex.rtF (t.W - t.I)).toNat := rfl
  rw [this, Proof.ComplexSqrt.rtI_eq, Proof.ComplexSqrt.rtF_eq]
  split_ifs <;> omega

/-- The square root of the mantissa and the factor for odd exponents. -/
theorem sqrt_mant (q : QMode) {t : FFmt} (hW : 2 ≤ t.W) {m : ℚ} (hm : t.mant.Rep m) (hn : 2 ^ (t.I - 2) ≤ m) (d : Dst) (e : ℤ) :
    ∃ c y : ℚ, sqrtPwl q t d m e = some (d.cvt (y * 2 ^ (e / 2))) ∧ 0 < c ∧ |c ^ 2 - m| ≤ m / 440 ∧
      |y - (if e % 2 = 0 then 1 else Model.Float.root2) * c| ≤ 1 / 262144 * c := by
  have hz2 := Fmt.z_pos (t.I - 2)
  have hm0 : 0 < m := lt_of_lt_of_le hz2 hn
  have hrep := pos_rep (by omega) hm hm0.le
  have hpW : 1 ≤ (posMant t).W := by show 1 ≤ t.W - 1; omega
  have hc : false = true ∨ (2 : ℚ) ^ ((posMant t).I - 1) ≤ m :=
    Or.inr (by show (2 : ℚ) ^ (t.I - 1 - 1) ≤ m; rw [show t.I - 1 - 1 = t.I - 2 by ring]; exact hn)
  have hmI := mant_lt (by omega) hm
  set f2 := Model.Complex.rtSqrt (t.W - t.I) (t.I - 1) with hf2
  have hI2 : f2.I = if t.I % 2 = 0 then t.I / 2 else (t.I - 1) / 2 + 1 := by
    rw [hf2]; unfold Model.Complex.rtSqrt; simp only; rw [Proof.ComplexSqrt.rtI_eq]; split_ifs <;> omega
  have hWz : (f2.W : ℤ) = f2.I + ((t.W - t.I) / 2 + 22) := by
    have : f2.W = (f2.I + ((t.W - t.I) / 2 + 22)).toNat := by
      rw [hf2]; unfold Model.Complex.rtSqrt; simp only; rw [Proof.ComplexSqrt.rtF_eq]
    rw [this, hI2]
    split_ifs <;> omega
  have hF2 : f2.F = (t.W - t.I) / 2 + 22 := by unfold Fmt.F; rw [hWz]; ring
  have hf2W : 20 ≤ f2.W := by
    rw [hI2] at hWz
    split_ifs at hWz <;> omega
  obtain ⟨ce, c0⟩ := Proof.SqrtPwl.core_err (q := q) (cn := false) hpW rfl hrep hm0 hc
  have hsq := Proof.SqrtPwl.sqrt_eq q false (out := f2) hpW rfl (by omega) rfl hrep hm0 hc
  set c := Proof.SqrtPwl.core q false (posMant t) m
  obtain ⟨ce1, ce2⟩ := abs_le.1 ce
  -- range
  have hcu : c ≤ 18 / 25 * 2 ^ f2.I := by
    apply le_of_sq (mul_nonneg (by norm_num) (Fmt.z_pos _).le)
    rw [mul_pow, sq_z]
    have : (2 : ℚ) ^ (t.I - 1) ≤ 1 / 2 * 2 ^ (2 * f2.I) := by
      have a := Fmt.z_le (show t.I - 1 + 1 ≤ 2 * f2.I by rw [hI2]; split_ifs <;> omega)
      rw [Fmt.z_succ] at a
      linarith
    nlinarith
  have hcu' : t.I % 2 ≠ 0 → c ≤ 51 / 100 * 2 ^ f2.I := by
    intro ho
    apply le_of_sq (mul_nonneg (by norm_num) (Fmt.z_pos _).le)
    rw [mul_pow, sq_z]
    have : (2 : ℚ) ^ (t.I - 1) ≤ 1 / 4 * 2 ^ (2 * f2.I) := by
      have a := Fmt.z_le (show t.I - 1 + 1 + 1 ≤ 2 * f2.I by rw [hI2, if_neg ho]; omega)
      rw [Fmt.z_succ, Fmt.z_succ] at a
      linarith
    nlinarith
  have hu0 := Fmt.z_pos (-f2.F)
  -- resolution
  have hcl : 2 ^ (-f2.F) ≤ 1 / 1048576 * c := by
    apply le_of_sq (mul_nonneg (by norm_num) c0.le)
    rw [mul_pow, sq_z]
    have a : (2 : ℚ) ^ (2 * -f2.F) ≤ 2 ^ (t.I - 2 - 41) := Fmt.z_le (by rw [hF2]; omega)
    rw [zpow_sub₀ (by norm_num)] at a
    norm_num at a ⊢
    linarith
  obtain ⟨-, -, m2e⟩ := cvt_fit (o := f2) (x := c) (by omega) rfl rfl c0.le (fit34 (by omega) (by
    have := Fmt.z_pos f2.I; linarith))
  set m2 := f2.cvt c
  obtain ⟨m2e1, m2e2⟩ := abs_lt.1 m2e
  have hm20 : 0 ≤ m2 := by
    have : (1 : ℚ) / 1048576 * c ≤ c := by linarith
    linarith
  set x : ℕ := if t.I.tmod 2 = 0 then 1 else 0 with hx
  set f3 : Fmt := ⟨f2.W + x, f2.I + x, false, .TRN, .WRAP⟩ with hf3
  have hF3 : f3.F = f2.F := by rw [hf3]; unfold Fmt.F; push_cast; ring
  have hI3 : (2 : ℚ) ^ f3.I = 2 ^ f2.I * 2 ^ x := by rw [hf3]; show (2 : ℚ) ^ (f2.I + (x : ℤ)) = _; rw [← zpow_natCast, Fmt.z_add]
  have hz := Fmt.z_pos f2.I
  have hulp : 2 ^ (-f2.F) ≤ 1 / 1048576 * (2 : ℚ) ^ f2.I := by
    refine le_trans hcl (mul_le_mul_of_nonneg_left ?_ (by norm_num))
    linarith
  have hfit : m2 * Model.Float.root2 ≤ 3 / 4 * 2 ^ f3.I := by
    rw [hI3]
    unfold Model.Float.root2
    by_cases hev : t.I % 2 = 0
    · have : x = 1 := by rw [hx, if_pos ((Proof.SqrtPwl.tmod_two _).2 hev)]
      rw [this]; simp only [pow_one, pow_zero]; linarith
    · have : x = 0 := by rw [hx, if_neg (fun h => hev ((Proof.SqrtPwl.tmod_two _).1 h))]
      have := hcu' hev
      rw [‹x = 0›]; simp only [pow_one, pow_zero]; linarith
  have hfit' : m2 ≤ 3 / 4 * 2 ^ f3.I := by
    refine le_trans ?_ hfit
    unfold Model.Float.root2; linarith
  refine ⟨c, if e % 2 = 0 then f3.cvt m2 else f3.cvt (m2 * Model.Float.root2), ?_, c0, ce, ?_⟩
  · unfold sqrtPwl
    rw [pos_cvt hW hm hm0.le]
    simp only [← hf2, hsq]
    simp only [Option.bind_eq_bind, Option.bind_some, Proof.SqrtPwl.tmod_two e]
    rfl
  · have hf3W : 2 ≤ f3.W := by rw [hf3]; show 2 ≤ f2.W + x; omega
    split_ifs with he
    · obtain ⟨-, -, m3e⟩ := cvt_fit (o := f3) (x := m2) (by omega) rfl rfl hm20 (fit34 hf3W hfit')
      rw [hF3] at m3e
      obtain ⟨p1, p2⟩ := abs_lt.1 m3e
      rw [abs_le]; constructor <;> linarith
    · obtain ⟨-, -, m3e⟩ := cvt_fit (o := f3) (x := m2 * Model.Float.root2) (by omega) rfl rfl
        (mul_nonneg hm20 (by unfold Model.Float.root2; norm_num)) (fit34 hf3W hfit)
      rw [hF3] at m3e
      obtain ⟨p1, p2⟩ := abs_lt.1 m3e
      unfold Model.Float.root2 at *
      rw [abs_le]; constructor <;> linarith

/-- The square of the result against the number. -/
theorem sqrt_err (q : QMode) {t : FFmt} (hW : 2 ≤ t.W) {m : ℚ} (hm : t.mant.Rep m) (hn : 2 ^ (t.I - 2) ≤ m) (d : Dst) (e : ℤ) :
    ∃ y : ℚ, sqrtPwl q t d m e = some (d.cvt y) ∧ 0 < y ∧ |y ^ 2 - m * 2 ^ e| ≤ m * 2 ^ e / 430 := by
  obtain ⟨c, y, h1, c0, ce, ye⟩ := sqrt_mant q hW hm hn d e
  have hm0 : 0 < m := lt_of_lt_of_le (Fmt.z_pos _) hn
  obtain ⟨ce1, ce2⟩ := abs_le.1 ce
  have hz := Fmt.z_pos (e / 2)
  have hz2 : (0 : ℚ) < (2 ^ (e / 2)) ^ 2 := by positivity
  refine ⟨_, h1, ?_, ?_⟩
  · apply mul_pos _ hz
    obtain ⟨y1, -⟩ := abs_le.1 ye
    split_ifs at y1
    · norm_num at y1; linarith
    · unfold Model.Float.root2 at y1; norm_num at y1; linarith
  · rcases Proof.SqrtPwl.half_exp e with ⟨he, hp⟩ | ⟨he, hp⟩
    · rw [if_pos he] at ye
      obtain ⟨s1, s2⟩ := sq_close (m := m) (a := 439 / 440) (b := 441 / 440) c0 (by linarith) (by linarith) (by norm_num) (by norm_num) ye
      norm_num at s1 s2
      rw [hp, mul_pow, ← sub_mul, abs_mul, abs_of_pos hz2, mul_div_right_comm]
      apply mul_le_mul_of_nonneg_right _ hz2.le
      rw [abs_le]; constructor <;> linarith
    · rw [if_neg (by omega)] at ye
      obtain ⟨s1, s2⟩ := sq_close (m := m) (a := 439 / 440) (b := 441 / 440) c0 (by linarith) (by linarith)
        (by unfold Model.Float.root2; norm_num) (by norm_num) ye
      unfold Model.Float.root2 at s1 s2
      norm_num at s1 s2
      rw [hp, mul_pow, show m * (2 * (2 ^ (e / 2)) ^ 2) = (2 * m) * (2 ^ (e / 2)) ^ 2 by ring, ← sub_mul, abs_mul,
        abs_of_pos hz2, mul_div_right_comm]
      apply mul_le_mul_of_nonneg_right _ hz2.le
      rw [abs_le]; constructor <;> linarith

end Proof.FloatSqrt
