import Verif.Model.Complex
import Verif.Proof.Reciprocal
import Verif.Proof.PwlHa
import Verif.Props.Reciprocal
import Verif.Props.ReciprocalHa

/-! # Complex numbers: the squared magnitude and the reciprocals -/

namespace Proof.Complex
open Ac Model.Complex

variable {f fm out : Fmt} {a b : ℚ}

/-- The squared magnitude on the grid of the input. -/
theorem m_raw (ha : f.Rep a) (hb : f.Rep b) : ∃ r s : ℤ, a = f.val r ∧ b = f.val s ∧
    minRaw f.W f.S ≤ r ∧ r ≤ maxRaw f.W f.S ∧ minRaw f.W f.S ≤ s ∧ s ≤ maxRaw f.W f.S ∧
    a ^ 2 + b ^ 2 = ((r ^ 2 + s ^ 2 : ℤ) : ℚ) * 2 ^ (-(2 * f.F)) := by
  obtain ⟨r, r0, r1, rfl⟩ := ha
  obtain ⟨s, s0, s1, rfl⟩ := hb
  refine ⟨r, s, rfl, rfl, r0, r1, s0, s1, ?_⟩
  have : (2 : ℚ) ^ (-(2 * f.F)) = 2 ^ (-f.F) * 2 ^ (-f.F) := by rw [Fmt.z_add]; congr 1; ring
  unfold Fmt.val; rw [this]; push_cast; ring

theorem m_rep (hW : 1 ≤ fm.W) (hF : fm.F = 2 * f.F) (hS : fm.S = false) (ha : f.Rep a) (hb : f.Rep b)
    (hm : a ^ 2 + b ^ 2 < 2 ^ fm.I) : fm.Rep (a ^ 2 + b ^ 2) := by
  obtain ⟨r, s, -, -, -, -, -, -, e⟩ := m_raw ha hb
  have h0 : 0 ≤ r ^ 2 + s ^ 2 := by positivity
  refine ⟨r ^ 2 + s ^ 2, by simpa [minRaw, hS] using h0, ?_, by rw [e]; unfold Fmt.val; rw [hF]⟩
  have h1 : ((r ^ 2 + s ^ 2 : ℤ) : ℚ) < 2 ^ (fm.W : ℤ) := by
    rw [e] at hm
    have := mul_lt_mul_of_pos_right hm (Fmt.z_pos (2 * f.F))
    rw [mul_assoc, Fmt.z_add, Fmt.z_add, ← hF, neg_add_cancel, zpow_zero, mul_one,
      show fm.I + fm.F = (fm.W : ℤ) by unfold Fmt.F; ring] at this
    exact this
  rw [zpow_natCast] at h1
  have h2 : r ^ 2 + s ^ 2 < 2 ^ fm.W := by exact_mod_cast h1
  simp only [maxRaw, hS]
  simpa using Int.le_sub_one_of_lt h2

theorem magSqr_eq (hW : 1 ≤ fm.W) (hO : fm.O ≠ .SAT_SYM) (h : fm.Rep (a ^ 2 + b ^ 2)) : magSqr fm a b = a ^ 2 + b ^ 2 :=
  by unfold magSqr; rw [← pow_two, ← pow_two]; exact Fmt.cvt_rep hW hO h

theorem m_low (ha : f.Rep a) (hb : f.Rep b) (h : a ≠ 0 ∨ b ≠ 0) : 2 ^ (-(2 * f.F)) ≤ a ^ 2 + b ^ 2 := by
  obtain ⟨r, s, hr, hs, -, -, -, -, e⟩ := m_raw ha hb
  have h1 : 1 ≤ r ^ 2 + s ^ 2 := by
    rcases h with h | h
    · have : r ≠ 0 := by rintro rfl; exact h (by rw [hr]; simp [Fmt.val])
      have : 0 < r ^ 2 := by positivity
      have : 0 ≤ s ^ 2 := by positivity
      omega
    · have : s ≠ 0 := by rintro rfl; exact h (by rw [hs]; simp [Fmt.val])
      have : 0 < s ^ 2 := by positivity
      have : 0 ≤ r ^ 2 := by positivity
      omega
  have h2 : (1 : ℚ) ≤ ((r ^ 2 + s ^ 2 : ℤ) : ℚ) := by exact_mod_cast h1
  rw [e]
  exact le_mul_of_one_le_left (Fmt.z_pos _).le h2

theorem abs_rep (hW : 1 ≤ f.W) (ha : f.Rep a) : |a| ≤ 2 ^ (f.I - (if f.S then 1 else 0)) := by
  obtain ⟨r, r0, r1, rfl⟩ := ha
  have hp := two_pow_succ_pred hW
  have hp0 : (0 : ℤ) < 2 ^ (f.W - 1) := by positivity
  have h : |r| ≤ 2 ^ (f.W - (if f.S then 1 else 0)) := by
    cases hS : f.S <;> simp only [minRaw, maxRaw, hS] at r0 r1 ⊢ <;> simp only [Bool.false_eq_true, if_false, if_true] at r0 r1 ⊢
      <;> rw [abs_le] <;> constructor <;> (try simp only [Nat.sub_zero]) <;> omega
  have h' : |(r : ℚ)| ≤ 2 ^ ((f.W : ℤ) - (if f.S then 1 else 0)) := by
    have h3 : ((|r| : ℤ) : ℚ) ≤ ((2 ^ (f.W - (if f.S then 1 else 0)) : ℤ) : ℚ) := by exact_mod_cast h
    push_cast at h3
    rw [show (f.W : ℤ) - (if f.S then 1 else 0) = ((f.W - (if f.S then 1 else 0) : ℕ) : ℤ) by split_ifs <;> omega,
      zpow_natCast]
    exact h3
  unfold Fmt.val
  rw [abs_mul, abs_of_pos (Fmt.z_pos _)]
  calc |(r : ℚ)| * 2 ^ (-f.F) ≤ 2 ^ ((f.W : ℤ) - (if f.S then 1 else 0)) * 2 ^ (-f.F) :=
        mul_le_mul_of_nonneg_right h' (Fmt.z_pos _).le
    _ = 2 ^ (f.I - (if f.S then 1 else 0)) := by rw [Fmt.z_add]; congr 1; unfold Fmt.F; ring

theorem m_up (hW : 1 ≤ f.W) (ha : f.Rep a) (hb : f.Rep b) : a ^ 2 + b ^ 2 ≤ 2 ^ I1 f := by
  have h1 := abs_rep hW ha
  have h2 := abs_rep hW hb
  set k := f.I - (if f.S then 1 else 0) with hk
  have e1 : a ^ 2 ≤ 2 ^ (k + k) := by
    rw [← Fmt.z_add, ← sq_abs, pow_two]; exact mul_le_mul h1 h1 (abs_nonneg _) (Fmt.z_pos _).le
  have e2 : b ^ 2 ≤ 2 ^ (k + k) := by
    rw [← Fmt.z_add, ← sq_abs, pow_two]; exact mul_le_mul h2 h2 (abs_nonneg _) (Fmt.z_pos _).le
  have e3 : (2 : ℚ) ^ I1 f = 2 * 2 ^ (k + k) := by
    rw [← Fmt.z_succ]; congr 1; unfold I1; rw [hk]; split_ifs <;> ring
  rw [e3]; linarith

/-- From the absolute error of the stored reciprocal to the relative one. -/
theorem rel_of_abs {c m e : ℚ} {F J : ℤ} {k : ℕ} (hm : 0 < m) (hmJ : m ≤ 2 ^ J) (hF : J + k ≤ F)
    (h : |c - 1 / m| < e / m + 2 ^ (-F)) : |c * m - 1| < e + 1 / 2 ^ k := by
  have h1 : m * 2 ^ (-F) ≤ 1 / 2 ^ k := by
    calc m * 2 ^ (-F) ≤ 2 ^ J * 2 ^ (-F) := mul_le_mul_of_nonneg_right hmJ (Fmt.z_pos _).le
      _ = 2 ^ (J - F) := by rw [Fmt.z_add]; rfl
      _ ≤ 2 ^ (-(k : ℤ)) := Fmt.z_le (by omega)
      _ = 1 / 2 ^ k := by rw [zpow_neg, zpow_natCast, one_div]
  have h2 : |c * m - 1| = |c - 1 / m| * m := by
    rw [← abs_of_pos hm, ← abs_mul, abs_of_pos hm]; congr 1; field_simp
  rw [h2]
  calc |c - 1 / m| * m < (e / m + 2 ^ (-F)) * m := mul_lt_mul_of_pos_right h hm
    _ = e + m * 2 ^ (-F) := by field_simp
    _ ≤ _ := by linarith

theorem W1_F (hW : 1 ≤ f.W) : (W1 f : ℤ) - I1 f = 2 * f.F := by
  unfold W1 I1 Fmt.F; split_ifs <;> push_cast <;> omega

theorem scIn_pos (lg n : ℕ) : 1 ≤ scIn lg n f := by unfold scIn Model.PwlFixed.scBits; omega

/-- The largest value of the type of the stored reciprocal. -/
theorem rec_max {o : Fmt} (hS : o.S = false) : o.maxVal = 2 ^ o.I - 2 ^ (-o.F) := by
  unfold Fmt.maxVal Fmt.val
  have e : (2 : ℚ) ^ o.I = 2 ^ (o.W : ℤ) * 2 ^ (-o.F) := by rw [Fmt.z_add]; congr 1; unfold Fmt.F; ring
  rw [e, zpow_natCast]
  simp only [maxRaw, hS]
  push_cast; simp; ring

theorem scaleConj_pos (h : a ≠ 0 ∨ b ≠ 0) (c : ℚ) : scaleConj out a b c = (out.cvt (a * c), out.cvt (-b * c)) := by
  unfold scaleConj; rw [if_pos h]

/-- A nonnegative number within the range is stored with an error below one unit. -/
theorem cvt_near {o : Fmt} (ho : 1 ≤ o.W) {r : ℚ} (h0 : 0 ≤ r) (h1 : r ≤ o.maxVal) : |o.cvt r - r| < 2 ^ (-o.F) := by
  have hz := Fmt.z_pos o.F
  have hmax : r * 2 ^ o.F ≤ maxRaw o.W o.S := by
    have := mul_le_mul_of_nonneg_right h1 hz.le
    unfold Fmt.maxVal at this
    rwa [Fmt.val_mul_pow] at this
  have hlo : (loRaw o.W o.S o.O : ℚ) ≤ r * 2 ^ o.F := by
    have h2 : (loRaw o.W o.S o.O : ℚ) ≤ 0 := by exact_mod_cast loRaw_nonpos o.W o.S o.O
    exact le_trans h2 (mul_nonneg h0 hz.le)
  simpa using Fmt.cvt_err ho hlo hmax

/-- The type of the stored reciprocal is wide enough at the top. -/
theorem rec_fit (hW : 1 ≤ f.W) (lg : ℕ) {n : ℕ} (hn : 10 ≤ n) {m e : ℚ} (hm : 2 ^ (-(2 * f.F)) ≤ m) (he : 0 ≤ e) (he' : e ≤ 1 / 512) :
    (1 + e) / m ≤ (recFmt lg n f out).maxVal := by
  have hz := Fmt.z_pos (-(2 * f.F))
  have hm0 : 0 < m := by linarith
  have h1 : (1 + e) / m ≤ (1 + e) * 2 ^ (2 * f.F) := by
    rw [div_le_iff₀ hm0, mul_assoc]
    have : (1 : ℚ) ≤ 2 ^ (2 * f.F) * m := by
      have := mul_le_mul_of_nonneg_left hm (Fmt.z_pos (2 * f.F)).le
      rwa [Fmt.z_add, add_neg_cancel, zpow_zero] at this
    exact le_mul_of_one_le_right (by linarith) this
  refine le_trans h1 ?_
  rw [rec_max rfl]
  have hI : (recFmt lg n f out).I = 2 * f.F + 1 := by unfold recFmt; simp only; rw [W1_F hW]
  have hFF : -(recFmt lg n f out).F ≤ 2 * f.F - 10 := by
    have := W1_F hW
    have hs := scIn_pos (f := f) lg n
    unfold Fmt.F at hI ⊢
    rw [hI]
    have : ((recFmt lg n f out).W : ℤ) = W1 f + scIn lg n f + n + (if f.S then 0 else 1) := by
      unfold recFmt; push_cast; rfl
    have h0 : (0 : ℤ) ≤ (if f.S then 0 else 1) := by split_ifs <;> omega
    have : (0 : ℤ) ≤ W1 f := by omega
    omega
  have h2 : (2 : ℚ) ^ (-(recFmt lg n f out).F) ≤ 2 ^ (2 * f.F) * (1 / 1024) := by
    refine le_trans (Fmt.z_le hFF) (le_of_eq ?_)
    rw [show (1 / 1024 : ℚ) = 2 ^ (-10 : ℤ) by norm_num, Fmt.z_add]; rfl
  rw [hI, Fmt.z_succ]
  have hz' := Fmt.z_pos (2 * f.F)
  have : (1 + e) * 2 ^ (2 * f.F) ≤ (1 + 1 / 512) * 2 ^ (2 * f.F) := mul_le_mul_of_nonneg_right (by linarith) hz'.le
  linarith

theorem rec_F (lg n : ℕ) : I1 f + n ≤ (recFmt lg n f out).F := by
  have := scIn_pos (f := f) lg n
  unfold Fmt.F recFmt; simp only; push_cast
  split_ifs <;> omega

theorem rec_F' (lg n : ℕ) : I1 f + (n + 1 : ℕ) ≤ (recFmtVha lg n f out).F := by
  have := scIn_pos (f := f) lg n
  unfold Fmt.F recFmtVha; simp only; push_cast
  omega

open Proof.PwlHa in
/-- The third version: the type of the stored reciprocal has one integer bit less, and no value needs it. -/
theorem vha_err (q : QMode) (hW : 1 ≤ f.W) (hWm : 1 ≤ fm.W) {m : ℚ} (hrep : fm.Rep m) (hl : 2 ^ (-(2 * f.F)) ≤ m) (hm : 0 < m) :
    ∃ y, Model.PwlHa.reciprocalVha q true fm (recFmtVha 7 16 f out) m = some y ∧
      |y - 1 / m| < 1 / 30000 / m + 2 ^ (-(recFmtVha 7 16 f out).F) := by
  set o := recFmtVha 7 16 f out with ho
  have hs := scIn_pos (f := f) 7 16
  have hoW : 17 ≤ o.W := by rw [ho]; simp only [recFmtVha]; omega
  have hoS : o.S = false := rfl
  have hI : o.I = 2 * f.F := by rw [ho]; unfold recFmtVha; simp only; rw [W1_F hW]
  refine ⟨_, recip_eq goodVha (by norm_num) q hWm (by omega) hrep hm.ne' (Or.inl rfl), ?_⟩
  obtain ⟨c1, c2⟩ := core_pos goodVha (cn := true) hWm hrep hm.ne' (Or.inl rfl)
  obtain ⟨a1, a2, a3, -⟩ := norm_facts (cn := true) hWm hrep hm.ne' (Or.inl rfl) 0
  rw [if_neg (fun c => absurd c.2 (by linarith))]
  have hcore : core Model.PwlHa.vhaM Model.PwlHa.vhaC 16 6 true fm |m| ≤ 131068 / 131072 * 2 ^ (2 * f.F) := by
    unfold core
    rw [abs_of_pos hm] at *
    set n := (Model.PwlHa.recNorm true fm m).1
    set e := (Model.PwlHa.recNorm true fm m).2
    obtain ⟨-, -, b3⟩ := g_bounds goodVha a2 a3
    have he : -e ≤ 2 * f.F - 1 := by
      by_contra hc
      push Not at hc
      have h1 : m < 2 ^ (-(2 * f.F)) := by
        rw [a1]
        calc n * 2 ^ e < 1 * 2 ^ e := mul_lt_mul_of_pos_right a3 (Fmt.z_pos _)
          _ = 2 ^ e := one_mul _
          _ ≤ 2 ^ (-(2 * f.F)) := Fmt.z_le (by omega)
      linarith
    have hz : (2 : ℚ) ^ (2 * f.F) = 2 * 2 ^ (2 * f.F - 1) := by rw [← Fmt.z_succ]; congr 1; ring
    calc g Model.PwlHa.vhaM Model.PwlHa.vhaC 16 6 n * 2 ^ (-e) ≤ ((131068 : ℤ) / 2 ^ 16 : ℚ) * 2 ^ (-e) :=
          mul_le_mul_of_nonneg_right (by exact_mod_cast b3) (Fmt.z_pos _).le
      _ ≤ ((131068 : ℤ) / 2 ^ 16 : ℚ) * 2 ^ (2 * f.F - 1) := mul_le_mul_of_nonneg_left (Fmt.z_le he) (by norm_num)
      _ = _ := by rw [hz]; push_cast; ring
  rw [abs_of_pos hm] at c1 c2 hcore ⊢
  set r := core Model.PwlHa.vhaM Model.PwlHa.vhaC 16 6 true fm m
  have hmx : r ≤ o.maxVal := by
    refine le_trans hcore ?_
    rw [rec_max hoS, hI]
    have h1 : (2 : ℚ) ^ (-o.F) ≤ 2 ^ (2 * f.F) * (1 / 2 ^ 17) := by
      rw [show (1 / 2 ^ 17 : ℚ) = 2 ^ (-17 : ℤ) by norm_num, Fmt.z_add]
      exact Fmt.z_le (by unfold Fmt.F at hI ⊢; rw [hI]; omega)
    have := Fmt.z_pos (2 * f.F)
    linarith
  have e2 := cvt_near (by omega) c2.le hmx
  have e3 : |r - 1 / m| ≤ 1 / 30000 / m := by
    have h1 : r - 1 / m = (r * m - 1) / m := by field_simp
    rw [h1, abs_div, abs_of_pos hm]
    exact div_le_div_of_nonneg_right (le_trans c1 (by norm_num)) hm.le
  calc |o.cvt r - 1 / m| ≤ |o.cvt r - r| + |r - 1 / m| := abs_sub_le _ _ _
    _ < _ := by linarith

end Proof.Complex
