import Verif.Proof.Complex
import Verif.Props.DivFixed
import Mathlib.Tactic.LinearCombination

/-! # The quotient of two complex numbers -/

namespace Proof.ComplexDiv
open Ac Model.Complex Proof.Complex

variable {fn fd fq : Fmt} {a b c d : ℚ}

theorem raw_abs {W : ℕ} (hW : 1 ≤ W) {S : Bool} {r : ℤ} (h0 : minRaw W S ≤ r) (h1 : r ≤ maxRaw W S) : |r| ≤ 2 ^ W - 1 := by
  have hp := two_pow_succ_pred hW
  have hp0 : (0 : ℤ) < 2 ^ (W - 1) := by positivity
  cases S <;> simp only [minRaw, maxRaw, Bool.false_eq_true, if_false, if_true] at h0 h1 <;> rw [abs_le] <;> constructor <;> omega

/-- The sum of the squares fits its type. -/
theorem den_rep (hW : 1 ≤ fd.W) (hc : fd.Rep c) (hd : fd.Rep d) : ∃ D : ℤ, c ^ 2 + d ^ 2 = (denFmt fd).val D ∧ 0 ≤ D ∧
    D < 2 ^ ((denFmt fd).W - 1) ∧ (D = 0 → c = 0 ∧ d = 0) := by
  obtain ⟨r, s, hr, hs, r0, r1, s0, s1, e⟩ := m_raw hc hd
  have hF : (denFmt fd).F = 2 * fd.F := by unfold denFmt Fmt.F; push_cast; ring
  refine ⟨r ^ 2 + s ^ 2, by rw [e]; unfold Fmt.val; rw [hF], by positivity, ?_, ?_⟩
  · have h1 := raw_abs hW r0 r1
    have h2 := raw_abs hW s0 s1
    have e1 : (2 : ℤ) ^ ((denFmt fd).W - 1) = 2 * (2 ^ fd.W * 2 ^ fd.W) := by
      have : (denFmt fd).W - 1 = fd.W + fd.W + 1 := by unfold denFmt; simp only; omega
      rw [this, pow_succ, pow_add]; ring
    have hp : (0 : ℤ) < 2 ^ fd.W := by positivity
    have h3 : r ^ 2 ≤ (2 ^ fd.W - 1) * (2 ^ fd.W - 1) := by
      rw [← sq_abs, pow_two]; exact mul_le_mul h1 h1 (abs_nonneg _) (by omega)
    have h4 : s ^ 2 ≤ (2 ^ fd.W - 1) * (2 ^ fd.W - 1) := by
      rw [← sq_abs, pow_two]; exact mul_le_mul h2 h2 (abs_nonneg _) (by omega)
    have h5 : ((2 : ℤ) ^ fd.W - 1) * (2 ^ fd.W - 1) = 2 ^ fd.W * 2 ^ fd.W - 2 * 2 ^ fd.W + 1 := by ring
    rw [e1]; linarith
  · intro h
    have p1 := sq_nonneg r
    have p2 := sq_nonneg s
    have h1 : r ^ 2 = 0 := by omega
    have h2 : s ^ 2 = 0 := by omega
    have h3 : r = 0 := by simpa using h1
    have h4 : s = 0 := by simpa using h2
    rw [hr, hs, h3, h4]; simp [Fmt.val]

theorem den_cvt (hW : 1 ≤ fd.W) {D : ℤ} (h0 : 0 ≤ D) (h1 : D < 2 ^ ((denFmt fd).W - 1)) :
    (denFmt fd).raw ((denFmt fd).cvt ((denFmt fd).val D)) = D := by
  have e1 : (denFmt fd).S = true := rfl
  have e2 : (denFmt fd).O = .WRAP := rfl
  have hp : (0 : ℤ) < 2 ^ ((denFmt fd).W - 1) := by positivity
  rw [Fmt.cvt_val (by unfold denFmt; simp), Fmt.raw_val]
  · rw [e1, e2]; simp only [loRaw, minRaw, if_true]; simp; omega
  · rw [e1]; simp only [maxRaw, if_true]; omega

theorem prod_cvt {x : ℚ} (h : (prodFmt fd fq).Rep x) : ∃ N : ℤ, x = (prodFmt fd fq).val N ∧
    -2 ^ ((prodFmt fd fq).W - 1) ≤ N ∧ N < 2 ^ ((prodFmt fd fq).W - 1) ∧
    (prodFmt fd fq).raw ((prodFmt fd fq).cvt x) = N := by
  obtain ⟨N, n0, n1, e⟩ := id h
  have e1 : (prodFmt fd fq).S = true := rfl
  refine ⟨N, e, ?_, ?_, ?_⟩
  · rw [e1] at n0; simpa [minRaw] using n0
  · rw [e1] at n1; simp only [maxRaw, if_true] at n1; omega
  · rw [Fmt.cvt_rep (by unfold prodFmt; simp) (by unfold prodFmt; simp) h, e, Fmt.raw_val]

/-- A product fits when the quotient type is at least as wide as the dividend type. -/
theorem prod_rep (hdW : 1 ≤ fd.W) (hF : fn.F ≤ fq.F) (hI : fn.I + (if fn.S then 0 else 1) ≤ fq.I)
    (hq : 1 ≤ fq.W) {x y u v : ℚ} (hx1 : |x| ≤ 2 ^ (fn.I - if fn.S then 1 else 0))
    (hy1 : |y| ≤ 2 ^ (fn.I - if fn.S then 1 else 0)) (hx : ∃ r, x = fn.val r) (hy : ∃ r, y = fn.val r)
    (hu : fd.Rep u) (hv : fd.Rep v) : (prodFmt fd fq).Rep (x * u + y * v) := by
  have hu1 := abs_rep hdW hu
  have hv1 := abs_rep hdW hv
  have hPF : (prodFmt fd fq).F = fq.F + fd.F := by unfold prodFmt Fmt.F; push_cast; ring
  obtain ⟨x', ex⟩ := hx
  obtain ⟨y', ey⟩ := hy
  obtain ⟨u', -, -, eu⟩ := hu
  obtain ⟨v', -, -, ev⟩ := hv
  obtain ⟨k, hk⟩ : ∃ k : ℕ, fq.F = fn.F + k := ⟨(fq.F - fn.F).toNat, by omega⟩
  have e : x * u + y * v = (prodFmt fd fq).val ((x' * u' + y' * v') * 2 ^ k) := by
    rw [ex, ey, eu, ev]; unfold Fmt.val; rw [hPF, hk]
    have : (2 : ℚ) ^ (-fn.F) * 2 ^ (-fd.F) = 2 ^ k * 2 ^ (-(fn.F + (k : ℤ) + fd.F)) := by
      rw [← zpow_natCast (2 : ℚ) k, Fmt.z_add, Fmt.z_add]; congr 1; ring
    push_cast
    linear_combination (x' * u' + y' * v' : ℚ) * this
  have hb : |x * u + y * v| ≤ 2 ^ (fq.I + fd.I) := by
    set p := fn.I - (if fn.S then 1 else 0) with hp
    set r := fd.I - (if fd.S then 1 else 0) with hr
    have h1 : |x * u| ≤ 2 ^ (p + r) := by
      rw [abs_mul, ← Fmt.z_add]; exact mul_le_mul hx1 hu1 (abs_nonneg _) (Fmt.z_pos _).le
    have h2 : |y * v| ≤ 2 ^ (p + r) := by
      rw [abs_mul, ← Fmt.z_add]; exact mul_le_mul hy1 hv1 (abs_nonneg _) (Fmt.z_pos _).le
    calc |x * u + y * v| ≤ |x * u| + |y * v| := abs_add_le _ _
      _ ≤ 2 * 2 ^ (p + r) := by linarith
      _ = 2 ^ (p + r + 1) := (Fmt.z_succ _).symm
      _ ≤ _ := Fmt.z_le (by rw [hp, hr]; split_ifs at * <;> omega)
  set K := (x' * u' + y' * v') * 2 ^ k with hK
  have hKb : |K| < 2 ^ ((prodFmt fd fq).W - 1) := by
    rw [e] at hb
    unfold Fmt.val at hb
    rw [abs_mul, abs_of_pos (Fmt.z_pos _)] at hb
    have h3 := mul_le_mul_of_nonneg_right hb (Fmt.z_pos (prodFmt fd fq).F).le
    rw [mul_assoc, Fmt.z_add, Fmt.z_add, neg_add_cancel, zpow_zero, mul_one] at h3
    have h4 : (2 : ℚ) ^ (fq.I + fd.I + (prodFmt fd fq).F) < 2 ^ ((prodFmt fd fq).W - 1) := by
      rw [← zpow_natCast]
      refine zpow_lt_zpow_right₀ (by norm_num) ?_
      unfold prodFmt Fmt.F; simp only; omega
    have h5 : |(K : ℚ)| < 2 ^ ((prodFmt fd fq).W - 1) := lt_of_le_of_lt h3 h4
    exact_mod_cast h5
  obtain ⟨h1, h2⟩ := abs_lt.1 hKb
  have e1 : (prodFmt fd fq).S = true := rfl
  refine ⟨K, ?_, ?_, e⟩
  · rw [e1]; simp only [minRaw, if_true]; omega
  · rw [e1]; simp only [maxRaw, if_true]; omega

theorem prod_reps (hn : 1 ≤ fn.W) (hdW : 1 ≤ fd.W) (hF : fn.F ≤ fq.F) (hI : fn.I + (if fn.S then 0 else 1) ≤ fq.I)
    (hq : 1 ≤ fq.W) (ha : fn.Rep a) (hb : fn.Rep b) (hc : fd.Rep c) (hd : fd.Rep d) :
    (prodFmt fd fq).Rep (a * c + b * d) ∧ (prodFmt fd fq).Rep (b * c - a * d) := by
  have ha1 := abs_rep hn ha
  have hb1 := abs_rep hn hb
  obtain ⟨r, -, -, er⟩ := ha
  obtain ⟨s, -, -, es⟩ := hb
  refine ⟨prod_rep hdW hF hI hq ha1 hb1 ⟨r, er⟩ ⟨s, es⟩ hc hd, ?_⟩
  rw [show b * c - a * d = b * c + -a * d by ring]
  exact prod_rep hdW hF hI hq hb1 (by rwa [abs_neg]) ⟨s, es⟩ ⟨-r, by rw [er]; unfold Fmt.val; push_cast; ring⟩ hc hd

end Proof.ComplexDiv
