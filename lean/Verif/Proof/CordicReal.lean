import Verif.Model.Cordic
import Verif.Proof.Pwl
import Mathlib.Analysis.SpecialFunctions.Complex.Arctan
import Mathlib.Analysis.SpecialFunctions.Trigonometric.Arctan
import Mathlib.Analysis.Real.Pi.Bounds
import Mathlib.Analysis.SpecificLimits.Normed
import Mathlib.Analysis.SpecialFunctions.Sqrt
import Mathlib.Algebra.BigOperators.Intervals

/-! # The tables of the CORDIC against the real functions -/

namespace Proof.Cordic
open Ac Model.Cordic

/-- Entries as integers. -/
def T (i : ℕ) : ℤ := atanTable.getD i 0
def KT (i : ℕ) : ℤ := kTable.getD i 0

/-- Thirty terms of the series. -/
def ser (x : ℚ) : ℕ → ℚ
  | 0 => 0
  | n + 1 => ser x n + (-1) ^ n * x ^ (2 * n + 1) / (2 * n + 1 : ℕ)

theorem ser_eq (x : ℚ) (n : ℕ) :
    (ser x n : ℝ) = ∑ k ∈ Finset.range n, (-1) ^ k * (x : ℝ) ^ (2 * k + 1) / ((2 * k + 1 : ℕ) : ℝ) := by
  induction n with
  | zero => simp [ser]
  | succ n ih => rw [Finset.sum_range_succ, ser, ← ih]; push_cast; rfl

theorem arctan_near {x : ℝ} (h0 : 0 ≤ x) (h1 : x < 1) (n : ℕ) :
    |(∑ k ∈ Finset.range n, (-1) ^ k * x ^ (2 * k + 1) / ((2 * k + 1 : ℕ) : ℝ)) - Real.arctan x| ≤ x * (x ^ 2) ^ n / (1 - x ^ 2) := by
  have hs := Real.hasSum_arctan (x := x) (by rw [Real.norm_eq_abs, abs_of_nonneg h0]; exact h1)
  have hr : x ^ 2 < 1 := by nlinarith
  refine norm_sub_le_of_geometric_bound_of_hasSum (C := x) hr (fun k => ?_) hs n
  rw [Real.norm_eq_abs, abs_div, abs_mul, abs_pow, abs_neg, abs_one, one_pow, one_mul, abs_pow, abs_of_nonneg h0, Nat.abs_cast]
  rw [← pow_mul, ← pow_succ']
  refine div_le_self (by positivity) ?_
  exact_mod_cast (by omega : 1 ≤ 2 * k + 1)

def piq : ℚ := 3.14159265358979323846

theorem pi_near : |Real.pi - piq| ≤ 1 / 10 ^ 20 := by
  have h1 := Real.pi_gt_d20
  have h2 := Real.pi_lt_d20
  unfold piq
  rw [abs_le]; push_cast
  constructor <;> norm_num at * <;> linarith

/-- Bound of the error of entry `i`, in radians. -/
def ae (i : ℕ) : ℚ :=
  if i = 0 then 0 else
    |(T i : ℚ) / 2 ^ 71 * piq - ser (1 / 2 ^ i) 30| + (T i : ℚ) / 2 ^ 71 / 10 ^ 20 + (1 / 2 ^ i) * ((1 / 2 ^ i) ^ 2) ^ 30 / (1 - (1 / 2 ^ i) ^ 2)

def aeSum : ℕ → ℚ
  | 0 => 0
  | n + 1 => aeSum n + ae n

theorem aeSum_le : aeSum 70 ≤ 1 / 2 ^ 53 := by decide +kernel

theorem T_nonneg_all : Proof.Pwl.allLt 70 (fun i => decide (0 < T i ∧ T i * 2 ^ i ≤ 3 * 2 ^ 68) && (decide (T i ≤ 2 * T (i + 1) + 1) || i == 69)) = true := by
  decide +kernel

theorem T_pos {i : ℕ} (hi : i < 70) : 0 < T i := by
  have := Proof.Pwl.allLt_iff.1 T_nonneg_all i hi
  simp at this; exact this.1.1

theorem T_le {i : ℕ} (hi : i < 70) : T i * 2 ^ i ≤ 3 * 2 ^ 68 := by
  have := Proof.Pwl.allLt_iff.1 T_nonneg_all i hi
  simp only [Bool.and_eq_true, decide_eq_true_eq] at this; exact this.1.2

theorem T_step {i : ℕ} (hi : i < 69) : T i ≤ 2 * T (i + 1) + 1 := by
  have := Proof.Pwl.allLt_iff.1 T_nonneg_all i (by omega)
  simp only [Bool.and_eq_true, Bool.or_eq_true, decide_eq_true_eq, beq_iff_eq] at this
  rcases this.2 with h | h
  · exact h
  · omega

theorem ae_nonneg {i : ℕ} (hi : i < 70) : 0 ≤ ae i := by
  unfold ae
  split_ifs with h
  · exact le_rfl
  · have hT : (0 : ℚ) < T i := by exact_mod_cast T_pos hi
    have h1 : (1 / 2 ^ i : ℚ) ^ 2 < 1 := by
      have : (1 / 2 ^ i : ℚ) < 1 := by
        rw [div_lt_one (by positivity)]; exact one_lt_pow₀ (by norm_num) h
      have h0 : (0 : ℚ) ≤ 1 / 2 ^ i := by positivity
      nlinarith
    have h2 : (0 : ℚ) < 1 - (1 / 2 ^ i) ^ 2 := by linarith
    positivity

theorem aeSum_mono {n : ℕ} (hn : n ≤ 70) : aeSum n ≤ 1 / 2 ^ 53 := by
  refine le_trans ?_ aeSum_le
  have key : ∀ m, n + m ≤ 70 → aeSum n ≤ aeSum (n + m) := by
    intro m
    induction m with
    | zero => intro _; exact le_rfl
    | succ m ih =>
      intro h
      have := ae_nonneg (show n + m < 70 by omega)
      have e : aeSum (n + (m + 1)) = aeSum (n + m) + ae (n + m) := rfl
      rw [e]
      linarith [ih (by omega)]
  have := key (70 - n) (by omega)
  rwa [show n + (70 - n) = 70 by omega] at this

theorem atan_err {i : ℕ} (hi : i < 70) : |(T i : ℝ) / 2 ^ 71 * Real.pi - Real.arctan (1 / 2 ^ i)| ≤ ((ae i : ℚ) : ℝ) := by
  by_cases h : i = 0
  · subst h
    have : T 0 = 2 ^ 69 := by decide +kernel
    rw [this]
    norm_num [ae, Real.arctan_one]
    ring
  · unfold ae
    rw [if_neg h]
    have hx0 : (0 : ℝ) ≤ 1 / 2 ^ i := by positivity
    have hx1 : (1 : ℝ) / 2 ^ i < 1 := by
      rw [div_lt_one (by positivity)]; exact one_lt_pow₀ (by norm_num) h
    have hT : (0 : ℝ) ≤ (T i : ℝ) / 2 ^ 71 := by
      have : (0 : ℝ) < T i := by exact_mod_cast T_pos hi
      positivity
    have h3 := arctan_near hx0 hx1 30
    have h3' := ser_eq (1 / 2 ^ i) 30
    rw [show (((1 / 2 ^ i : ℚ)) : ℝ) = 1 / 2 ^ i by push_cast; rfl] at h3'
    rw [← h3'] at h3
    have h2 := mul_le_mul_of_nonneg_left pi_near hT
    rw [← abs_of_nonneg hT, ← abs_mul, abs_of_nonneg hT] at h2
    have e : (T i : ℝ) / 2 ^ 71 * Real.pi - Real.arctan (1 / 2 ^ i) =
        ((T i : ℝ) / 2 ^ 71 * piq - (ser (1 / 2 ^ i) 30 : ℚ)) + (T i : ℝ) / 2 ^ 71 * (Real.pi - piq) +
          ((ser (1 / 2 ^ i) 30 : ℚ) - Real.arctan (1 / 2 ^ i)) := by ring
    rw [e]
    refine le_trans (abs_add_three _ _ _) ?_
    rw [Rat.cast_add, Rat.cast_add, Rat.cast_abs]
    refine add_le_add (add_le_add ?_ ?_) ?_
    · push_cast; exact le_rfl
    · refine le_trans h2 ?_
      rw [show ((((T i : ℚ) / 2 ^ 71 / 10 ^ 20 : ℚ)) : ℝ) = (T i : ℝ) / 2 ^ 71 / 10 ^ 20 by
        rw [Rat.cast_div, Rat.cast_div, Rat.cast_intCast, Rat.cast_pow, Rat.cast_pow]; rfl]
      rw [mul_one_div]
    · refine le_trans h3 ?_
      push_cast; exact le_rfl

/-! ## The gain -/

def P : ℕ → ℚ
  | 0 => 1
  | n + 1 => P n * (1 + 1 / 4 ^ n)

theorem k_all : Proof.Pwl.allLt 70 (fun n => n == 0 ||
    (decide (0 < KT n) && decide (|((KT n : ℚ) / 2 ^ 71) ^ 2 * P n - 1| ≤ 1 / 2 ^ 51) && decide (KT n ≤ 2 ^ 71 - 2 ^ 69))) = true := by
  decide +kernel

noncomputable def G (n : ℕ) : ℝ := Real.sqrt (P n)

theorem P_pos (n : ℕ) : 0 < P n := by
  induction n with
  | zero => norm_num [P]
  | succ n ih => rw [P]; positivity

theorem P_ge_two {n : ℕ} : 2 ≤ P (n + 1) := by
  induction n with
  | zero => norm_num [P]
  | succ n ih =>
    rw [P]
    have : (0 : ℚ) ≤ 1 / 4 ^ (n + 1) := by positivity
    nlinarith

theorem P_le (n : ℕ) : P n ≤ 30 / 11 := by
  have key : ∀ m, P (m + 2) ≤ 30 / 11 * (1 - 4 / 3 / 4 ^ (m + 2)) := by
    intro m
    induction m with
    | zero => norm_num [P]
    | succ m ih =>
      rw [show m + 1 + 2 = (m + 2) + 1 by ring, P]
      have h : (0 : ℚ) < 1 / 4 ^ (m + 2) := by positivity
      have e : (4 : ℚ) / 3 / 4 ^ (m + 2 + 1) = 1 / 3 * (1 / 4 ^ (m + 2)) := by
        rw [pow_succ (4 : ℚ) (m + 2)]; field_simp
      have e2 : (4 : ℚ) / 3 / 4 ^ (m + 2) = 4 / 3 * (1 / 4 ^ (m + 2)) := by field_simp
      rw [e2] at ih
      rw [e]
      set z : ℚ := 1 / 4 ^ (m + 2)
      have := mul_le_mul_of_nonneg_right ih (show (0 : ℚ) ≤ 1 + z by linarith)
      refine le_trans this ?_
      nlinarith
  match n with
  | 0 => norm_num [P]
  | 1 => norm_num [P]
  | m + 2 =>
    refine le_trans (key m) ?_
    have : (0 : ℚ) ≤ 4 / 3 / 4 ^ (m + 2) := by positivity
    linarith

theorem G_pos (n : ℕ) : 0 < G n := Real.sqrt_pos.2 (by exact_mod_cast P_pos n)

theorem G_sq (n : ℕ) : G n ^ 2 = P n := Real.sq_sqrt (by exact_mod_cast (P_pos n).le)

theorem G_succ (n : ℕ) : G (n + 1) = G n * Real.sqrt (1 + 1 / 4 ^ n) := by
  unfold G
  rw [← Real.sqrt_mul (by exact_mod_cast (P_pos n).le)]
  congr 1
  rw [P]; push_cast; rfl

theorem G_zero : G 0 = 1 := by simp [G, P]

theorem G_ge {n : ℕ} : Real.sqrt 2 ≤ G (n + 1) := by
  unfold G
  exact Real.sqrt_le_sqrt (by exact_mod_cast P_ge_two (n := n))

theorem G_mono {m n : ℕ} (h : m ≤ n) : G m ≤ G n := by
  induction n, h using Nat.le_induction with
  | base => exact le_rfl
  | succ n _ ih =>
    rw [G_succ]
    have : (1 : ℝ) ≤ Real.sqrt (1 + 1 / 4 ^ n) := by
      rw [Real.one_le_sqrt]
      have : (0 : ℝ) ≤ 1 / 4 ^ n := by positivity
      linarith
    nlinarith [G_pos n]

theorem G_le (n : ℕ) : G n ≤ 1.66 := by
  unfold G
  rw [Real.sqrt_le_left (by norm_num)]
  have : (P n : ℝ) ≤ ((30 / 11 : ℚ) : ℝ) := by exact_mod_cast P_le n
  refine le_trans this (by norm_num)

/-- The constant of the table against the gain. -/
theorem k_err {n : ℕ} (h0 : 1 ≤ n) (hn : n < 70) : |(KT n : ℝ) / 2 ^ 71 * G n - 1| ≤ 1 / 2 ^ 51 ∧ 0 < KT n ∧ KT n ≤ 2 ^ 71 - 2 ^ 69 := by
  have h := Proof.Pwl.allLt_iff.1 k_all n hn
  simp only [Bool.or_eq_true, Bool.and_eq_true, beq_iff_eq, decide_eq_true_eq] at h
  rcases h with h | ⟨⟨h1, h2⟩, h3⟩
  · omega
  refine ⟨?_, h1, h3⟩
  have h2' : |((KT n : ℝ) / 2 ^ 71) ^ 2 * G n ^ 2 - 1| ≤ 1 / 2 ^ 51 := by
    rw [G_sq]
    have := Rat.cast_le (K := ℝ) |>.2 h2
    rw [Rat.cast_abs, Rat.cast_sub, Rat.cast_mul, Rat.cast_pow, Rat.cast_div, Rat.cast_intCast, Rat.cast_pow, Rat.cast_div,
      Rat.cast_pow, Rat.cast_one, Rat.cast_ofNat] at this
    exact this
  have hk : (0 : ℝ) < (KT n : ℝ) / 2 ^ 71 := by
    have : (0 : ℝ) < KT n := by exact_mod_cast h1
    positivity
  have hG := G_pos n
  have hkg : 0 < (KT n : ℝ) / 2 ^ 71 * G n := mul_pos hk hG
  set z := (KT n : ℝ) / 2 ^ 71 * G n with hz
  have e : ((KT n : ℝ) / 2 ^ 71) ^ 2 * G n ^ 2 - 1 = (z - 1) * (z + 1) := by rw [hz]; ring
  rw [e, abs_mul, abs_of_pos (show 0 < z + 1 by linarith)] at h2'
  have := abs_nonneg (z - 1)
  nlinarith

end Proof.Cordic
