import Verif.Model.Arcsin
import Verif.Proof.Atan2Real

/-! # The table of the double rotation CORDIC against the arctangent -/

namespace Proof.Arcsin
open Ac Model.Arcsin
open Proof.Cordic (ser ser_eq arctan_near)

def piq : ℚ := 3.14159265358979323846264338327950288419716939937510

theorem pi_near : |Real.pi - piq| ≤ 1 / 10 ^ 45 := by
  have h := Real.four_mul_arctan_inv_5_sub_arctan_inv_239
  have h5 := arctan_near (x := (1 / 5 : ℝ)) (by norm_num) (by norm_num) 34
  have h9 := arctan_near (x := (1 / 239 : ℝ)) (by norm_num) (by norm_num) 10
  have e5 := ser_eq (1 / 5) 34
  have e9 := ser_eq (1 / 239) 10
  rw [show (((1 / 5 : ℚ)) : ℝ) = 1 / 5 by norm_num] at e5
  rw [show (((1 / 239 : ℚ)) : ℝ) = 1 / 239 by norm_num] at e9
  rw [← e5] at h5
  rw [← e9] at h9
  have hq : |4 * (4 * ser (1 / 5) 34 - ser (1 / 239) 10) - piq| ≤ 1 / 10 ^ 46 := by decide +kernel
  have hq' := Rat.cast_le (K := ℝ) |>.2 hq
  rw [Rat.cast_abs, Rat.cast_sub, Rat.cast_mul, Rat.cast_sub, Rat.cast_mul, Rat.cast_div, Rat.cast_pow, Rat.cast_one, Rat.cast_ofNat,
    Rat.cast_ofNat] at hq'
  rw [show (5 : ℝ)⁻¹ = 1 / 5 by norm_num, show (239 : ℝ)⁻¹ = 1 / 239 by norm_num] at h
  have b5 : (1 / 5 : ℝ) * ((1 / 5) ^ 2) ^ 34 / (1 - (1 / 5) ^ 2) ≤ 1 / 10 ^ 48 := by norm_num
  have b9 : (1 / 239 : ℝ) * ((1 / 239) ^ 2) ^ 10 / (1 - (1 / 239) ^ 2) ≤ 1 / 10 ^ 48 := by norm_num
  have g5 := h5.trans b5
  have g9 := h9.trans b9
  generalize ((ser (1 / 5) 34 : ℚ) : ℝ) = s5 at *
  generalize ((ser (1 / 239) 10 : ℚ) : ℝ) = s9 at *
  generalize Real.arctan (1 / 5) = t5 at *
  generalize Real.arctan (1 / 239) = t9 at *
  have n1 : (1 : ℝ) / 10 ^ 48 = 1 / 1000 * (1 / 10 ^ 45) := by norm_num
  have n2 : (1 : ℝ) / 10 ^ 46 = 1 / 10 * (1 / 10 ^ 45) := by norm_num
  have n3 : (0 : ℝ) < 1 / 10 ^ 45 := by norm_num
  rw [n1] at g5 g9
  rw [n2] at hq'
  generalize (1 : ℝ) / 10 ^ 45 = e at *
  rw [abs_le] at *
  constructor <;> linarith [g5.1, g5.2, g9.1, g9.2, hq'.1, hq'.2]

/-- Entries as integers. -/
def T (i : ℕ) : ℤ := table.getD i 0

/-- Terms of the series used for entry `i`. -/
def terms (i : ℕ) : ℕ := if i < 8 then 70 else 10

/-- Bound of the error of entry `i`, in radians. -/
def ae (i : ℕ) : ℚ :=
  if i = 0 then 0 else
    |(T i : ℚ) / 2 ^ 128 * piq - 2 * ser (1 / 2 ^ i) (terms i)| + (T i : ℚ) / 2 ^ 128 / 10 ^ 45 +
      2 * ((1 / 2 ^ i) * ((1 / 2 ^ i) ^ 2) ^ terms i / (1 - (1 / 2 ^ i) ^ 2))

def aeSum : ℕ → ℚ
  | 0 => 0
  | n + 1 => aeSum n + ae n

theorem aeSum_le : aeSum 130 ≤ 1 / 2 ^ 116 := by decide +kernel

theorem T_all : Proof.Pwl.allLt 130 (fun i => decide (0 ≤ T i ∧ T i * 2 ^ i * 10 ≤ 7 * 2 ^ 128)) = true := by decide +kernel

theorem T_pos {i : ℕ} (hi : i < 130) : 0 ≤ T i ∧ T i * 2 ^ i * 10 ≤ 7 * 2 ^ 128 := by
  have := (Proof.Pwl.allLt_iff.1 T_all) i hi
  simpa using this

theorem ae_nonneg {i : ℕ} (hi : i < 130) : 0 ≤ ae i := by
  unfold ae
  split_ifs with h
  · exact le_rfl
  · have hT : (0 : ℚ) ≤ T i := by exact_mod_cast (T_pos hi).1
    have h1 : (1 / 2 ^ i : ℚ) ^ 2 < 1 := by
      have : (1 / 2 ^ i : ℚ) < 1 := by
        rw [div_lt_one (by positivity)]; exact one_lt_pow₀ (by norm_num) h
      have h0 : (0 : ℚ) ≤ 1 / 2 ^ i := by positivity
      nlinarith
    have h2 : (0 : ℚ) < 1 - (1 / 2 ^ i) ^ 2 := by linarith
    positivity

theorem aeSum_mono {n : ℕ} (hn : n ≤ 130) : aeSum n ≤ 1 / 2 ^ 116 := by
  refine le_trans ?_ aeSum_le
  have key : ∀ m, n + m ≤ 130 → aeSum n ≤ aeSum (n + m) := by
    intro m
    induction m with
    | zero => intro _; exact le_rfl
    | succ m ih =>
      intro h
      have := ae_nonneg (show n + m < 130 by omega)
      have e : aeSum (n + (m + 1)) = aeSum (n + m) + ae (n + m) := rfl
      rw [e]
      linarith [ih (by omega)]
  have := key (130 - n) (by omega)
  rwa [show n + (130 - n) = 130 by omega] at this

/-- The angle of step `i`. -/
noncomputable def a (i : ℕ) : ℝ := 2 * Real.arctan (1 / 2 ^ i)

theorem T_err {i : ℕ} (hi : i < 130) : |(T i : ℝ) / 2 ^ 128 * Real.pi - a i| ≤ ((ae i : ℚ) : ℝ) := by
  unfold a
  by_cases h : i = 0
  · subst h
    have : T 0 = 2 ^ 127 := by decide +kernel
    rw [this]
    norm_num [ae, Real.arctan_one]
    ring
  · unfold ae
    rw [if_neg h]
    have hx0 : (0 : ℝ) ≤ 1 / 2 ^ i := by positivity
    have hx1 : (1 : ℝ) / 2 ^ i < 1 := by
      rw [div_lt_one (by positivity)]; exact one_lt_pow₀ (by norm_num) h
    have hT : (0 : ℝ) ≤ (T i : ℝ) / 2 ^ 128 := by
      have : (0 : ℝ) ≤ T i := by exact_mod_cast (T_pos hi).1
      positivity
    have h3 := arctan_near hx0 hx1 (terms i)
    have h3' := ser_eq (1 / 2 ^ i) (terms i)
    rw [show (((1 / 2 ^ i : ℚ)) : ℝ) = 1 / 2 ^ i by push_cast; rfl] at h3'
    rw [← h3'] at h3
    have h2 := mul_le_mul_of_nonneg_left pi_near hT
    rw [← abs_of_nonneg hT, ← abs_mul, abs_of_nonneg hT] at h2
    have e : (T i : ℝ) / 2 ^ 128 * Real.pi - 2 * Real.arctan (1 / 2 ^ i) =
        ((T i : ℝ) / 2 ^ 128 * piq - 2 * (ser (1 / 2 ^ i) (terms i) : ℚ)) + (T i : ℝ) / 2 ^ 128 * (Real.pi - piq) +
          2 * ((ser (1 / 2 ^ i) (terms i) : ℚ) - Real.arctan (1 / 2 ^ i)) := by ring
    rw [e]
    refine le_trans (abs_add_three _ _ _) ?_
    rw [Rat.cast_add, Rat.cast_add, Rat.cast_abs]
    refine add_le_add (add_le_add ?_ ?_) ?_
    · push_cast; exact le_rfl
    · refine le_trans h2 ?_
      rw [show ((((T i : ℚ) / 2 ^ 128 / 10 ^ 45 : ℚ)) : ℝ) = (T i : ℝ) / 2 ^ 128 / 10 ^ 45 by
        rw [Rat.cast_div, Rat.cast_div, Rat.cast_intCast, Rat.cast_pow, Rat.cast_pow]; rfl]
      rw [mul_one_div]
    · rw [abs_mul, abs_of_pos (by norm_num : (0 : ℝ) < 2)]
      refine le_trans (mul_le_mul_of_nonneg_left h3 (by norm_num)) ?_
      push_cast; exact le_rfl

theorem a_nonneg (i : ℕ) : 0 ≤ a i := mul_nonneg (by norm_num) (Proof.Atan2.a_nonneg i)

theorem a_half (i : ℕ) : a i ≤ 2 * a (i + 1) := by
  have := Proof.Atan2.a_half i
  unfold Proof.Atan2.a at this
  unfold a; linarith

theorem a_le (i : ℕ) : a i ≤ 2 / 2 ^ i := by
  have := Proof.Atan2.a_le i
  unfold Proof.Atan2.a at this
  unfold a
  have e : (2 : ℝ) / 2 ^ i = 2 * (1 / 2 ^ i) := by ring
  rw [e]; linarith

/-- Every sum of the angles of the first steps from step 1 on, in units of the table. -/
inductive Sums : ℕ → ℤ → Prop
  | one : Sums 1 0
  | up {i s} : Sums i s → Sums (i + 1) (s + T i)
  | down {i s} : Sums i s → Sums (i + 1) (s - T i)

/-- The sums that can come close to zero later. -/
def lev : ℕ → List ℤ
  | 0 => []
  | 1 => [0]
  | i + 2 => ((lev (i + 1)).flatMap fun s => [s + T (i + 1), s - T (i + 1)]).filter fun s => decide (5 * |s| * 2 ^ (i + 2) ≤ 7 * 2 ^ 128)

theorem lev_all : Proof.Pwl.allLt 67 (fun i => decide (i < 2) || (lev i).all fun s =>
    decide (2 ^ 128 ≤ |s| * 2 ^ (i + 6)) && (decide (16 < i) || decide (2 ^ 128 ≤ |s| * 2 ^ 17))) = true := by decide +kernel

theorem sums_pos {i : ℕ} {s : ℤ} (h : Sums i s) : 1 ≤ i := by cases h <;> omega

theorem mem_lev {i : ℕ} {s : ℤ} (h : Sums i s) (hi : i ≤ 130) (hs : 5 * |s| * 2 ^ i ≤ 7 * 2 ^ 128) : s ∈ lev i := by
  induction h with
  | one => simp [lev]
  | @up i s hp ih =>
    obtain ⟨j, rfl⟩ : ∃ j, i = j + 1 := ⟨i - 1, by have := sums_pos hp; omega⟩
    obtain ⟨t0, t1⟩ := T_pos (show j + 1 < 130 by omega)
    have hb : |s| ≤ |s + T (j + 1)| + T (j + 1) := by
      have := abs_sub (s + T (j + 1)) (T (j + 1))
      rwa [add_sub_cancel_right, abs_of_nonneg t0] at this
    have hp2 : (0 : ℤ) < 2 ^ (j + 1) := by positivity
    have := mul_le_mul_of_nonneg_right hb hp2.le
    rw [pow_succ _ (j + 1)] at hs
    have hm : s ∈ lev (j + 1) := ih (by omega) (by linarith)
    rw [lev, List.mem_filter, List.mem_flatMap]
    refine ⟨⟨s, hm, by simp⟩, ?_⟩
    rw [decide_eq_true_iff, pow_succ _ (j + 1)]
    exact hs
  | @down i s hp ih =>
    obtain ⟨j, rfl⟩ : ∃ j, i = j + 1 := ⟨i - 1, by have := sums_pos hp; omega⟩
    obtain ⟨t0, t1⟩ := T_pos (show j + 1 < 130 by omega)
    have hb : |s| ≤ |s - T (j + 1)| + T (j + 1) := by
      have := abs_add_le (s - T (j + 1)) (T (j + 1))
      rwa [sub_add_cancel, abs_of_nonneg t0] at this
    have hp2 : (0 : ℤ) < 2 ^ (j + 1) := by positivity
    have := mul_le_mul_of_nonneg_right hb hp2.le
    rw [pow_succ _ (j + 1)] at hs
    have hm : s ∈ lev (j + 1) := ih (by omega) (by linarith)
    rw [lev, List.mem_filter, List.mem_flatMap]
    refine ⟨⟨s, hm, by simp⟩, ?_⟩
    rw [decide_eq_true_iff, pow_succ _ (j + 1)]
    exact hs

/-- No sum of two to sixty-six angles comes close to zero. -/
theorem sums_far {i : ℕ} {s : ℤ} (h : Sums i s) (h2 : 2 ≤ i) (hi : i < 67) :
    2 ^ 128 ≤ |s| * 2 ^ (i + 6) ∧ (i ≤ 16 → 2 ^ 128 ≤ |s| * 2 ^ 17) := by
  by_cases hs : 5 * |s| * 2 ^ i ≤ 7 * 2 ^ 128
  · have hm := mem_lev h (by omega) hs
    have := (Proof.Pwl.allLt_iff.1 lev_all) i hi
    rw [Bool.or_eq_true, decide_eq_true_iff] at this
    have := (this.resolve_left (by omega))
    rw [List.all_eq_true] at this
    have := this s hm
    rw [Bool.and_eq_true, Bool.or_eq_true, decide_eq_true_iff, decide_eq_true_iff, decide_eq_true_iff] at this
    exact ⟨this.1, fun g => this.2.resolve_left (by omega)⟩
  · push Not at hs
    have e : (2 : ℤ) ^ (i + 6) = 2 ^ i * 64 := by rw [pow_add]; norm_num
    have hp : (0 : ℤ) ≤ |s| * 2 ^ i := by positivity
    refine ⟨by rw [e]; linarith, fun g => ?_⟩
    have : (2 : ℤ) ^ i ≤ 2 ^ 17 := pow_le_pow_right₀ (by norm_num) (by omega)
    have := mul_le_mul_of_nonneg_left this (abs_nonneg s)
    linarith

end Proof.Arcsin
