import Verif.Proof.HcordicLog2
import Mathlib.Analysis.SpecialFunctions.Trigonometric.DerivHyp

/-! # The error of the reduced logarithm with 3 to 12 bits: how it is checked -/

namespace Proof.Hcordic
open Ac Model.Hcordic

/-- Bounds of `csc`, times `2^30`. -/
def c0 (sc : Scale) : ℤ := if sc = .one then 2 ^ 30 else 744261117

def c1 (sc : Scale) : ℤ := if sc = .one then 2 ^ 30 else 744261119

theorem csc_bounds (sc : Scale) : (c0 sc : ℝ) ≤ csc sc * 2 ^ 30 ∧ csc sc * 2 ^ 30 ≤ (c1 sc : ℝ) := by
  have h1 := Real.log_two_gt_d9
  have h2 := Real.log_two_lt_d9
  cases sc
  · simp only [c0, c1, csc, if_true]; norm_num
  · simp only [c0, c1, csc, reduceCtorEq, if_false]
    norm_num
    constructor <;> linarith

theorem log_succ_lower {X : ℝ} (hX : 1 < X) : 2 / (2 * X - 1) ≤ Real.log X - Real.log (X - 1) := by
  have h := Real.hasSum_log_one_add_inv (a := X - 1) (by linarith)
  have h0 : 0 < X - 1 := by linarith
  have := le_hasSum h 0 (fun k _ => by positivity)
  have e : 1 + (X - 1)⁻¹ = X / (X - 1) := by field_simp; ring
  rw [e, Real.log_div (by linarith) h0.ne'] at this
  refine le_trans (le_of_eq ?_) this
  rw [show 2 * (X - 1) + 1 = 2 * X - 1 by ring]
  norm_num
  ring

theorem log_succ_upper {X : ℝ} (hX : 1 < X) : Real.log X - Real.log (X - 1) ≤ (2 * X - 1) / (2 * X * (X - 1)) := by
  have h0 : 0 < X - 1 := by linarith
  have hX0 : 0 < X := by linarith
  have ht : 1 ≤ X / (X - 1) := by rw [le_div_iff₀ h0]; linarith
  have h := Real.self_le_sinh_iff.2 (Real.log_nonneg ht)
  rw [Real.sinh_log (by positivity), Real.log_div hX0.ne' h0.ne'] at h
  refine h.trans (le_of_eq ?_)
  field_simp
  ring

/-- Is the result `g` good enough, `a` and `h` enclosing `-log x * 2^40`? -/
def okL (sc : Scale) (ew : ℕ) (g : ℤ) (a h : ℕ) : Bool :=
  decide (0 ≤ c0 sc * (g + 4) * 2 ^ 10 + 2 ^ ew * (a : ℤ) ∧ 0 ≤ c1 sc * (g + 4) * 2 ^ 10 + 2 ^ ew * (a : ℤ) ∧
      c0 sc * (g - 4) * 2 ^ 10 + 2 ^ ew * (h : ℤ) ≤ 0 ∧ c1 sc * (g - 4) * 2 ^ 10 + 2 ^ ew * (h : ℤ) ≤ 0)

/-- `n` inputs below `X`; `a` and `h` enclose `-log (X / 2^ew) * 2^40`. -/
def checkL (sc : Scale) (ew : ℕ) (n X a h : ℕ) : Bool :=
  Nat.rec (motive := fun _ => ℕ → ℕ → ℕ → Bool) (fun _ _ _ => true) (fun _ ih X a h =>
    bif okL sc ew (lo sc ew ((X - 1 : ℕ) : ℤ)) (a + 2 ^ 41 / (2 * X - 1)) (h + 2 ^ 40 * (2 * X - 1) / (2 * X * (X - 1)) + 1) then
      ih (X - 1) (a + 2 ^ 41 / (2 * X - 1)) (h + 2 ^ 40 * (2 * X - 1) / (2 * X * (X - 1)) + 1) else false) n X a h

theorem lin_mem {c p q u v : ℝ} (h0 : p ≤ c) (h1 : c ≤ q) (hp : 0 ≤ p * u + v) (hq : 0 ≤ q * u + v) : 0 ≤ c * u + v := by
  rcases le_total 0 u with h | h
  · have := mul_le_mul_of_nonneg_right h0 h; linarith
  · have := mul_le_mul_of_nonpos_right h1 h; linarith

theorem okL_ok {sc : Scale} {ew : ℕ} {g : ℤ} {a h : ℕ} {x : ℝ} (ha : (a : ℝ) ≤ -Real.log x * 2 ^ 40) (hh : -Real.log x * 2 ^ 40 ≤ h)
    (ok : okL sc ew g a h = true) : |(g : ℝ) - 2 ^ ew * (Real.log x / csc sc)| ≤ 4 := by
  obtain ⟨k1, k2, k3, k4⟩ := of_decide_eq_true ok
  obtain ⟨b0, b1⟩ := csc_bounds sc
  have k1 : (0 : ℝ) ≤ (c0 sc : ℝ) * (((g : ℝ) + 4) * 2 ^ 10) + 2 ^ ew * (a : ℝ) := by
    rw [← mul_assoc]; exact_mod_cast k1
  have k2 : (0 : ℝ) ≤ (c1 sc : ℝ) * (((g : ℝ) + 4) * 2 ^ 10) + 2 ^ ew * (a : ℝ) := by
    rw [← mul_assoc]; exact_mod_cast k2
  have k3 : (0 : ℝ) ≤ (c0 sc : ℝ) * (-(((g : ℝ) - 4) * 2 ^ 10)) + -(2 ^ ew * (h : ℝ)) := by
    have : (c0 sc : ℝ) * ((g : ℝ) - 4) * 2 ^ 10 + 2 ^ ew * (h : ℝ) ≤ 0 := by exact_mod_cast k3
    linarith
  have k4 : (0 : ℝ) ≤ (c1 sc : ℝ) * (-(((g : ℝ) - 4) * 2 ^ 10)) + -(2 ^ ew * (h : ℝ)) := by
    have : (c1 sc : ℝ) * ((g : ℝ) - 4) * 2 ^ 10 + 2 ^ ew * (h : ℝ) ≤ 0 := by exact_mod_cast k4
    linarith
  have m1 := lin_mem b0 b1 k1 k2
  have m2 := lin_mem b0 b1 k3 k4
  have hE : (0 : ℝ) < 2 ^ ew := by positivity
  have n1 := mul_le_mul_of_nonneg_left ha hE.le
  have n2 := mul_le_mul_of_nonneg_left hh hE.le
  have cp : 0 < csc sc := by
    unfold csc; split_ifs
    · norm_num
    · exact Real.log_pos (by norm_num)
  set E : ℝ := 2 ^ ew
  have e : (g : ℝ) - E * (Real.log x / csc sc) = (csc sc * g - E * Real.log x) / csc sc := by field_simp
  rw [e, abs_div, abs_of_pos cp, div_le_iff₀ cp, abs_le]
  constructor <;> linarith

theorem acc_step (ew : ℕ) {X a h : ℕ} (hX : 2 ≤ X) (ha : (a : ℝ) ≤ -Real.log ((X : ℝ) / 2 ^ ew) * 2 ^ 40)
    (hh : -Real.log ((X : ℝ) / 2 ^ ew) * 2 ^ 40 ≤ h) :
    ((a + 2 ^ 41 / (2 * X - 1) : ℕ) : ℝ) ≤ -Real.log (((X - 1 : ℕ) : ℝ) / 2 ^ ew) * 2 ^ 40 ∧
    -Real.log (((X - 1 : ℕ) : ℝ) / 2 ^ ew) * 2 ^ 40 ≤ ((h + 2 ^ 40 * (2 * X - 1) / (2 * X * (X - 1)) + 1 : ℕ) : ℝ) := by
  have hX1 : ((X - 1 : ℕ) : ℝ) = (X : ℝ) - 1 := by rw [Nat.cast_sub (by omega)]; simp
  have hX2 : ((2 * X - 1 : ℕ) : ℝ) = 2 * (X : ℝ) - 1 := by rw [Nat.cast_sub (by omega)]; simp
  have hXr : (1 : ℝ) < X := by exact_mod_cast (show 1 < X by omega)
  have l1 := log_succ_lower hXr
  have l2 := log_succ_upper hXr
  have lX : Real.log ((X : ℝ) / 2 ^ ew) = Real.log X - Real.log (2 ^ ew) := Real.log_div (by linarith) (by positivity)
  have lX' : Real.log (((X - 1 : ℕ) : ℝ) / 2 ^ ew) = Real.log (X - 1) - Real.log (2 ^ ew) := by
    rw [hX1]; exact Real.log_div (by linarith) (by positivity)
  have a' : ((a + 2 ^ 41 / (2 * X - 1) : ℕ) : ℝ) ≤ -Real.log (((X - 1 : ℕ) : ℝ) / 2 ^ ew) * 2 ^ 40 := by
    have d : (((2 ^ 41 / (2 * X - 1) : ℕ)) : ℝ) ≤ 2 / (2 * X - 1) * 2 ^ 40 := by
      refine Nat.cast_div_le.trans ?_
      rw [hX2]; push_cast
      apply le_of_eq; ring
    rw [Nat.cast_add, lX']
    rw [lX] at ha
    have := mul_le_mul_of_nonneg_right l1 (show (0 : ℝ) ≤ 2 ^ 40 by positivity)
    linarith
  have h' : -Real.log (((X - 1 : ℕ) : ℝ) / 2 ^ ew) * 2 ^ 40 ≤ ((h + 2 ^ 40 * (2 * X - 1) / (2 * X * (X - 1)) + 1 : ℕ) : ℝ) := by
    have d : (2 * (X : ℝ) - 1) / (2 * X * (X - 1)) * 2 ^ 40 ≤ ((2 ^ 40 * (2 * X - 1) / (2 * X * (X - 1)) : ℕ) : ℝ) + 1 := by
      have hp : 0 < 2 * X * (X - 1) := Nat.mul_pos (by omega) (by omega)
      have := Nat.lt_div_mul_add (a := 2 ^ 40 * (2 * X - 1)) hp
      have t : ((2 ^ 40 * (2 * X - 1) : ℕ) : ℝ) ≤ ((2 ^ 40 * (2 * X - 1) / (2 * X * (X - 1)) : ℕ) : ℝ) * ((2 * X * (X - 1) : ℕ) : ℝ) + ((2 * X * (X - 1) : ℕ) : ℝ) := by
        exact_mod_cast this.le
      have hp' : (0 : ℝ) < 2 * X * (X - 1) := by
        have : (0 : ℝ) < (X : ℝ) - 1 := by linarith
        positivity
      have e1 : ((2 * X * (X - 1) : ℕ) : ℝ) = 2 * X * (X - 1) := by rw [Nat.cast_mul, hX1]; push_cast; rfl
      have e2 : ((2 ^ 40 * (2 * X - 1) : ℕ) : ℝ) = 2 ^ 40 * (2 * X - 1) := by rw [Nat.cast_mul, hX2]; push_cast; ring
      rw [e1, e2] at t
      rw [div_mul_eq_mul_div, div_le_iff₀ hp']
      linarith
    rw [Nat.cast_add, Nat.cast_add, Nat.cast_one, lX']
    rw [lX] at hh
    have := mul_le_mul_of_nonneg_right l2 (show (0 : ℝ) ≤ 2 ^ 40 by positivity)
    linarith

  exact ⟨a', h'⟩

/-- The enclosure `n` inputs below `X`. -/
def accL (n X a h : ℕ) : ℕ × ℕ :=
  Nat.rec (motive := fun _ => ℕ → ℕ → ℕ → ℕ × ℕ) (fun _ a h => (a, h)) (fun _ ih X a h =>
    ih (X - 1) (a + 2 ^ 41 / (2 * X - 1)) (h + 2 ^ 40 * (2 * X - 1) / (2 * X * (X - 1)) + 1)) n X a h

theorem accL_ok (ew n : ℕ) : ∀ X a h : ℕ, n + 1 ≤ X → (a : ℝ) ≤ -Real.log ((X : ℝ) / 2 ^ ew) * 2 ^ 40 →
    -Real.log ((X : ℝ) / 2 ^ ew) * 2 ^ 40 ≤ h → ((accL n X a h).1 : ℝ) ≤ -Real.log (((X - n : ℕ) : ℝ) / 2 ^ ew) * 2 ^ 40 ∧
    -Real.log (((X - n : ℕ) : ℝ) / 2 ^ ew) * 2 ^ 40 ≤ (accL n X a h).2 := by
  induction n with
  | zero => intro X a h _ ha hh; exact ⟨ha, hh⟩
  | succ n ih =>
    intro X a h hX ha hh
    obtain ⟨a', h'⟩ := acc_step ew (by omega) ha hh
    have := ih (X - 1) _ _ (by omega) a' h'
    rwa [show X - 1 - n = X - (n + 1) by omega] at this

theorem checkL_ok (sc : Scale) (ew : ℕ) (n : ℕ) : ∀ X a h : ℕ, n + 1 ≤ X → (a : ℝ) ≤ -Real.log ((X : ℝ) / 2 ^ ew) * 2 ^ 40 →
    -Real.log ((X : ℝ) / 2 ^ ew) * 2 ^ 40 ≤ h → checkL sc ew n X a h = true → ∀ i : ℕ, X - n ≤ i → i < X →
    |(lo sc ew i : ℝ) - 2 ^ ew * (Real.log (((i : ℤ) : ℝ) / 2 ^ ew) / csc sc)| ≤ 4 := by
  induction n with
  | zero => intro X a h _ _ _ _ i h1 h2; omega
  | succ n ih =>
    intro X a h hX ha hh hc i hi0 hi1
    have e : checkL sc ew (n + 1) X a h = (bif okL sc ew (lo sc ew ((X - 1 : ℕ) : ℤ)) (a + 2 ^ 41 / (2 * X - 1))
      (h + 2 ^ 40 * (2 * X - 1) / (2 * X * (X - 1)) + 1) then
      checkL sc ew n (X - 1) (a + 2 ^ 41 / (2 * X - 1)) (h + 2 ^ 40 * (2 * X - 1) / (2 * X * (X - 1)) + 1) else false) := rfl
    rw [e] at hc
    obtain ⟨a', h'⟩ := acc_step ew (by omega) ha hh
    cases k : okL sc ew (lo sc ew ((X - 1 : ℕ) : ℤ)) (a + 2 ^ 41 / (2 * X - 1)) (h + 2 ^ 40 * (2 * X - 1) / (2 * X * (X - 1)) + 1)
    · rw [k] at hc; exact absurd hc (by simp)
    rw [k, cond_true] at hc
    rcases Nat.lt_or_ge i (X - 1) with g | g
    · exact ih (X - 1) _ _ (by omega) a' h' hc i (by omega) g
    · rw [show i = X - 1 by omega]
      exact okL_ok (by rw [Int.cast_natCast]; exact a') (by rw [Int.cast_natCast]; exact h') k


/-- What is proved for the input `i / 2^ew`. -/
def GoodL (sc : Scale) (ew i : ℕ) : Prop := |(lo sc ew i : ℝ) - 2 ^ ew * (Real.log (((i : ℤ) : ℝ) / 2 ^ ew) / csc sc)| ≤ 4

theorem chunkL (sc : Scale) (ew m n : ℕ) {a h : ℕ} (hm : m + n + 1 ≤ 2 ^ ew) (ha : decide (accL m (2 ^ ew) 0 0 = (a, h)) = true)
    (hc : checkL sc ew n (2 ^ ew - m) a h = true) (i : ℕ) (h0 : 2 ^ ew - m - n ≤ i) (h1 : i < 2 ^ ew - m) :
    GoodL sc ew i := by
  have e : -Real.log (((2 ^ ew : ℕ) : ℝ) / 2 ^ ew) * 2 ^ 40 = 0 := by
    rw [Nat.cast_pow, Nat.cast_ofNat, div_self (by positivity)]; simp
  have := accL_ok ew m (2 ^ ew) 0 0 (by omega) (by rw [e]; simp) (by rw [e]; simp)
  rw [of_decide_eq_true ha] at this
  exact checkL_ok sc ew n _ a h (by omega) this.1 this.2 hc i h0 h1

end Proof.Hcordic
