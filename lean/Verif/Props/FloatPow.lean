import Verif.Proof.FloatPow
import Verif.Props.FloatRec

/-! # C63: the PWL exponentials of ac_float

`pow2Pwl q t o d m e` is the output of `ac_pow2_pwl<q>` for the ac_float number `m * 2^e` of type `t` and an output of type
`ac_float<o.W,o.I,o.E,o.Q>`, and `expPwl` that of `ac_exp_pwl<q>`; `none` stands for a table read out of bounds.  `d` is the
conversion of an exact value to the output type, `o.dst` for the output itself.  The mantissa need not be normalised. -/

namespace Props.FloatPow
open Ac Model.Float Props.FloatRec Proof.FloatPow Proof.PowPwl

/-- The results differ from 0 and from the largest number only for arguments up to this magnitude. -/
def range (o : FFmt) : ℤ := 2 ^ (o.E - 1) + max (o.I - 1) (o.W - o.I)

/-- The exponential of an argument that is slightly wrong. -/
theorem near_exp {r t : ℚ} {x δ ε : ℝ} (h1 : |(r : ℝ) - 2 ^ (t : ℝ)| ≤ 2 ^ (t : ℝ) / 400) (h2 : |(t : ℝ) * Real.log 2 - x| ≤ δ)
    (hδ : δ ≤ 1 / 100) (hε : (1 + 2 * δ) * (401 / 400) ≤ 1 + ε) (hε' : 1 - ε ≤ (1 - 2 * δ) * (399 / 400)) :
    |(r : ℝ) - Real.exp x| ≤ ε * Real.exp x := by
  have e : (2 : ℝ) ^ (t : ℝ) = Real.exp x * Real.exp (t * Real.log 2 - x) := by
    rw [← Real.exp_add, Real.rpow_def_of_pos (by norm_num)]; congr 1; ring
  rw [e] at h1
  set y := (t : ℝ) * Real.log 2 - x
  have h5 : |Real.exp y - 1| ≤ 2 * |y| := Real.abs_exp_sub_one_le (by linarith)
  have h6 : |Real.exp y - 1| ≤ 2 * δ := by linarith
  have hE := Real.exp_pos x
  generalize Real.exp x = E at *
  generalize Real.exp y = s at *
  obtain ⟨a1, a2⟩ := abs_le.1 h6
  obtain ⟨b1, b2⟩ := abs_le.1 h1
  have m1 := mul_le_mul_of_nonneg_left (by linarith : s ≤ 1 + 2 * δ) hE.le
  have m2 := mul_le_mul_of_nonneg_left (by linarith : 1 - 2 * δ ≤ s) hE.le
  have n1 := mul_le_mul_of_nonneg_left hε hE.le
  have n2 := mul_le_mul_of_nonneg_left hε' hE.le
  rw [abs_le]
  constructor <;> linarith

/-- **C63**, base 2: for every output type and rounding mode one function of the value of the input, whatever its type, gives
the output before its conversion.  It is positive, increasing, and right up to 1/350 for arguments in the range of the type. -/
theorem C63_pow2 (q : QMode) (o : FFmt) (ho : 1 ≤ o.W) : ∃ p : ℚ → ℚ,
    (∀ x, 0 < p x) ∧ (∀ x x', x ≤ x' → p x ≤ p x') ∧
    (∀ x : ℚ, |x| ≤ range o → |(p x : ℝ) - 2 ^ (x : ℝ)| ≤ 1 / 350 * 2 ^ (x : ℝ)) ∧
    ∀ (t : FFmt) (d : Dst) (m : ℚ) (e : ℤ), 1 ≤ t.W → Num t m e → pow2Pwl q t o d m e = some (d.cvt (p (m * 2 ^ e))) := by
  refine ⟨fun x => core (arg q o x), fun x => core_pos _, fun x x' h => core_mono (arg_mono q o h), ?_,
    fun t d m e hW hm => pow2_eq q o d hW hm.1 e⟩
  intro x hx
  have h2 := (Rat.cast_le (K := ℝ)).2 (arg_err q ho hx)
  push_cast at h2
  have l1 := Real.log_two_gt_d9
  have l2 := Real.log_two_lt_d9
  have e : (2 : ℝ) ^ (x : ℝ) = Real.exp (x * Real.log 2) := by
    rw [Real.rpow_def_of_pos (by norm_num), mul_comm]
  rw [e]
  refine near_exp (δ := 1 / 4096 * (7 / 10)) (core_err (arg q o x)) ?_ (by norm_num) (by norm_num) (by norm_num)
  rw [← sub_mul, abs_mul, abs_of_pos (by linarith : 0 < Real.log 2)]
  exact mul_le_mul h2 (by linarith) (by linarith) (by norm_num)

/-- -3/4 * 2^-8, and 3/2 * 2^3 in a type that is normalised for it. -/
example : Num ⟨8, 2, 4, .TRN⟩ (-3 / 4) (-8) ∧ Num ⟨8, 2, 4, .TRN⟩ (3 / 2) 3 ∧ (range ⟨16, 2, 6, .TRN⟩ : ℤ) = 46 :=
  ⟨⟨⟨-48, by decide, by decide, by decide +kernel⟩, by decide, by decide⟩,
    ⟨⟨96, by decide, by decide, by decide +kernel⟩, by decide, by decide⟩, by decide⟩

example : pow2Pwl .TRN ⟨8, 2, 4, .TRN⟩ ⟨16, 2, 6, .TRN⟩ (FFmt.dst ⟨16, 2, 6, .TRN⟩) (3 / 2) 3 = some 4088 := by decide +kernel

/-- **C63**, base e: the same, with an error that grows with the argument, because the stored log2(e) has 14 fraction bits. -/
theorem C63_exp (q : QMode) (o : FFmt) (ho : 1 ≤ o.W) : ∃ p : ℚ → ℚ,
    (∀ x, 0 < p x) ∧ (∀ x x', x ≤ x' → p x ≤ p x') ∧
    (∀ x : ℚ, |x| ≤ 2 / 3 * range o → |x| ≤ 64 → |(p x : ℝ) - Real.exp x| ≤ 1 / 256 * Real.exp x) ∧
    (∀ x : ℚ, |x| ≤ 2 / 3 * range o → |x| ≤ 800 → |(p x : ℝ) - Real.exp x| ≤ 1 / 80 * Real.exp x) ∧
    ∀ (t : FFmt) (d : Dst) (m : ℚ) (e : ℤ), 1 ≤ t.W → Num t m e → expPwl q t o d m e = some (d.cvt (p (m * 2 ^ e))) := by
  have key : ∀ x : ℚ, |x| ≤ 2 / 3 * range o →
      |((arg q o (x * (23637 / 16384)) : ℚ) : ℝ) * Real.log 2 - x| ≤ 1 / 4096 + |(x : ℝ)| / 200000 := by
    intro x hx
    have hb : |x * (23637 / 16384)| ≤ (outRange o : ℚ) := by
      rw [abs_mul, abs_of_pos (by norm_num : (0 : ℚ) < 23637 / 16384)]
      have : (range o : ℚ) = outRange o := rfl
      rw [this] at hx
      have := abs_nonneg x
      linarith
    have h2 := (Rat.cast_le (K := ℝ)).2 (arg_err q ho hb)
    push_cast at h2
    generalize (arg q o (x * (23637 / 16384)) : ℝ) = t at *
    generalize (x : ℝ) = X at *
    have l1 := Real.log_two_gt_d9
    have l2 := Real.log_two_lt_d9
    generalize Real.log 2 = L at *
    have hL : 0 < L := by linarith
    have e : t * L - X = (t - X * (23637 / 16384)) * L + X * (23637 / 16384 * L - 1) := by ring
    rw [e]
    refine le_trans (abs_add_le _ _) ?_
    rw [abs_mul, abs_mul, abs_of_pos hL]
    have d2 : |23637 / 16384 * L - 1| ≤ 1 / 200000 := by rw [abs_le]; constructor <;> norm_num at l1 l2 ⊢ <;> linarith
    have d3 := mul_le_mul_of_nonneg_left d2 (abs_nonneg X)
    have d4 : |t - X * (23637 / 16384)| * L ≤ 1 / 4096 * 1 := mul_le_mul h2 (by linarith) hL.le (by norm_num)
    linarith
  have mono : ∀ x x' : ℚ, x ≤ x' → x * (23637 / 16384) ≤ x' * (23637 / 16384) := fun x x' h =>
    mul_le_mul_of_nonneg_right h (by norm_num)
  refine ⟨fun x => core (arg q o (x * (23637 / 16384))), fun x => core_pos _, fun x x' h => core_mono (arg_mono q o (mono x x' h)),
    ?_, ?_, fun t d m e hW hm => exp_eq q o d hW hm.1 e⟩
  · intro x hx h64
    have h64' := (Rat.cast_le (K := ℝ)).2 h64
    push_cast at h64'
    exact near_exp (δ := 57 / 100000) (core_err _) (le_trans (key x hx) (by linarith)) (by norm_num) (by norm_num) (by norm_num)
  · intro x hx h64
    have h64' := (Rat.cast_le (K := ℝ)).2 h64
    push_cast at h64'
    exact near_exp (δ := 17 / 4000) (core_err _) (le_trans (key x hx) (by linarith)) (by norm_num) (by norm_num) (by norm_num)

example : (range ⟨25, 2, 8, .TRN⟩ : ℤ) = 151 ∧ (3 / 4 : ℚ) * 2 ^ (6 : ℤ) ≤ 2 / 3 * 151 := ⟨by decide, by norm_num⟩

example : expPwl .TRN ⟨8, 2, 4, .TRN⟩ ⟨16, 2, 6, .TRN⟩ (FFmt.dst ⟨16, 2, 6, .TRN⟩) (3 / 2) 1 = some (10301 / 512) := by decide +kernel

/-- **C63**, large and small arguments: from the exponent of the first power of two above the largest number on, the base 2
exponential is the largest number of the output type; from that of the smallest positive number down, it is less than the smallest
positive number before its conversion. -/
theorem C63_range (q : QMode) (t o : FFmt) (m : ℚ) (e : ℤ) (hW : 1 ≤ t.W) (ho : 2 ≤ o.W) (hm : Num t m e) :
    (((o.I - 1 + 2 ^ (o.E - 1) : ℤ) : ℚ) ≤ m * 2 ^ e → pow2Pwl q t o o.dst m e = some o.maxVal) ∧
    (m * 2 ^ e ≤ ((o.I - o.W - 2 ^ (o.E - 1) : ℤ) : ℚ) →
      ∃ r : ℚ, 0 < r ∧ r < 2 ^ (o.I - o.W - 2 ^ (o.E - 1) : ℤ) ∧ pow2Pwl q t o o.dst m e = some (o.cvt r)) := by
  obtain ⟨hr0, -⟩ := range_lt o (by omega)
  have hp : (0 : ℤ) < 2 ^ (o.E - 1) := by positivity
  rw [pow2_eq q o o.dst hW hm.1 e]
  constructor
  · intro h
    have h1 := arg_mono q o h
    have hb : |o.I - 1 + 2 ^ (o.E - 1)| ≤ outRange o := by
      unfold outRange; rw [abs_le]; constructor <;> omega
    rw [arg_int q (by omega) hb] at h1
    have h2 := core_mono h1
    rw [core_int] at h2
    have : (2 : ℚ) ^ (o.I - 2 + 2 ^ (o.E - 1)) ≤ core (arg q o (m * 2 ^ e)) := by
      refine le_trans ?_ h2
      rw [show o.I - 1 + (2 : ℤ) ^ (o.E - 1) = o.I - 2 + 2 ^ (o.E - 1) + 1 by ring, Fmt.z_succ]
      have := Fmt.z_pos (o.I - 2 + 2 ^ (o.E - 1))
      linarith
    exact congrArg some (cvt_sat ho this)
  · intro h
    have h1 := arg_mono q o h
    have hb : |o.I - o.W - 2 ^ (o.E - 1)| ≤ outRange o := by
      unfold outRange; rw [abs_le]; constructor <;> omega
    rw [arg_int q (by omega) hb] at h1
    have h2 := core_mono h1
    rw [core_int] at h2
    refine ⟨_, core_pos _, lt_of_le_of_lt h2 ?_, rfl⟩
    have := Fmt.z_pos (o.I - o.W - 2 ^ (o.E - 1))
    linarith

/-- 2^12 is too large for `ac_float<8,2,4>`, whose largest number is 254. -/
example : Num ⟨8, 2, 4, .TRN⟩ (3 / 2) 3 ∧ ((2 - 1 + 2 ^ (4 - 1) : ℤ) : ℚ) ≤ (3 / 2 : ℚ) * 2 ^ (3 : ℤ) ∧
    (FFmt.maxVal ⟨8, 2, 4, .TRN⟩) = 254 :=
  ⟨⟨⟨96, by decide, by decide, by decide +kernel⟩, by decide, by decide⟩, by norm_num, by decide +kernel⟩

end Props.FloatPow
