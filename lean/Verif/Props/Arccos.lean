import Verif.Proof.ArcsinTinyCheck

/-! # C51: arccosine by CORDIC

`arccos o t` is the output of `ac_arccos_cordic` for the argument `t` and an output of type `o`; `none` would be a table read out of
bounds. Outputs are in half turns, that is, radians divided by `π`. -/

namespace Props.Arccos
open Ac Model.Arcsin

/-- **C51**, table safety: no argument and no output type make the function read outside its table. -/
theorem C51_in_table (o : Fmt) (t : ℚ) : (arccos o t).isSome := by
  obtain ⟨s, hs⟩ := Proof.Arcsin.loop_some (p := pF o) (g := 2) (n := pF o + 2) selCos (start (pF o) 2 t)
  unfold arccos runCos
  rw [hs]; rfl

example : arccos ⟨16, 2, false, .TRN, .WRAP⟩ (-1 / 2) = some (5461 / 8192) := by decide +kernel

/-- **C51**, angle: for an output with 1 to 64 fraction bits and every argument in `[-1, 1]` the function converts to the output type
a number in `[0, 1]` that differs from the arccosine, in half turns, by `√(2h+1)/2` units of the output type plus terms of second
order. -/
theorem C51_angle {o : Fmt} {h : ℕ} (hF : o.F = h) (h1 : 1 ≤ h) (h2 : h ≤ 64) {t : ℚ} (ht : |t| ≤ 1) :
    ∃ r : ℚ, arccos o t = some (o.cvt r) ∧ 0 ≤ r ∧ r ≤ 1 ∧
      |(r : ℝ) - Real.arccos t / Real.pi| ≤ √(2 * h + 1) / 2 / 2 ^ h + 8 / 5 * (h + 1) ^ 2 / 4 ^ h + 1 / 2 ^ 117 := by
  have hp := Proof.Arcsin.pF_eq hF
  by_cases c : h ≤ 4
  · obtain ⟨r, r1, r2, r3, r4⟩ := Proof.Arcsin.cos_tiny hp h1 (by omega) (Proof.Arcsin.cos_few h1 c) ht
    exact ⟨r, r1, r2, r3, r4.trans (Proof.Arcsin.three_quarters h1)⟩
  obtain ⟨r, r1, r2, r3, r4⟩ := Proof.Arcsin.cos_main (o := o) (by omega) (by omega) ht
  refine ⟨r, r1, r2, r3, ?_⟩
  rw [← Proof.Arcsin.err_eq, ← hp]; exact r4

example : ∃ r : ℚ, arccos ⟨16, 2, false, .TRN, .WRAP⟩ (-1 / 3) = some ((⟨16, 2, false, .TRN, .WRAP⟩ : Fmt).cvt r) ∧ 0 ≤ r ∧ r ≤ 1 ∧
    |(r : ℝ) - Real.arccos ((-1 / 3 : ℚ) : ℝ) / Real.pi| ≤
      √(2 * ((14 : ℕ) : ℝ) + 1) / 2 / 2 ^ 14 + 8 / 5 * (((14 : ℕ) : ℝ) + 1) ^ 2 / 4 ^ 14 + 1 / 2 ^ 117 :=
  C51_angle (by norm_num [Fmt.F]) (by norm_num) (by norm_num) (by norm_num [abs_le])

/-- **C51**, output: if in addition the output type is unsigned with an integer bit, the output itself is within one more unit,
whatever its rounding and overflow modes. -/
theorem C51_error {o : Fmt} {h : ℕ} (hF : o.F = h) (h1 : 1 ≤ h) (h2 : h ≤ 64) (hS : o.S = false) (hI : 1 ≤ o.I) {t : ℚ}
    (ht : |t| ≤ 1) : ∃ z : ℚ, arccos o t = some z ∧
      |(z : ℝ) - Real.arccos t / Real.pi| ≤ (√(2 * h + 1) / 2 + 1) / 2 ^ h + 8 / 5 * (h + 1) ^ 2 / 4 ^ h + 1 / 2 ^ 117 := by
  obtain ⟨r, r1, r2, r3, r4⟩ := C51_angle hF h1 h2 ht
  refine ⟨_, r1, ?_⟩
  have h3 := Rat.cast_lt (K := ℝ) |>.2 (Proof.Arcsin.unsigned_err hF hS hI r2 r3)
  push_cast at h3
  have := abs_sub_le ((o.cvt r : ℚ) : ℝ) (r : ℝ) (Real.arccos t / Real.pi)
  rw [add_div]
  linarith

example : ∃ z : ℚ, arccos ⟨16, 2, false, .TRN, .WRAP⟩ (-1 / 3) = some z ∧
    |(z : ℝ) - Real.arccos ((-1 / 3 : ℚ) : ℝ) / Real.pi| ≤
      (√(2 * ((14 : ℕ) : ℝ) + 1) / 2 + 1) / 2 ^ 14 + 8 / 5 * (((14 : ℕ) : ℝ) + 1) ^ 2 / 4 ^ 14 + 1 / 2 ^ 117 :=
  C51_error (by norm_num [Fmt.F]) (by norm_num) (by norm_num) rfl (by norm_num) (by norm_num [abs_le])

/-- **C51**, symmetry: for `t` and `-t` the converted angles add up to one half turn. -/
theorem C51_supplement (o : Fmt) {t : ℚ} (ht : 0 < t) :
    ∃ r : ℚ, arccos o t = some (o.cvt r) ∧ arccos o (-t) = some (o.cvt (1 - r)) := by
  have e : start (pF o) 2 (-t) = start (pF o) 2 t := by
    unfold start
    rw [if_neg (by linarith : ¬ t < 0), if_pos (by linarith), neg_neg]
  have hone : (dpTheta (pF o) 2).cvt (1 : ℚ) = 1 := by
    have : (1 : ℚ) = (dpTheta (pF o) 2).val (2 ^ pF o) := by rw [Proof.Arcsin.tval]; push_cast; rw [div_self (by positivity)]
    rw [this]
    refine Proof.Arcsin.tfit (by norm_num) ?_ (pow_lt_pow_right₀ (by norm_num) (by omega))
    have : (0 : ℤ) < 2 ^ pF o := by positivity
    have : (0 : ℤ) < 2 ^ (pF o + 2 - 1) := by positivity
    linarith
  obtain ⟨s, hs⟩ := Proof.Arcsin.loop_some (p := pF o) (g := 2) (n := pF o + 2) selCos (start (pF o) 2 t)
  unfold arccos runCos
  simp only []
  rw [e, hs]
  simp only [Option.map_some, hone]
  refine ⟨_, by rw [if_neg (by linarith)], by rw [if_pos (by linarith)]⟩

example : arccos ⟨16, 2, false, .RND, .WRAP⟩ (1 / 2) = some (5461 / 16384) ∧
    arccos ⟨16, 2, false, .RND, .WRAP⟩ (-1 / 2) = some (10923 / 16384) := by decide +kernel

end Props.Arccos
