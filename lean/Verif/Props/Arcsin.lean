import Verif.Proof.ArcsinTinyCheck

/-! # C50: arcsine by CORDIC

`arcsin o t` is the output of `ac_arcsin_cordic` for the argument `t` and an output of type `o`; `none` would be a table read out of
bounds. Outputs are in half turns, that is, radians divided by `π`. -/

namespace Props.Arcsin
open Ac Model.Arcsin

/-- **C50**, table safety: no argument and no output type make the function read outside its table. -/
theorem C50_in_table (o : Fmt) (t : ℚ) : (arcsin o t).isSome := by
  obtain ⟨s, hs⟩ := Proof.Arcsin.loop_some (p := pF o) (g := 1) (n := pF o + 2) (selSin (pF o)) (start (pF o) 1 t)
  unfold arcsin runSin
  rw [hs]; rfl

example : arcsin ⟨16, 2, true, .TRN, .WRAP⟩ (1 / 2) = some (1365 / 8192) := by decide +kernel

/-- **C50**, symmetry: the angles that are converted to the output type for `t` and `-t` differ only in sign. -/
theorem C50_odd (o : Fmt) {t : ℚ} (ht : t ≠ 0) : ∃ r : ℚ, arcsin o t = some (o.cvt r) ∧ arcsin o (-t) = some (o.cvt (-r)) := by
  have e : start (pF o) 1 (-t) = start (pF o) 1 t := by
    unfold start
    rcases lt_trichotomy t 0 with h | h | h
    · rw [if_pos h, if_neg (by linarith)]
    · exact absurd h ht
    · rw [if_neg (by linarith : ¬ t < 0), if_pos (by linarith), neg_neg]
  obtain ⟨s, hs⟩ := Proof.Arcsin.loop_some (p := pF o) (g := 1) (n := pF o + 2) (selSin (pF o)) (start (pF o) 1 t)
  unfold arcsin runSin
  rw [e, hs]
  simp only [Option.map_some]
  rcases lt_or_gt_of_ne ht with h | h
  · have h' : ¬ -t < 0 := by linarith
    by_cases c : s.theta < 0
    · exact ⟨s.theta, by simp [h, c], by simp [h', c]⟩
    · exact ⟨-s.theta, by simp [h, c], by rw [neg_neg]; simp [h', c]⟩
  · have h' : -t < 0 := by linarith
    have h'' : ¬ t < 0 := by linarith
    by_cases c : s.theta < 0
    · exact ⟨-s.theta, by simp [h'', c], by rw [neg_neg]; simp [h', c]⟩
    · exact ⟨s.theta, by simp [h'', c], by simp [h', c]⟩

example : arcsin ⟨16, 2, true, .RND, .WRAP⟩ (1 / 2) = some (2731 / 16384) ∧
    arcsin ⟨16, 2, true, .RND, .WRAP⟩ (-1 / 2) = some (-2731 / 16384) := by decide +kernel

/-- **C50**, angle: for an output with 1 to 64 fraction bits and every argument in `[-1, 1]` the function converts to the output
type a number that differs from the arcsine, in half turns, by `3√(2h+1)/2 + 1` units of the output type plus terms of second
order. -/
theorem C50_angle {o : Fmt} {h : ℕ} (hF : o.F = h) (h1 : 1 ≤ h) (h2 : h ≤ 64) {t : ℚ} (ht : |t| ≤ 1) :
    ∃ r : ℚ, arcsin o t = some (o.cvt r) ∧
      |(r : ℝ) - Real.arcsin t / Real.pi| ≤ (3 / 2 * √(2 * h + 1) + 1) / 2 ^ h + 8 / 5 * (h + 1) ^ 2 / 4 ^ h + 1 / 2 ^ 117 := by
  obtain ⟨r, r1, -, r3⟩ := Proof.Arcsin.sin_all hF h1 h2 ht
  exact ⟨r, r1, r3⟩

example : ∃ r : ℚ, arcsin ⟨16, 2, true, .TRN, .WRAP⟩ (-1 / 3) = some ((⟨16, 2, true, .TRN, .WRAP⟩ : Fmt).cvt r) ∧
    |(r : ℝ) - Real.arcsin ((-1 / 3 : ℚ) : ℝ) / Real.pi| ≤
      (3 / 2 * √(2 * ((14 : ℕ) : ℝ) + 1) + 1) / 2 ^ 14 + 8 / 5 * (((14 : ℕ) : ℝ) + 1) ^ 2 / 4 ^ 14 + 1 / 2 ^ 117 :=
  C50_angle (by norm_num [Fmt.F]) (by norm_num) (by norm_num) (by norm_num [abs_le])

/-- **C50**, angle: with at least 11 fraction bits, for which the loop compares the angle with a quarter turn, the error is at most
`√(2h+1)/2 + 1/3` units plus terms of second order. -/
theorem C50_angle_wide {o : Fmt} {h : ℕ} (hF : o.F = h) (h1 : 11 ≤ h) (h2 : h ≤ 64) {t : ℚ} (ht : |t| ≤ 1) :
    ∃ r : ℚ, arcsin o t = some (o.cvt r) ∧
      |(r : ℝ) - Real.arcsin t / Real.pi| ≤ (√(2 * h + 1) / 2 + 1 / 3) / 2 ^ h + (2 * h + 1) / 4 ^ h + 1 / 2 ^ 117 := by
  obtain ⟨r, r1, -, r3⟩ := Proof.Arcsin.sin_main (Proof.Arcsin.pF_eq hF) h1 h2 ht
  exact ⟨r, r1, by rw [← Proof.Arcsin.errS_eq]; exact r3⟩

example : ∃ r : ℚ, arcsin ⟨16, 2, true, .TRN, .WRAP⟩ (-1 / 3) = some ((⟨16, 2, true, .TRN, .WRAP⟩ : Fmt).cvt r) ∧
    |(r : ℝ) - Real.arcsin ((-1 / 3 : ℚ) : ℝ) / Real.pi| ≤
      (√(2 * ((14 : ℕ) : ℝ) + 1) / 2 + 1 / 3) / 2 ^ 14 + (2 * ((14 : ℕ) : ℝ) + 1) / 4 ^ 14 + 1 / 2 ^ 117 :=
  C50_angle_wide (by norm_num [Fmt.F]) (by norm_num) (by norm_num) (by norm_num [abs_le])

/-- **C50**, angle: with at most 5 fraction bits the error is at most three quarters of a unit. -/
theorem C50_angle_narrow {o : Fmt} {h : ℕ} (hF : o.F = h) (h1 : 1 ≤ h) (h2 : h ≤ 5) {t : ℚ} (ht : |t| ≤ 1) :
    ∃ r : ℚ, arcsin o t = some (o.cvt r) ∧ |(r : ℝ) - Real.arcsin t / Real.pi| ≤ 3 / 4 / 2 ^ h := by
  obtain ⟨r, r1, -, r3⟩ := Proof.Arcsin.sin_tiny (Proof.Arcsin.pF_eq hF) h1 h2 (Proof.Arcsin.sin_few h1 h2) ht
  exact ⟨r, r1, r3⟩

example : ∃ r : ℚ, arcsin ⟨6, 2, true, .TRN, .WRAP⟩ (-1 / 3) = some ((⟨6, 2, true, .TRN, .WRAP⟩ : Fmt).cvt r) ∧
    |(r : ℝ) - Real.arcsin ((-1 / 3 : ℚ) : ℝ) / Real.pi| ≤ 3 / 4 / 2 ^ 4 :=
  C50_angle_narrow (by norm_num [Fmt.F]) (by norm_num) (by norm_num) (by norm_num [abs_le])

/-- **C50**, output: if in addition the output type is signed with an integer bit, the output itself is within one more unit,
whatever its rounding and overflow modes. Missing for the full claim: output types with one fraction bit and one integer bit, for
which it is false, see `C50_one_bit_wrong`. -/
theorem C50_error_partial {o : Fmt} {h : ℕ} (hF : o.F = h) (h1 : 1 ≤ h) (h2 : h ≤ 64) (hS : o.S = true) (hI : 1 ≤ o.I)
    (hW : 3 ≤ o.W) {t : ℚ} (ht : |t| ≤ 1) : ∃ z : ℚ, arcsin o t = some z ∧
      |(z : ℝ) - Real.arcsin t / Real.pi| ≤ (3 / 2 * √(2 * h + 1) + 2) / 2 ^ h + 8 / 5 * (h + 1) ^ 2 / 4 ^ h + 1 / 2 ^ 117 :=
  Proof.Arcsin.sin_all_out hF h1 h2 hS hI hW ht

example : ∃ z : ℚ, arcsin ⟨16, 2, true, .TRN, .WRAP⟩ (-1 / 3) = some z ∧
    |(z : ℝ) - Real.arcsin ((-1 / 3 : ℚ) : ℝ) / Real.pi| ≤
      (3 / 2 * √(2 * ((14 : ℕ) : ℝ) + 1) + 2) / 2 ^ 14 + 8 / 5 * (((14 : ℕ) : ℝ) + 1) ^ 2 / 4 ^ 14 + 1 / 2 ^ 117 :=
  C50_error_partial (by norm_num [Fmt.F]) (by norm_num) (by norm_num) rfl (by norm_num) (by norm_num) (by norm_num [abs_le])

/-- **C50**, output with at least 11 fraction bits. -/
theorem C50_error_wide {o : Fmt} {h : ℕ} (hF : o.F = h) (h1 : 11 ≤ h) (h2 : h ≤ 64) (hS : o.S = true) (hI : 1 ≤ o.I) {t : ℚ}
    (ht : |t| ≤ 1) : ∃ z : ℚ, arcsin o t = some z ∧
      |(z : ℝ) - Real.arcsin t / Real.pi| ≤ (√(2 * h + 1) / 2 + 4 / 3) / 2 ^ h + (2 * h + 1) / 4 ^ h + 1 / 2 ^ 117 := by
  obtain ⟨r, r1, -, r3⟩ := Proof.Arcsin.sin_main (Proof.Arcsin.pF_eq hF) h1 h2 ht
  refine ⟨_, r1, ?_⟩
  refine le_trans (Proof.Arcsin.out_err hF hS hI (Proof.Arcsin.room hF (by omega) hI (Proof.Arcsin.errS_small h1)) r3) (le_of_eq ?_)
  rw [Proof.Arcsin.errS_eq]; ring

example : ∃ z : ℚ, arcsin ⟨16, 2, true, .TRN, .WRAP⟩ (-1 / 3) = some z ∧
    |(z : ℝ) - Real.arcsin ((-1 / 3 : ℚ) : ℝ) / Real.pi| ≤
      (√(2 * ((14 : ℕ) : ℝ) + 1) / 2 + 4 / 3) / 2 ^ 14 + (2 * ((14 : ℕ) : ℝ) + 1) / 4 ^ 14 + 1 / 2 ^ 117 :=
  C50_error_wide (by norm_num [Fmt.F]) (by norm_num) (by norm_num) rfl (by norm_num) (by norm_num [abs_le])

/-- **C50** is false for an output with one fraction bit and one integer bit that rounds: the angle of the argument one is three
quarters of a half turn, which is rounded up to one and wraps, although the type holds the arcsine, one half. -/
theorem C50_one_bit_wrong : arcsin ⟨2, 1, true, .RND, .WRAP⟩ 1 = some (-1) ∧ (⟨2, 1, true, .RND, .WRAP⟩ : Fmt).cvt (1 / 2 : ℚ) = 1 / 2 ∧
    Real.arcsin ((1 : ℚ) : ℝ) / Real.pi = 1 / 2 := by
  refine ⟨by decide +kernel, by decide +kernel, ?_⟩
  have := Real.pi_pos
  rw [Rat.cast_one, Real.arcsin_one]; field_simp

end Props.Arcsin
