import Verif.Proof.CordicMain

/-! # Sine and cosine by CORDIC (C38)

`sincos f t a c` is the sine and cosine of `a` half turns, scaled by `c`: `f` is the type of the angle, `t` the type of the
scaling factor and of the two outputs; `none` would be an access outside a table. `run` gives the variables after the last
rotation, among them the accumulated angle `acc`. -/

namespace Props.Cordic
open Ac Model.Cordic

/-- The output type can hold the scaling factor with two units to spare, and the inexactness of the stored gain. -/
def Fits (t : Fmt) (c : ℚ) : Prop :=
  |c| * (1 + 2 ^ (-t.F) / 16 + 1 / 2 ^ 50) + 2 * 2 ^ (-t.F) ≤ 2 ^ (t.I - 1)

theorem fits_room {t : Fmt} {c : ℚ} (h : Fits t c) : Proof.Cordic.Room t c := by
  have := Rat.cast_le (K := ℝ) |>.2 h
  unfold Proof.Cordic.Room Proof.Cordic.lsb
  rw [Rat.cast_add, Rat.cast_mul, Rat.cast_abs, Rat.cast_mul, Rat.cast_add, Rat.cast_add, Rat.cast_div, Rat.cast_div,
    Rat.cast_zpow, Rat.cast_zpow, Rat.cast_pow, Rat.cast_one, Rat.cast_ofNat, Rat.cast_ofNat] at this
  exact this

/-- For output types of up to 68 bits every angle converges: the accumulated angle ends within `2^-OW + 2^-64` half turns
of the given angle, up to whole turns. -/
theorem C38_converges {f t : Fmt} (hf : f.I ≤ f.W) (h1 : 1 ≤ t.W) (h68 : t.W ≤ 68) (hI : 1 ≤ t.I) {a c : ℚ}
    (ha : f.Rep a) (hc : Fits t c) :
    ∃ s, run f t a c = some s ∧ ∃ k : ℤ, |a - 2 * k - s.acc| ≤ 1 / 2 ^ t.W + 1 / 2 ^ 64 := by
  obtain ⟨r, -, -, rfl⟩ := ha
  obtain ⟨t0, t1, m, hm⟩ := Proof.Cordic.target_eq hf r
  obtain ⟨s, hs, hi⟩ := Proof.Cordic.run_inv h1 h68 hI (fits_room hc) t0 t1
  refine ⟨s, hs, -m, ?_⟩
  have := (Proof.Cordic.final h1 h68 hi).1
  rw [hm] at this
  have e : f.val r - 2 * ((-m : ℤ) : ℚ) - s.acc = f.val r + 2 * m - s.acc := by push_cast; ring
  rw [e]
  refine le_trans this ?_
  have hp : (0 : ℚ) ≤ 1 / 2 ^ t.W := by positivity
  have e2 : (7 : ℚ) / 8 / 2 ^ t.W = 7 / 8 * (1 / 2 ^ t.W) := by ring
  rw [e2]
  linarith

example : ∃ s, run ⟨12, 4, true, .TRN, .WRAP⟩ ⟨16, 2, true, .RND, .SAT⟩ (-77 / 64) (3 / 2) = some s ∧
    ∃ k : ℤ, |(-77 / 64 : ℚ) - 2 * k - s.acc| ≤ 1 / 2 ^ 16 + 1 / 2 ^ 64 :=
  C38_converges (by norm_num) (by norm_num) (by norm_num) (by norm_num)
    ⟨-308, by norm_num [minRaw], by norm_num [maxRaw], by norm_num [Fmt.val, Fmt.F]⟩ (by norm_num [Fits, Fmt.F, abs_of_pos])

/-- For output types of up to 68 bits both outputs are within two units of the output type of the scaled sine and cosine,
plus `5*2^-OW` (the angle left over), a sixteenth of a unit (the stored gain) and `2^-50` (the tables), each times the
scaling factor. -/
theorem C38_error {f t : Fmt} (hf : f.I ≤ f.W) (h1 : 1 ≤ t.W) (h68 : t.W ≤ 68) (hI : 1 ≤ t.I) (hS : t.S = true) {a c : ℚ}
    (ha : f.Rep a) (hc : Fits t c) :
    ∃ sn cs : ℚ, sincos f t a c = some (sn, cs) ∧
      |(sn : ℝ) - c * Real.sin (Real.pi * a)| ≤ 2 * 2 ^ (-t.F) + |(c : ℝ)| * (5 / 2 ^ t.W + 2 ^ (-t.F) / 16 + 1 / 2 ^ 50) ∧
      |(cs : ℝ) - c * Real.cos (Real.pi * a)| ≤ 2 * 2 ^ (-t.F) + |(c : ℝ)| * (5 / 2 ^ t.W + 2 ^ (-t.F) / 16 + 1 / 2 ^ 50) := by
  obtain ⟨r, -, -, rfl⟩ := ha
  obtain ⟨t0, t1, m, hm⟩ := Proof.Cordic.target_eq hf r
  obtain ⟨s, hs, hi⟩ := Proof.Cordic.run_inv h1 h68 hI (fits_room hc) t0 t1
  obtain ⟨-, ex, ey, bx, by'⟩ := Proof.Cordic.final h1 h68 hi
  have cx := Proof.Cordic.out_cvt h1 hS (fits_room hc) bx
  have cy := Proof.Cordic.out_cvt h1 hS (fits_room hc) by'
  have hl := Proof.Cordic.lsb_pos (t := t)
  have hang : Real.pi * (((targetFmt f).cvt (f.val r) : ℚ) : ℝ) = Real.pi * (f.val r : ℚ) + m * (2 * Real.pi) := by
    rw [hm]; push_cast; ring
  rw [hang] at ex ey
  rw [Real.cos_add_int_mul_two_pi] at ex
  rw [Real.sin_add_int_mul_two_pi] at ey
  refine ⟨t.cvt s.y, t.cvt s.x, by simp [sincos, hs], ?_, ?_⟩
  all_goals
    have e : (2 : ℝ) ^ (-t.F) = Proof.Cordic.lsb t := rfl
    rw [e]
    refine le_trans (abs_sub_le _ _ _) (le_trans (add_le_add (by assumption) (by assumption)) ?_)
    have e2 : |(c : ℝ)| * (Proof.Cordic.lsb t / 16 + 5 / 2 ^ t.W + 1 / 2 ^ 50) =
      |(c : ℝ)| * (5 / 2 ^ t.W + Proof.Cordic.lsb t / 16 + 1 / 2 ^ 50) := by ring
    rw [e2]
    linarith

example : ∃ sn cs : ℚ, sincos ⟨12, 4, true, .TRN, .WRAP⟩ ⟨16, 2, true, .RND, .SAT⟩ (-77 / 64) (3 / 2) = some (sn, cs) ∧
    |(sn : ℝ) - (3 / 2 : ℚ) * Real.sin (Real.pi * (-77 / 64 : ℚ))| ≤
      2 * 2 ^ (-(14 : ℤ)) + |((3 / 2 : ℚ) : ℝ)| * (5 / 2 ^ 16 + 2 ^ (-(14 : ℤ)) / 16 + 1 / 2 ^ 50) := by
  obtain ⟨sn, cs, h, h1, -⟩ := C38_error (f := ⟨12, 4, true, .TRN, .WRAP⟩) (t := ⟨16, 2, true, .RND, .SAT⟩) (a := -77 / 64)
    (c := 3 / 2) (by norm_num) (by norm_num) (by norm_num) (by norm_num) rfl
    ⟨-308, by norm_num [minRaw], by norm_num [maxRaw], by norm_num [Fmt.val, Fmt.F]⟩ (by norm_num [Fits, Fmt.F, abs_of_pos])
  exact ⟨sn, cs, h, h1⟩

/-- The functions with one output compute the sine and the cosine themselves, for output types with at least two integer
and two fraction bits. -/
theorem C38_sin_cos {f t : Fmt} (hf : f.I ≤ f.W) (h68 : t.W ≤ 68) (hI : 2 ≤ t.I) (hF : 2 ≤ t.F) (hS : t.S = true) {a : ℚ}
    (ha : f.Rep a) :
    ∃ sn cs : ℚ, sin f t a = some sn ∧ cos f t a = some cs ∧
      |(sn : ℝ) - Real.sin (Real.pi * a)| ≤ 3 * 2 ^ (-t.F) + 1 / 2 ^ 50 + 5 / 2 ^ t.W ∧
      |(cs : ℝ) - Real.cos (Real.pi * a)| ≤ 3 * 2 ^ (-t.F) + 1 / 2 ^ 50 + 5 / 2 ^ t.W := by
  have hF' : t.F = t.W - t.I := rfl
  have h1 : 1 ≤ t.W := by omega
  have one : t.cvt (1 : ℚ) = 1 := by
    obtain ⟨n, hn⟩ : ∃ n : ℕ, t.F = n := ⟨t.F.toNat, by omega⟩
    have hp : (0 : ℤ) < 2 ^ n := by positivity
    have hv : t.val (2 ^ n) = 1 := by
      unfold Fmt.val; rw [hn, zpow_neg, zpow_natCast]; push_cast
      field_simp
    rw [← hv]
    refine Fmt.cvt_val h1 (le_trans (loRaw_nonpos _ _ _) hp.le) ?_
    rw [hS]; simp only [maxRaw, if_true]
    have : (2 : ℤ) ^ (n + 1) ≤ 2 ^ (t.W - 1) := pow_le_pow_right₀ (by norm_num) (by omega)
    rw [pow_succ] at this
    omega
  have hc : Fits t 1 := by
    unfold Fits
    have p1 : (2 : ℚ) ^ (-t.F) ≤ 2 ^ (-2 : ℤ) := zpow_le_zpow_right₀ (by norm_num) (by omega)
    have p2 : (2 : ℚ) ^ (1 : ℤ) ≤ 2 ^ (t.I - 1) := zpow_le_zpow_right₀ (by norm_num) (by omega)
    norm_num at p1 p2 ⊢
    linarith
  obtain ⟨sn, cs, h, e1, e2⟩ := C38_error hf h1 h68 (by omega) hS ha hc
  rw [Rat.cast_one, one_mul, abs_one, one_mul] at e1 e2
  have hz : (0 : ℝ) < 2 ^ (-t.F) := by positivity
  refine ⟨sn, cs, by simp [sin, one, h], by simp [cos, one, h], ?_, ?_⟩
  · refine le_trans e1 ?_
    generalize (5 : ℝ) / 2 ^ t.W = w at *
    linarith
  · refine le_trans e2 ?_
    generalize (5 : ℝ) / 2 ^ t.W = w at *
    linarith

example : ∃ sn cs : ℚ, sin ⟨12, 4, true, .TRN, .WRAP⟩ ⟨16, 2, true, .RND, .SAT⟩ (-77 / 64) = some sn ∧
    cos ⟨12, 4, true, .TRN, .WRAP⟩ ⟨16, 2, true, .RND, .SAT⟩ (-77 / 64) = some cs := by
  obtain ⟨sn, cs, h1, h2, -⟩ := C38_sin_cos (f := ⟨12, 4, true, .TRN, .WRAP⟩) (t := ⟨16, 2, true, .RND, .SAT⟩) (a := -77 / 64)
    (by norm_num) (by norm_num) (by norm_num) (by norm_num [Fmt.F]) rfl
    ⟨-308, by norm_num [minRaw], by norm_num [maxRaw], by norm_num [Fmt.val, Fmt.F]⟩
  exact ⟨sn, cs, h1, h2⟩

/-- Angles that differ by whole turns give the same outputs. -/
theorem C38_periodic {f : Fmt} (t : Fmt) (hf : f.I ≤ f.W) {a b c : ℚ} (ha : f.Rep a) (hb : f.Rep b) (k : ℤ)
    (h : b = a + 2 * k) : sincos f t b c = sincos f t a c := by
  obtain ⟨r, -, -, rfl⟩ := ha
  obtain ⟨q, -, -, rfl⟩ := hb
  have : (targetFmt f).cvt (f.val q) = (targetFmt f).cvt (f.val r) := by
    obtain ⟨q0, q1, m, hm⟩ := Proof.Cordic.target_eq hf q
    obtain ⟨r0, r1, n, hn⟩ := Proof.Cordic.target_eq hf r
    have e : (targetFmt f).cvt (f.val q) - (targetFmt f).cvt (f.val r) = 2 * ((k + m - n : ℤ) : ℚ) := by
      rw [hm, hn, h]; push_cast; ring
    have l1 : ((k + m - n : ℤ) : ℚ) < 1 := by linarith
    have l2 : (-1 : ℚ) < ((k + m - n : ℤ) : ℚ) := by linarith
    have : k + m - n = 0 := by
      have a1 : k + m - n < 1 := by exact_mod_cast l1
      have a2 : -1 < k + m - n := by exact_mod_cast l2
      omega
    rw [this] at e
    simp at e
    linarith
  unfold sincos run
  rw [this]

example : sincos ⟨12, 4, true, .TRN, .WRAP⟩ ⟨16, 2, true, .TRN, .WRAP⟩ (-77 / 64) 1 =
    sincos ⟨12, 4, true, .TRN, .WRAP⟩ ⟨16, 2, true, .TRN, .WRAP⟩ (307 / 64) 1 :=
  C38_periodic _ (by norm_num) ⟨1228, by norm_num [minRaw], by norm_num [maxRaw], by norm_num [Fmt.val, Fmt.F]⟩
    ⟨-308, by norm_num [minRaw], by norm_num [maxRaw], by norm_num [Fmt.val, Fmt.F]⟩ (-3) (by norm_num)

/-- Output types of 69 bits and more: the gain is taken from beyond the table as zero, and both outputs are zero for every
angle and every scaling factor. -/
theorem C38_wide_wrong (f : Fmt) {t : Fmt} (h : 69 ≤ t.W) (a c : ℚ) : sincos f t a c = some (0, 0) := by
  have cz : (xyFmt t).cvt (0 : ℚ) = 0 := Fmt.cvt_zero' (by simp [xyFmt, icw, numIter]; omega)
  have cz' : t.cvt (0 : ℚ) = 0 := Fmt.cvt_zero' (by omega)
  have ap : ∀ i, ∃ v, atanPi i = some v := by
    intro i
    by_cases hi : 70 ≤ i
    · exact ⟨0, by simp [atanPi, hi]⟩
    · have hl : i < atanTable.length := by
        have : atanTable.length = 70 := by decide
        omega
      exact ⟨tableFmt.val atanTable[i], by simp only [atanPi, hi, if_false, List.getElem?_eq_getElem hl, Option.map_some]⟩
  have sh : ∀ i, (xyFmt t).shr 0 i = 0 := by
    intro i
    have hw : wrap (xyFmt t).W (xyFmt t).S 0 = 0 :=
      wrap_of_range (by simp [xyFmt, icw, numIter]; omega) (by simp [xyFmt, minRaw]) (maxRaw_nonneg _ _)
    simp [Fmt.shr, Fmt.raw, Fmt.val, hw]
  have st0 : ∀ target, ∃ A, start t target c 0 = ⟨0, 0, A⟩ := by
    intro target
    unfold start
    simp only [cz, mul_zero, neg_zero]
    split_ifs <;> exact ⟨_, rfl⟩
  have : ∀ target n, ∃ A, forUp (fun i s => s.bind (step t target i)) n (some (start t target c 0)) = some ⟨0, 0, A⟩ := by
    intro target n
    induction n with
    | zero => obtain ⟨A, hA⟩ := st0 target; exact ⟨A, by rw [← hA]; rfl⟩
    | succ n ih =>
      obtain ⟨A, hA⟩ := ih
      obtain ⟨v, hv⟩ := ap n
      simp only [forUp] at hA ⊢
      rw [hA]
      simp only [Option.bind_some, step, hv, Option.bind_eq_bind, sh, cz, add_zero, sub_zero]
      split_ifs <;> exact ⟨_, rfl⟩
  obtain ⟨A, hA⟩ := this ((targetFmt f).cvt a) (numIter t)
  have hk : kOf (numIter t) = some 0 := by
    unfold kOf numIter; rw [if_pos (by omega)]
  simp only [sincos, run, hk, Option.bind_eq_bind, Option.bind_some, hA, Option.map_some, cz']

example : sincos ⟨12, 4, true, .TRN, .WRAP⟩ ⟨72, 2, true, .RND, .SAT⟩ (1 / 4) 1 = some (0, 0) :=
  C38_wide_wrong _ (by norm_num) _ _

/-- With one integer bit and wrapping, the scaling factor 1 of the functions with one output is stored as -1, and the sine
has the wrong sign. -/
theorem C38_scale_wrong : sin ⟨8, 2, true, .TRN, .WRAP⟩ ⟨8, 1, true, .TRN, .WRAP⟩ (1 / 4) = some (-91 / 128) := by
  decide +kernel

end Props.Cordic
