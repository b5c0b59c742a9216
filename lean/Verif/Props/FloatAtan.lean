import Verif.Proof.FloatAtan

/-!
# C67: the arctangents of floating-point numbers

`atanPwl q t d m e` is the output of `ac_atan_pwl<q>` for the ac_float number `m * 2^e` of type `t`, `none` for a table read out
of bounds; `atanHa` and `atanVha` are the other two versions.  `d` is the conversion of an exact value to the output type.
-/

namespace Props.FloatAtan
open Ac Model.Float Model.FloatAtan Props.FloatRec
open Proof.FloatAtan (V V_mono V_range V_low V_high V_exact model_eq top eta num_lt top_pos top_le eta_le)

/-- `α` is a nondecreasing function from the numbers to the first quadrant. -/
def Quadrant (α : ℚ → ℚ) : Prop := Monotone α ∧ ∀ x, 0 ≤ α x ∧ (α x : ℝ) < Real.pi / 2

/-- **C67**, `ac_atan_pwl`: for each input type one nondecreasing function of the value of the input, between 0 and a quarter
turn.  Its error is at most 1/311 below 1 and 1/177 above, plus the smallest step of the internal floating-point type, which has
a mantissa of 22 bits if the input has at least 14, and the exponent of the input; the step does not matter below 1 for
mantissas up to 22 bits. -/
theorem C67_pwl (q : QMode) (t : FFmt) (hW : 2 ≤ t.W) : ∃ α : ℚ → ℚ, Quadrant α ∧
    ∀ (d : Dst) (m : ℚ) (e : ℤ), Num t m e → 0 ≤ m → atanPwl q t d m e = some (d.cvt (α (m * 2 ^ e))) ∧
      (m * 2 ^ e < 1 → |(α (m * 2 ^ e) : ℝ) - Real.arctan (m * 2 ^ e)| ≤
        1 / 311 + (if t.W ≤ 22 then 0 else 2 ^ (t.I - 22 - 2 ^ (t.E - 1)))) ∧
      (1 ≤ m * 2 ^ e → 14 ≤ t.W → |(α (m * 2 ^ e) : ℝ) - Real.arctan (m * 2 ^ e)| ≤ 1 / 177 + 2 ^ (t.I - 22 - 2 ^ (t.E - 1))) ∧
      (1 ≤ m * 2 ^ e → |(α (m * 2 ^ e) : ℝ) - Real.arctan (m * 2 ^ e)| ≤ 1 / 162 + 2 ^ (t.I - 13 - 2 ^ (t.E - 1))) := by
  obtain ⟨ρ, ⟨r1, r2, -⟩, hρ⟩ := C60_reciprocal
  have G := Proof.Atan.good
  have tW : (tmp t).W = max 1 (min 10 (t.W - 4)) + 12 := rfl
  have hs : 2 ≤ (tmp t).W := by omega
  have hp : (1608 / 1024 : ℚ) ≤ 1.6 := by norm_num
  refine ⟨V Model.Atan.atanM Model.Atan.atanC 10 2 14 (1608 / 1024) .RND 22 (tmp t) ρ,
    ⟨fun x y h => V_mono G hp .RND (by norm_num) hs r2 h, fun x => ?_⟩, fun d m e hm h0 => ⟨?_, fun h => ?_, fun h hw => ?_, fun h => ?_⟩⟩
  · obtain ⟨a, b⟩ := V_range G hp .RND (w := 22) (by norm_num) (tmp t) ρ x
    refine ⟨a, ?_⟩
    have := Rat.cast_le (K := ℝ) |>.2 b
    have := Real.pi_gt_d20
    push_cast at *
    linarith
  · refine model_eq G q .RND 22 d fun h => hρ q _ t _ m e hW hm ?_
    rintro rfl; norm_num at h
  · have hx : 0 ≤ m * (2 : ℚ) ^ e := mul_nonneg h0 (Fmt.z_pos e).le
    split_ifs with hw
    · have hc : (tmp t).cvt (m * 2 ^ e) = m * 2 ^ e :=
        Proof.FloatDiv.cvt_num (show 1 ≤ (tmp t).W by omega) (Proof.FloatAtan.wide (s := tmp t) (t := t) rfl (show t.W ≤ (tmp t).W by omega) (show 1 ≤ t.W by omega) hm.1)
          hm.2.1 hm.2.2
      have := V_exact G hp .RND (w := 22) (by norm_num) ρ hx h hc
      push_cast at this
      refine le_trans this ?_
      norm_num
    · have hT : (tmp t).W = 22 := by omega
      have := V_low G hp .RND (w := 22) (by norm_num) hs ρ hx h (show _ < (2 : ℚ) ^ top t from num_lt (by omega) hm)
      unfold eta at this
      rw [hT] at this
      simp only [tmp] at this
      push_cast at this
      generalize (2 : ℝ) ^ (t.I - 22 - 2 ^ (t.E - 1)) = y at *
      refine le_trans this ?_
      norm_num
      linarith
  · have hT : (tmp t).W = 22 := by omega
    have hx : m * (2 : ℚ) ^ e ≠ 0 := by linarith
    have := V_high G hp .RND (w := 22) (by norm_num) hs h (δ := 1 / 2060) (show 1 ≤ top t from top_pos (by omega) hm h)
      (Proof.Atan.pi2_err (by norm_num) (by norm_num)) (r1 _ hx) (by norm_num)
    unfold eta at this
    rw [hT] at this
    simp only [tmp] at this
    push_cast at this
    generalize (2 : ℝ) ^ (t.I - 22 - 2 ^ (t.E - 1)) = y at *
    refine le_trans this ?_
    norm_num
    linarith
  · have hT : 13 ≤ (tmp t).W := by omega
    have hx : m * (2 : ℚ) ^ e ≠ 0 := by linarith
    have := V_high G hp .RND (w := 22) (by norm_num) hs h (δ := 1 / 2060) (show 1 ≤ top t from top_pos (by omega) hm h)
      (Proof.Atan.pi2_err (by norm_num) (by norm_num)) (r1 _ hx) (by norm_num)
    have e1 : eta (tmp t) ≤ 2 ^ (t.I - 13 - 2 ^ (t.E - 1)) := Fmt.z_le (by rw [show (tmp t).I = t.I from rfl, show (tmp t).E = t.E from rfl]; omega)
    have e2 : (2 : ℚ) ^ (2 - ((tmp t).W : ℤ)) ≤ 2 ^ (-11 : ℤ) := Fmt.z_le (by omega)
    have e1' := Rat.cast_le (K := ℝ) |>.2 e1
    have e2' := Rat.cast_le (K := ℝ) |>.2 e2
    push_cast at this e1' e2'
    generalize (2 : ℝ) ^ (t.I - 13 - 2 ^ (t.E - 1)) = y at *
    generalize (2 : ℝ) ^ (2 - ((tmp t).W : ℤ)) = z at *
    refine le_trans this ?_
    norm_num at e2' ⊢
    linarith

example : Num ⟨16, 2, 8, .TRN⟩ (3 / 2) 3 := ⟨⟨24576, by decide, by decide, by decide +kernel⟩, by decide, by decide⟩

example : atanPwl .TRN ⟨16, 2, 8, .TRN⟩ (FFmt.dst ⟨32, 2, 8, .TRN⟩) (3 / 2) 0 = some (16141 / 16384) := by decide +kernel

/-- **C67**, `ac_atan_pwl_ha`: 1/15000 below 1, 1/5000 above, for all input types. -/
theorem C67_ha (q : QMode) (t : FFmt) (hW : 2 ≤ t.W) : ∃ α : ℚ → ℚ, Quadrant α ∧
    ∀ (d : Dst) (m : ℚ) (e : ℤ), Num t m e → 0 ≤ m → atanHa q t d m e = some (d.cvt (α (m * 2 ^ e))) ∧
      (m * 2 ^ e < 1 → |(α (m * 2 ^ e) : ℝ) - Real.arctan (m * 2 ^ e)| ≤ 1 / 15000) ∧
      (1 ≤ m * 2 ^ e → |(α (m * 2 ^ e) : ℝ) - Real.arctan (m * 2 ^ e)| ≤ 1 / 5000) := by
  obtain ⟨ρ, ⟨r1, r2, -⟩, hρ⟩ := C60_reciprocal_ha
  have G := Proof.Atan.goodHa
  have hT : 34 ≤ (tmpHa t).W := by unfold tmpHa; simp only []; omega
  have hp : (3373259426 / 2147483648 : ℚ) ≤ 1.6 := by norm_num
  have ht := top_le (t := t) (s := tmpHa t) rfl rfl
  have e1 : eta (tmpHa t) ≤ 2 ^ (-34 : ℤ) := le_trans (eta_le (t := t) rfl rfl) (Fmt.z_le (by omega))
  have e2 : (2 : ℚ) ^ (2 - ((tmpHa t).W : ℤ)) ≤ 2 ^ (-32 : ℤ) := Fmt.z_le (by omega)
  have e1' := Rat.cast_le (K := ℝ) |>.2 e1
  have e2' := Rat.cast_le (K := ℝ) |>.2 e2
  push_cast at e1' e2'
  refine ⟨V Model.Atan.atanHaM Model.Atan.atanHaC 16 5 32 (3373259426 / 2147483648) .RND 42 (tmpHa t) ρ,
    ⟨fun x y h => V_mono G hp .RND (by norm_num) (by omega) r2 h, fun x => ?_⟩, fun d m e hm h0 => ⟨?_, fun h => ?_, fun h => ?_⟩⟩
  · obtain ⟨a, b⟩ := V_range G hp .RND (w := 42) (by norm_num) (tmpHa t) ρ x
    refine ⟨a, ?_⟩
    have := Rat.cast_le (K := ℝ) |>.2 b
    have := Real.pi_gt_d20
    push_cast at *
    linarith
  · refine model_eq G q .RND 42 d fun h => hρ q _ t _ m e hW hm ?_
    rintro rfl; norm_num at h
  · have hx : 0 ≤ m * (2 : ℚ) ^ e := mul_nonneg h0 (Fmt.z_pos e).le
    have := V_low G hp .RND (w := 42) (by norm_num) (by omega) ρ hx h (lt_of_lt_of_le (num_lt (by omega) hm) (Fmt.z_le ht))
    push_cast at this
    generalize (2 : ℝ) ^ (2 - ((tmpHa t).W : ℤ)) = z at *
    refine le_trans this ?_
    norm_num at e1' e2' ⊢
    linarith
  · have hx : m * (2 : ℚ) ^ e ≠ 0 := by linarith
    have := V_high G hp .RND (w := 42) (by norm_num) (by omega) h (δ := 1 / 1000000) (le_trans (top_pos (by omega) hm h) ht)
      (Proof.Atan.pi2_err (by norm_num) (by norm_num)) (r1 _ hx) (by norm_num)
    push_cast at this
    generalize (2 : ℝ) ^ (2 - ((tmpHa t).W : ℤ)) = z at *
    refine le_trans this ?_
    norm_num at e1' e2' ⊢
    linarith

example : atanHa .TRN ⟨16, 2, 8, .TRN⟩ (FFmt.dst ⟨32, 2, 8, .TRN⟩) (3 / 2) 0 = some (1055329681 / 1073741824) := by decide +kernel

/-- **C67**, `ac_atan_pwl_vha`: 1/8000 below 1, 1/5400 above, for all input types. -/
theorem C67_vha (q : QMode) (t : FFmt) (hW : 2 ≤ t.W) : ∃ α : ℚ → ℚ, Quadrant α ∧
    ∀ (d : Dst) (m : ℚ) (e : ℤ), Num t m e → 0 ≤ m → atanVha q t d m e = some (d.cvt (α (m * 2 ^ e))) ∧
      (m * 2 ^ e < 1 → |(α (m * 2 ^ e) : ℝ) - Real.arctan (m * 2 ^ e)| ≤ 1 / 8000) ∧
      (1 ≤ m * 2 ^ e → |(α (m * 2 ^ e) : ℝ) - Real.arctan (m * 2 ^ e)| ≤ 1 / 5400) := by
  obtain ⟨ρ, ⟨r1, r2, -⟩, hρ⟩ := C60_reciprocal_vha
  have G := Proof.Atan.goodVha
  have hT : (tmpVha t).W = 16 := rfl
  have hp : (51471 / 32768 : ℚ) ≤ 1.6 := by norm_num
  have ht := top_le (t := t) (s := tmpVha t) rfl rfl
  have e1' := Rat.cast_le (K := ℝ) |>.2 (eta_le (t := t) (s := tmpVha t) rfl rfl)
  rw [hT] at e1'
  push_cast at e1'
  refine ⟨V Model.Atan.atanVhaM Model.Atan.atanVhaC 18 6 15 (51471 / 32768) .TRN 27 (tmpVha t) ρ,
    ⟨fun x y h => V_mono G hp .TRN (by norm_num) (by omega) r2 h, fun x => ?_⟩, fun d m e hm h0 => ⟨?_, fun h => ?_, fun h => ?_⟩⟩
  · obtain ⟨a, b⟩ := V_range G hp .TRN (w := 27) (by norm_num) (tmpVha t) ρ x
    refine ⟨a, ?_⟩
    have := Rat.cast_le (K := ℝ) |>.2 b
    have := Real.pi_gt_d20
    push_cast at *
    linarith
  · refine model_eq G q .TRN 27 d fun h => hρ q _ t _ m e hW hm ?_
    rintro rfl; norm_num at h
  · have hx : 0 ≤ m * (2 : ℚ) ^ e := mul_nonneg h0 (Fmt.z_pos e).le
    have := V_low G hp .TRN (w := 27) (by norm_num) (by omega) ρ hx h (lt_of_lt_of_le (num_lt (by omega) hm) (Fmt.z_le ht))
    rw [hT] at this
    push_cast at this
    refine le_trans this ?_
    norm_num at e1' ⊢
    linarith
  · have hx : m * (2 : ℚ) ^ e ≠ 0 := by linarith
    have := V_high G hp .TRN (w := 27) (by norm_num) (by omega) h (δ := 27 / 1000000) (le_trans (top_pos (by omega) hm h) ht)
      (Proof.Atan.pi2_err (by norm_num) (by norm_num)) (r1 _ hx) (by norm_num)
    rw [hT] at this
    push_cast at this
    refine le_trans this ?_
    norm_num at e1' ⊢
    linarith

example : atanVha .TRN ⟨16, 2, 8, .TRN⟩ (FFmt.dst ⟨32, 2, 8, .TRN⟩) (3 / 2) 0 = some (131906825 / 134217728) := by decide +kernel

/-- **C67**, the output itself: for an output type `ac_float<o.W,o.I,o.E,o.Q>` that holds 1.6, the errors of `ac_atan_pwl_ha` and
`ac_atan_pwl_vha` are 1/5000 and 1/5400 plus the rounding of the output. -/
theorem C67_output (q : QMode) {t o : FFmt} (hW : 2 ≤ t.W) (ho : 1.6 ≤ o.maxVal) {m : ℚ} {e : ℤ} (hm : Num t m e) (h0 : 0 ≤ m) :
    (∃ y, atanHa q t o.dst m e = some y ∧ |(y : ℝ) - Real.arctan (m * 2 ^ e)| ≤
      1 / 5000 + (1.6 * 2 ^ (2 - (o.W : ℤ)) + 2 ^ (o.I - o.W - 2 ^ (o.E - 1)))) ∧
    ∃ y, atanVha q t o.dst m e = some y ∧ |(y : ℝ) - Real.arctan (m * 2 ^ e)| ≤
      1 / 5400 + (1.6 * 2 ^ (2 - (o.W : ℤ)) + 2 ^ (o.I - o.W - 2 ^ (o.E - 1))) := by
  have key : ∀ {α : ℚ → ℚ} {δ : ℝ}, Quadrant α → |(α (m * 2 ^ e) : ℝ) - Real.arctan (m * 2 ^ e)| ≤ δ →
      |((o.cvt (α (m * 2 ^ e)) : ℚ) : ℝ) - Real.arctan (m * 2 ^ e)| ≤ δ + (1.6 * 2 ^ (2 - (o.W : ℤ)) + 2 ^ (o.I - o.W - 2 ^ (o.E - 1))) := by
    intro α δ hα h
    obtain ⟨a0, a1⟩ := hα.2 (m * 2 ^ e)
    have a2 : α (m * 2 ^ e) ≤ 1.6 := by
      have := Real.pi_lt_d2
      have : (α (m * 2 ^ e) : ℝ) ≤ ((1.6 : ℚ) : ℝ) := by push_cast; linarith
      exact_mod_cast this
    have b := Proof.FloatCvt.cvt_abs (t := o) (le_trans (Proof.FloatCvt.min_nonpos o) a0) (le_trans a2 ho)
    rw [abs_of_nonneg a0] at b
    have c := mul_le_mul_of_nonneg_right a2 (Fmt.z_pos (2 - (o.W : ℤ))).le
    have b' := Rat.cast_le (K := ℝ) |>.2 (le_trans b (add_le_add_left c _))
    push_cast at b'
    have := abs_sub_le ((o.cvt (α (m * 2 ^ e)) : ℚ) : ℝ) (α (m * 2 ^ e) : ℝ) (Real.arctan (m * 2 ^ e))
    linarith
  obtain ⟨α, ha, h⟩ := C67_ha q t hW
  obtain ⟨β, hb, h'⟩ := C67_vha q t hW
  obtain ⟨a1, a2, a3⟩ := h o.dst m e hm h0
  obtain ⟨b1, b2, b3⟩ := h' o.dst m e hm h0
  refine ⟨⟨_, a1, key ha ?_⟩, ⟨_, b1, key hb ?_⟩⟩
  · rcases lt_or_ge (m * (2 : ℚ) ^ e) 1 with h | h
    · exact le_trans (a2 h) (by norm_num)
    · exact a3 h
  · rcases lt_or_ge (m * (2 : ℚ) ^ e) 1 with h | h
    · exact le_trans (b2 h) (by norm_num)
    · exact b3 h

example : (1.6 : ℚ) ≤ (FFmt.mk 24 2 6 .TRN).maxVal := by decide +kernel

/-- The step in `C67_pwl` cannot be dropped: for numbers of `ac_float<32,24,2>` the internal type has no fraction bits, and the
arctangent of 3/2 is computed as that of infinity. -/
theorem C67_step_counterexample : Num ⟨32, 24, 2, .TRN⟩ (3 / 2) 0 ∧
    atanPwl .TRN ⟨32, 24, 2, .TRN⟩ (FFmt.dst ⟨32, 2, 8, .TRN⟩) (3 / 2) 0 = some (1607 / 1024) ∧
    Real.arctan (3 / 2) < 1.3 := by
  refine ⟨⟨⟨384, by decide, by decide, by decide +kernel⟩, by decide, by decide⟩, by decide +kernel, ?_⟩
  have := (abs_le.1 (Proof.Atan.lipschitz (3 / 2) 1)).2
  rw [Real.arctan_one, abs_of_pos (by norm_num)] at this
  have := Real.pi_lt_d2
  norm_num
  linarith

end Props.FloatAtan
