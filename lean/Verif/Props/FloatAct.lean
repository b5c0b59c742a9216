import Verif.Proof.FloatAct

/-!
# C66: sigmoid, hyperbolic tangent and tangent of floating-point numbers

`ac_sigmoid_pwl`, `ac_tanh_pwl` and `ac_tan_pwl` for ac_float.  The input is the mantissa `m` times `2 ^ e`; the output type is
arbitrary: what is converted to it is the same for all of them.
-/

namespace Props.FloatAct
open Ac Model.Float Model.FloatTrig Spec

/-- **C66**, sigmoid: one nondecreasing function of the value of the input, between 0 and 1, within 1/140 of the logistic
function everywhere and within 1/248 up to magnitude 5. -/
theorem C66_sigmoid : ∃ σ : ℚ → ℚ, Monotone σ ∧ (∀ x, 0 < σ x ∧ σ x < 1) ∧ (∀ x : ℚ, |(σ x : ℝ) - logistic x| ≤ 1 / 140) ∧
    (∀ x : ℚ, |x| < 5 - 1 / 2 ^ 11 → |(σ x : ℝ) - logistic x| ≤ 1 / 248) ∧
    ∀ (q : QMode) (t : FFmt) (d : Dst) (m : ℚ) (e : ℤ), 1 ≤ t.W → t.mant.Rep m → sigmoid q t d m e = some (d.cvt (σ (m * 2 ^ e))) := by
  have near : ∀ {x : ℚ}, |actIn.cvt x - x| ≤ 1 / 2 ^ 11 → |logistic ((actIn.cvt x : ℚ) : ℝ) - logistic x| ≤ 1 / 8192 := by
    intro x h
    refine le_trans (Proof.FloatAct.logistic_near _ _) ?_
    have := (Rat.cast_le (K := ℝ)).2 h
    push_cast at this
    linarith
  refine ⟨fun x => Proof.FloatAct.S (actIn.cvt x), fun x y h => Proof.FloatAct.S_mono (Proof.FloatAct.act_mono h), fun x => ?_,
    fun x => ?_, fun x hx => ?_, fun q t d m e hW hm => Proof.FloatAct.sigmoid_eq q hW d hm e⟩
  · obtain ⟨k, k0, k1, hk⟩ := Proof.FloatAct.S_unit (actIn.cvt x)
    have h0 : (0 : ℚ) < k := by exact_mod_cast k0
    have h1 : (k : ℚ) < ((2 ^ 20 : ℤ) : ℚ) := by exact_mod_cast k1
    push_cast at h1
    simp only [hk]
    exact ⟨by positivity, by rw [div_lt_one (by norm_num)]; exact h1⟩
  · rcases Proof.FloatAct.act_cases x with h | ⟨h, e⟩ | ⟨h, e⟩
    · have a := (Proof.FloatAct.S_err (actIn.cvt x)).1
      have b := near h
      have := abs_sub_le (Proof.FloatAct.S (actIn.cvt x) : ℝ) (logistic ((actIn.cvt x : ℚ) : ℝ)) (logistic x)
      norm_num at a b this ⊢
      linarith
    · have a := (Proof.FloatAct.S_err x).1
      beta_reduce
      rw [e, Proof.FloatAct.S_high (by norm_num), ← Proof.FloatAct.S_high h]
      exact le_trans a (by norm_num)
    · have a := (Proof.FloatAct.S_err x).1
      beta_reduce
      rw [e, Proof.FloatAct.S_low (by norm_num), ← Proof.FloatAct.S_low h]
      exact le_trans a (by norm_num)
  · obtain ⟨x0, x1⟩ := abs_lt.1 hx
    rcases Proof.FloatAct.act_cases x with h | ⟨h, e⟩ | ⟨h, e⟩
    · have a := (Proof.FloatAct.S_err (actIn.cvt x)).2 (by
        have := abs_sub_abs_le_abs_sub (actIn.cvt x) x
        linarith)
      have b := near h
      have := abs_sub_le (Proof.FloatAct.S (actIn.cvt x) : ℝ) (logistic ((actIn.cvt x : ℚ) : ℝ)) (logistic x)
      norm_num at a b this ⊢
      linarith
    · norm_num at x1; linarith
    · norm_num at x0; linarith

example : sigmoid .TRN ⟨16, 2, 8, .TRN⟩ (FFmt.dst ⟨24, 1, 8, .TRN⟩) (-3 / 2) 0 = some (48449 / 262144) := by decide +kernel

/-- **C66**, hyperbolic tangent: one nondecreasing function of the value of the input, between -1 and 1, within 1/182 of the
hyperbolic tangent, if a read outside the table yields some number: which one does not matter.  -/
theorem C66_tanh : ∃ τ : ℚ → ℚ, Monotone τ ∧ (∀ x, -1 < τ x ∧ τ x < 1) ∧ (∀ x : ℚ, |(τ x : ℝ) - Real.tanh x| ≤ 1 / 182) ∧
    ∀ (g : ℕ → ℤ × ℤ) (q : QMode) (t : FFmt) (d : Dst) (m : ℚ) (e : ℤ), 1 ≤ t.W → t.mant.Rep m →
      tanh (fun i => some (g i)) q t d m e = some (d.cvt (τ (m * 2 ^ e))) := by
  refine ⟨fun x => Proof.FloatAct.T (actIn.cvt x), fun x y h => Proof.FloatAct.T_mono (Proof.FloatAct.act_mono h), fun x => ?_,
    fun x => ?_, fun g q t d m e hW hm => Proof.FloatAct.tanh_eq g q hW d hm e⟩
  · obtain ⟨k, k0, k1, hk⟩ := Proof.FloatAct.T_unit (actIn.cvt x)
    have h0 : (0 : ℚ) < k := by exact_mod_cast k0
    have h1 : (k : ℚ) < ((2 ^ 20 : ℤ) : ℚ) := by exact_mod_cast k1
    push_cast at h1
    simp only [hk]
    rw [lt_div_iff₀ (by norm_num), div_lt_one (by norm_num)]
    split_ifs
    · push_cast; constructor <;> linarith
    · constructor <;> linarith
  · rcases Proof.FloatAct.act_cases x with h | ⟨h, e⟩ | ⟨h, e⟩
    · have a := Proof.FloatAct.T_err (actIn.cvt x)
      have b := Proof.FloatAct.tanh_near ((actIn.cvt x : ℚ) : ℝ) x
      have h' := (Rat.cast_le (K := ℝ)).2 h
      push_cast at h'
      have := abs_sub_le (Proof.FloatAct.T (actIn.cvt x) : ℝ) (Real.tanh ((actIn.cvt x : ℚ) : ℝ)) (Real.tanh x)
      norm_num at a b h' this ⊢
      linarith
    · have a := Proof.FloatAct.T_err x
      beta_reduce
      rw [e, Proof.FloatAct.T_high (by norm_num), ← Proof.FloatAct.T_high (by linarith : (3 : ℚ) ≤ x)]
      exact le_trans a (by norm_num)
    · have a := Proof.FloatAct.T_err x
      beta_reduce
      rw [e, Proof.FloatAct.T_low (by norm_num), ← Proof.FloatAct.T_low (by linarith : x ≤ -3)]
      exact le_trans a (by norm_num)

example : tanh (fun _ => none) .TRN ⟨16, 2, 8, .TRN⟩ (FFmt.dst ⟨24, 1, 8, .TRN⟩) (-3 / 2) 0 = some (-928 / 1024) := by decide +kernel

/-- **C66**, table safety of the hyperbolic tangent, up to magnitude 3. Missing: larger inputs, where it is false. -/
theorem C66_tanh_table_partial (q : QMode) {t : FFmt} (hW : 1 ≤ t.W) (d : Dst) {m : ℚ} (hm : t.mant.Rep m) (e : ℤ)
    (h : |m * 2 ^ e| < 3 - 1 / 2 ^ 11) : (tanh (fun _ => none) q t d m e).isSome := by
  unfold tanh
  rw [Proof.FloatTrig.shift_mant hW (g := actIn) (by decide) rfl hm e]
  unfold Model.Pwl.tanh
  obtain ⟨x0, x1⟩ := abs_lt.1 h
  have h3 : |actIn.cvt (m * 2 ^ e)| < 3 := by
    rcases Proof.FloatAct.act_cases (m * 2 ^ e) with h' | ⟨h', -⟩ | ⟨h', -⟩
    · have := abs_sub_abs_le_abs_sub (actIn.cvt (m * 2 ^ e)) (m * 2 ^ e)
      linarith
    · norm_num at x1; linarith
    · norm_num at x0; linarith
  have := Proof.Tanh.tanhPwl_in (fun _ => none) q (f := actIn) (by decide) (Proof.FloatAct.act_rep (m * 2 ^ e)) h3
  rw [this]; rfl

/-- From 3 to 4 every input reads outside the table: undefined behaviour in C++. -/
theorem C66_tanh_table_counterexample (q : QMode) {t : FFmt} (hW : 1 ≤ t.W) (d : Dst) {m : ℚ} (hm : t.mant.Rep m) (e : ℤ)
    (h3 : 3 ≤ m * 2 ^ e) (h4 : m * 2 ^ e < 4 - 1 / 2 ^ 11) : tanh (fun _ => none) q t d m e = none := by
  unfold tanh
  rw [Proof.FloatTrig.shift_mant hW (g := actIn) (by decide) rfl hm e]
  unfold Model.Pwl.tanh
  have lo : 3 ≤ actIn.cvt (m * 2 ^ e) := by
    have := Proof.FloatAct.act_mono h3
    rwa [show actIn.cvt (3 : ℚ) = 3 by decide +kernel] at this
  have hi : actIn.cvt (m * 2 ^ e) < 4 := by
    rcases Proof.FloatAct.act_cases (m * 2 ^ e) with h' | ⟨h', -⟩ | ⟨h', -⟩
    · have := (abs_le.1 h').2; linarith
    · norm_num at h4; linarith
    · linarith
  have := Proof.Tanh.tanhPwl_oob q (f := actIn) (by decide) (Proof.FloatAct.act_rep (m * 2 ^ e))
    (by rw [abs_of_nonneg (by linarith)]; exact lo) (by rw [abs_of_nonneg (by linarith)]; exact hi)
  rw [this]; rfl

example : ∃ m : ℚ, (⟨16, 2, 8, .TRN⟩ : FFmt).mant.Rep m ∧ 3 ≤ m * 2 ^ (1 : ℤ) ∧ m * 2 ^ (1 : ℤ) < 4 - 1 / 2 ^ 11 :=
  ⟨3 / 2, ⟨24576, by decide, by decide, by decide +kernel⟩, by norm_num, by norm_num⟩

/-- **C66**, tangent: for inputs from 0 to a quarter turn one nondecreasing function of the value of the input, the tangent of an
angle within 1/127 of it; 1/209 up to 1.5566, 1/667 up to 804/1024. -/
theorem C66_tan (q : QMode) : ∃ τ : ℚ → ℚ, (∀ x x' : ℚ, 0 ≤ x → x ≤ x' → (x' : ℝ) ≤ Real.pi / 2 → τ x ≤ τ x') ∧
    (∀ x : ℚ, 0 ≤ x → (x : ℝ) ≤ Real.pi / 2 → 0 ≤ τ x ∧ |Real.arctan (τ x) - x| ≤ 1 / 127 ∧
      (x < 1.5566 → |Real.arctan (τ x) - x| ≤ 1 / 209) ∧ (x < 804 / 1024 - 1 / 2 ^ 22 → |Real.arctan (τ x) - x| ≤ 1 / 667)) ∧
    ∀ (t : FFmt) (d : Dst) (m : ℚ) (e : ℤ), 2 ≤ t.W → t.mant.Rep m → 0 ≤ m → tan q t d m e = some (d.cvt (τ (m * 2 ^ e))) := by
  have quarter : ∀ {x : ℚ}, (x : ℝ) ≤ Real.pi / 2 → x ≤ 8 / 5 := by
    intro x h
    have := Real.pi_lt_d6
    have : (x : ℝ) ≤ ((8 / 5 : ℚ) : ℝ) := by push_cast; linarith
    exact_mod_cast this
  refine ⟨Proof.FloatAct.tau q, ?_, ?_, fun t d m e hW hm h0 => Proof.FloatAct.tan_eq q hW d hm h0 e⟩
  · intro x x' h0 h h1
    have b := quarter h1
    have hm := Proof.FloatAct.tan_in_mono h0 h b
    rcases lt_or_ge (tanIn.cvt x') 1.556640625 with c | c
    · exact (Proof.FloatAct.tan_low q h0 (le_trans h b) (le_trans h0 h) b (lt_of_le_of_lt hm c) c).2.2.2.2 hm
    · rcases lt_or_ge (tanIn.cvt x) 1.556640625 with c' | c'
      · have := (Proof.FloatAct.tan_low q h0 (le_trans h b) h0 (le_trans h b) c' c').2.1
        rw [Proof.FloatAct.tanOut_max] at this
        rw [Proof.FloatAct.tau_high q c]; exact this
      · rw [Proof.FloatAct.tau_high q c, Proof.FloatAct.tau_high q c']
  · intro x h0 h1
    have b := quarter h1
    have near := (Proof.FloatAct.tan_in h0 b).2
    have near' := (Rat.cast_le (K := ℝ)).2 near
    push_cast at near'
    have tri := abs_sub_le (Real.arctan (Proof.FloatAct.tau q x)) ((tanIn.cvt x : ℚ) : ℝ) (x : ℝ)
    rcases lt_or_ge (tanIn.cvt x) 1.556640625 with c | c
    · obtain ⟨t0, -, t1, t2, -⟩ := Proof.FloatAct.tan_low q h0 b h0 b c c
      refine ⟨t0, ?_, fun _ => ?_, fun h => ?_⟩
      · norm_num at near' t2 tri ⊢; linarith
      · norm_num at near' t2 tri ⊢; linarith
      · have := t1 (by have := (abs_le.1 near).2; linarith)
        norm_num at near' this tri ⊢; linarith
    · have lo : 1.556640625 - 1 / 2 ^ 22 ≤ x := by have := (abs_le.1 near).2; linarith
      have lo' := (Rat.cast_le (K := ℝ)).2 lo
      rw [Proof.FloatAct.tau_high q c]
      refine ⟨by norm_num, ?_, fun h => ?_, fun h => ?_⟩
      · have k1 := Proof.FloatAct.arctan_large (r := ((128 - 1 / 2 ^ 29 : ℚ) : ℝ)) (by norm_num)
        have k2 := Real.arctan_inv_of_pos (x := ((128 - 1 / 2 ^ 29 : ℚ) : ℝ)) (by norm_num)
        have k3 := Proof.FloatAct.arctan_small (z := (((128 - 1 / 2 ^ 29 : ℚ) : ℝ))⁻¹) (by norm_num) (by norm_num)
        have hp := Real.pi_lt_d6
        rw [abs_le]
        push_cast at k1 k2 k3 lo' ⊢
        norm_num at k1 k2 k3 lo' ⊢
        constructor <;> linarith
      · exfalso; norm_num at h lo; linarith
      · exfalso; norm_num at h lo; linarith

example : tan .TRN ⟨16, 2, 8, .TRN⟩ (FFmt.dst ⟨24, 1, 8, .TRN⟩) (3 / 2) (-1) = some (61199 / 65536) := by decide +kernel

/-- The errors of C66 are absolute: the tangent of a small angle is 0, the hyperbolic tangent of a small number 1/1024. -/
theorem C66_small_counterexample : tan .TRN ⟨16, 2, 8, .TRN⟩ (FFmt.dst ⟨16, 2, 8, .TRN⟩) 1 (-24) = some 0 ∧
    tanh (fun _ => none) .TRN ⟨16, 2, 8, .TRN⟩ (FFmt.dst ⟨16, 2, 8, .TRN⟩) 1 (-24) = some (1 / 1024) ∧
    (⟨16, 2, 8, .TRN⟩ : FFmt).mant.Rep 1 :=
  ⟨by decide +kernel, by decide +kernel, ⟨16384, by decide, by decide, by decide +kernel⟩⟩

end Props.FloatAct
