import Verif.Props.StdFloat
import Verif.Props.FloatHcordicPow

/-! # C80: logarithms, exponentials, activation and trigonometric functions of IEEE numbers -/

namespace Props.StdFloatFns
open Ac Model.StdFloat Spec.StdFloat Proof.StdFloat
open Props.FloatRec (Num)
open Props.StdFloat (num normal m_pos m_nonneg W_ge nan_false sgn_false)
open Model.Float (FFmt Dst)
open Model.StdAddTree (nan sgn)
open Props.FloatPow (range)
open Props.FloatHcordicLog (bits)
open Props.HcordicLog (ulps2 ulpsE)

variable {c : Conv} {Mi Ei Mo Eo d : ℕ}

theorem two_le_largest (ho : 2 ≤ Eo) : (2 : ℝ) ≤ ((largest Mo Eo : ℚ) : ℝ) := by
  have h1 : (2 : ℤ) ≤ 2 ^ (Eo - 1) := by
    have : 2 ^ 1 ≤ 2 ^ (Eo - 1) := Nat.pow_le_pow_right (by norm_num) (by omega)
    exact_mod_cast this
  have h2 : (2 : ℚ) ^ Mo ≤ 2 ^ (Mo + 1) - 1 := by
    have : (1 : ℚ) ≤ 2 ^ Mo := one_le_pow₀ (by norm_num)
    rw [pow_succ]; linarith
  have : (2 : ℚ) ≤ largest Mo Eo := by
    unfold largest
    refine le_trans ?_ (mul_le_mul_of_nonneg_right h2 (Fmt.z_pos _).le)
    rw [← zpow_natCast, Fmt.z_add]
    calc (2 : ℚ) = 2 ^ (1 : ℤ) := by norm_num
      _ ≤ _ := Fmt.z_le (by simp only [bias_eq]; omega)
  exact_mod_cast (Rat.cast_le (K := ℝ)).2 this

theorem smallest_le_one (ho : 2 ≤ Eo) : smallest Eo ≤ 1 := by
  unfold smallest
  have : (2 : ℤ) ≤ 2 ^ (Eo - 1) := by
    have : 2 ^ 1 ≤ 2 ^ (Eo - 1) := Nat.pow_le_pow_right (by norm_num) (by omega)
    exact_mod_cast this
  calc _ ≤ (2 : ℚ) ^ (0 : ℤ) := Fmt.z_le (by simp only [bias_eq]; omega)
    _ = 1 := by norm_num

theorem one_num (ho : 2 ≤ Eo) : (fl .TRN Mo Eo).cvt 1 = 1 := by
  have hp : (2 : ℤ) ≤ 2 ^ (Eo - 1) := by
    have : 2 ^ 1 ≤ 2 ^ (Eo - 1) := Nat.pow_le_pow_right (by norm_num) (by omega)
    exact_mod_cast this
  have hw : (fl .TRN Mo Eo).W - 1 = Mo + 1 := rfl
  have hm : (0 : ℤ) < 2 ^ Mo := by positivity
  have hm2 : (2 : ℤ) ^ (Mo + 1) = 2 * 2 ^ Mo := by ring
  have := Proof.FloatNum.isNum_of (t := fl .TRN Mo Eo) (r := 2 ^ Mo) (e := 0) (by rw [hw]; omega) (by rw [hw]; omega)
    (by simp only [fl]; omega) (by simp only [fl]; omega)
  refine cvt_num (by simp [fl]) ?_
  convert this using 1
  have : ((fl .TRN Mo Eo).I - ((fl .TRN Mo Eo).W : ℤ)) = -Mo := by simp only [fl]; push_cast; ring
  rw [this, zpow_neg]
  simp

/-- **C80**, logarithms: those of every number from a quarter of the smallest normal one on.  Missing: smaller numbers, which are not
normalised (C62). -/
theorem C80_log_pwl_partial (hc : Ok c) (q : QMode) (hi : 2 ≤ Ei) (ho : 2 ≤ Eo) (hd : Finite Mi Ei d) {x : ℚ}
    (hx : x = value false Mi Ei d) (h0 : smallest Ei / 4 ≤ x) :
    (|Real.logb 2 x| + 1 / 600 ≤ ((largest Mo Eo : ℚ) : ℝ) →
      Near Mo Eo (log2Pwl c q Mi Ei Mo Eo d) (Real.logb 2 x) (absErr Mo Eo (1 / 600) (Real.logb 2 x))) ∧
    (|Real.log x| + (1 / 860 + |Real.log x| / 450000) ≤ ((largest Mo Eo : ℚ) : ℝ) →
      Near Mo Eo (logPwl c q Mi Ei Mo Eo d) (Real.log x) (absErr Mo Eo (1 / 860 + |Real.log x| / 450000) (Real.log x))) := by
  rcases hr : Model.CholFloat.rep (fl .TRN Mi Ei) (value false Mi Ei d) with ⟨m, e⟩
  obtain ⟨hn, hv⟩ := num hi hd hr
  rw [← hx] at hv
  have hx0 : 0 < x := lt_of_lt_of_le (div_pos (Fmt.z_pos _) (by norm_num)) h0
  obtain ⟨l, -, l1, l2, l3⟩ := Props.FloatLog.C62_log_partial
  have h3 := fun dd => l3 q (fl .TRN Mi Ei) dd m e (W_ge _ _ _) hn (normal (hx ▸ h0) hr)
  rw [hv] at h3
  exact ⟨fun h => call_abs hc ho hd (y := l x) (l1 x hx0) h (by rw [hr]; exact (h3 _).1),
    fun h => call_abs hc ho hd (y := l x * Model.Float.ln2) (l2 x hx0) h (by rw [hr]; exact (h3 _).2)⟩

example : smallest 5 / 4 ≤ value false 10 5 0x0200 ∧ value false 10 5 0x0200 = 1 / 2 ^ 15 := by decide +kernel

/-- **C80**, `ac_pow2_pwl`: right up to 1/350 and a unit in the last place where the power is in the range of the normal numbers. -/
theorem C80_pow2_pwl (hc : Ok c) (nanSup : Bool) (q : QMode) (hi : 2 ≤ Ei) (ho : 2 ≤ Eo) (hd : Finite Mi Ei d) {x : ℚ}
    (hx : x = value false Mi Ei d) (h : InRange Mo Eo (1 / 350) ((2 : ℝ) ^ (x : ℝ))) :
    Near Mo Eo (pow2Pwl c nanSup q Mi Ei Mo Eo d) ((2 : ℝ) ^ (x : ℝ)) (relErr Mo (1 / 350) * |(2 : ℝ) ^ (x : ℝ)|) := by
  rcases hr : Model.CholFloat.rep (fl .TRN Mi Ei) (value false Mi Ei d) with ⟨m, e⟩
  obtain ⟨hn, hv⟩ := num hi hd hr
  rw [← hx] at hv
  obtain ⟨p, -, -, p1, p2⟩ := Props.FloatPow.C63_pow2 q (fl .TRN Mo Eo) (by simp [fl])
  have hp : (0 : ℝ) < (2 : ℝ) ^ (x : ℝ) := Real.rpow_pos_of_pos (by norm_num) _
  have hxr : |x| ≤ range (fl .TRN Mo Eo) := by
    obtain ⟨h1, h2⟩ := h
    rw [abs_of_pos hp] at h1 h2
    have r0 : ((2 ^ (Eo - 1) : ℤ) : ℝ) ≤ ((range (fl .TRN Mo Eo) : ℚ) : ℝ) := by
      have : (2 : ℤ) ^ (Eo - 1) ≤ range (fl .TRN Mo Eo) := by
        unfold range
        have : (1 : ℤ) ≤ max ((fl .TRN Mo Eo).I - 1) ((fl .TRN Mo Eo).W - (fl .TRN Mo Eo).I) := le_max_of_le_left (by simp [fl])
        have e : (fl .TRN Mo Eo).E = Eo := rfl
        rw [e]; linarith
      exact_mod_cast this
    have lo : ((1 - bias Eo : ℤ) : ℝ) ≤ x := by
      have : (2 : ℝ) ^ ((1 - bias Eo : ℤ) : ℝ) ≤ 2 ^ (x : ℝ) := by
        rw [Real.rpow_intCast]
        have : ((smallest Eo : ℚ) : ℝ) = 2 ^ (1 - bias Eo) := by unfold smallest; push_cast; rfl
        rw [← this]; linarith
      exact (Real.rpow_le_rpow_left_iff (by norm_num)).1 this
    have hi' : (x : ℝ) ≤ ((bias Eo + 1 : ℤ) : ℝ) := by
      have : (2 : ℝ) ^ (x : ℝ) ≤ 2 ^ ((bias Eo + 1 : ℤ) : ℝ) := by
        rw [Real.rpow_intCast]
        have h3 : largest Mo Eo ≤ 2 ^ (bias Eo + 1) := by
          unfold largest
          have : (2 : ℚ) ^ (bias Eo + 1) = 2 ^ (Mo + 1) * 2 ^ (bias Eo - Mo) := by
            rw [← zpow_natCast, Fmt.z_add]; congr 1; push_cast; ring
          rw [this]
          exact mul_le_mul_of_nonneg_right (by linarith) (Fmt.z_pos _).le
        have h4 := (Rat.cast_le (K := ℝ)).2 h3
        push_cast at h4
        linarith
      exact (Real.rpow_le_rpow_left_iff (by norm_num)).1 this
    rw [bias_eq] at lo hi'
    push_cast at lo hi' r0
    have : ((|x| : ℚ) : ℝ) ≤ ((range (fl .TRN Mo Eo) : ℚ) : ℝ) := by
      push_cast
      rw [abs_le]; constructor <;> linarith
    exact (Rat.cast_le (K := ℝ)).1 this
  have key := call_rel hc (f := fun t o m e => Model.Float.pow2Pwl q t o o.dst m e) ho hd (y := p x)
    (by rw [abs_of_pos hp]; exact p1 x hxr) h (by rw [hr, ← hv]; exact p2 _ _ m e (by simp [fl]) hn)
  unfold pow2Pwl
  have : (fun r => if nanSup = true ∧ nan Mi Ei d = true then c.nan Mo Eo else r) = id := by
    funext r; simp [nan_false hd]
  rw [this, Option.map_id]
  exact key

/-- **C80**, `ac_exp_pwl`: the same, with the errors and for the arguments of C63. -/
theorem C80_exp_pwl (hc : Ok c) (nanSup : Bool) (q : QMode) (hi : 2 ≤ Ei) (ho : 2 ≤ Eo) (hd : Finite Mi Ei d) {x : ℚ}
    (hx : x = value false Mi Ei d) (h0 : |x| ≤ 2 / 3 * range (fl .TRN Mo Eo)) :
    (|x| ≤ 64 → InRange Mo Eo (1 / 256) (Real.exp x) →
      Near Mo Eo (expPwl c nanSup q Mi Ei Mo Eo d) (Real.exp x) (relErr Mo (1 / 256) * |Real.exp x|)) ∧
    (|x| ≤ 800 → InRange Mo Eo (1 / 80) (Real.exp x) →
      Near Mo Eo (expPwl c nanSup q Mi Ei Mo Eo d) (Real.exp x) (relErr Mo (1 / 80) * |Real.exp x|)) := by
  rcases hr : Model.CholFloat.rep (fl .TRN Mi Ei) (value false Mi Ei d) with ⟨m, e⟩
  obtain ⟨hn, hv⟩ := num hi hd hr
  rw [← hx] at hv
  obtain ⟨p, -, -, p1, p1', p2⟩ := Props.FloatPow.C63_exp q (fl .TRN Mo Eo) (by simp [fl])
  have hp := abs_of_pos (Real.exp_pos (x : ℝ))
  have hid : (fun r => if nanSup = true ∧ nan Mi Ei d = true then setSign Mo Eo (c.nan Mo Eo) (sgn Mi Ei d) else r) = id := by
    funext r; simp [nan_false hd]
  unfold expPwl
  rw [hid, Option.map_id]
  exact ⟨fun hb h => call_rel hc (f := fun t o m e => Model.Float.expPwl q t o o.dst m e) ho hd (y := p x)
      (by rw [hp]; exact p1 x h0 hb) h (by rw [hr, ← hv]; exact p2 _ _ m e (by simp [fl]) hn),
    fun hb h => call_rel hc (f := fun t o m e => Model.Float.expPwl q t o o.dst m e) ho hd (y := p x)
      (by rw [hp]; exact p1' x h0 hb) h (by rw [hr, ← hv]; exact p2 _ _ m e (by simp [fl]) hn)⟩

/-- **C80**, exponentials of a NaN with AC_POW_PWL_NAN_SUPPORTED: a NaN, without the sign bit for `ac_pow2_pwl`, and with the sign of the
argument for `ac_exp_pwl`. -/
theorem C80_exp_pwl_nan (hc : Ok c) (q : QMode) (hM : 1 ≤ Mo) (hd : nan Mi Ei d = true) :
    (∀ r, pow2Pwl c true q Mi Ei Mo Eo d = some r → nan Mo Eo r = true ∧ sgn Mo Eo r = false) ∧
    ∀ r, expPwl c true q Mi Ei Mo Eo d = some r → nan Mo Eo r = true ∧ sgn Mo Eo r = sgn Mi Ei d := by
  constructor
  · intro r h
    unfold pow2Pwl at h
    obtain ⟨r', -, h'⟩ := Option.map_eq_some_iff.1 h
    rw [if_pos ⟨rfl, hd⟩] at h'
    rw [← h']
    exact (hc.nan Mo Eo hM).2
  · intro r h
    unfold expPwl at h
    obtain ⟨r', -, h'⟩ := Option.map_eq_some_iff.1 h
    rw [if_pos ⟨rfl, hd⟩] at h'
    rw [← h', setSign_nan]
    exact ⟨(hc.nan Mo Eo hM).2.1, (setSign_spec _ _ _ _).1⟩

/-- The exponentials of 5/2 in binary16, and a NaN. -/
example : value false 10 5 0x4100 = 5 / 2 ∧ (range (fl .TRN 10 5) : ℤ) = 26 ∧ |(5 / 2 : ℚ)| ≤ 2 / 3 * 26 ∧ nan 10 5 0xfe00 = true := by
  decide +kernel

/-- **C80**, activation functions: for every number the sigmoid within 1/140 and the hyperbolic tangent within 1/182, whatever the reads
past the end of its table give, and the error of the output type. -/
theorem C80_activation (hc : Ok c) (q : QMode) (g : ℕ → ℤ × ℤ) (hi : 2 ≤ Ei) (ho : 2 ≤ Eo) (hd : Finite Mi Ei d) {x : ℚ}
    (hx : x = value false Mi Ei d) :
    Near Mo Eo (sigmoidPwl c q Mi Ei Mo Eo d) (Spec.logistic x) (absErr Mo Eo (1 / 140) (Spec.logistic x)) ∧
    Near Mo Eo (tanhPwl c (fun i => some (g i)) q Mi Ei Mo Eo d) (Real.tanh x) (absErr Mo Eo (1 / 182) (Real.tanh x)) := by
  rcases hr : Model.CholFloat.rep (fl .TRN Mi Ei) (value false Mi Ei d) with ⟨m, e⟩
  obtain ⟨hn, hv⟩ := num hi hd hr
  rw [← hx] at hv
  have h2 := two_le_largest (Mo := Mo) ho
  obtain ⟨σ, -, s0, s1, -, s2⟩ := Props.FloatAct.C66_sigmoid
  obtain ⟨τ, -, t0, t1, t2⟩ := Props.FloatAct.C66_tanh
  constructor
  · refine call_abs hc ho hd (y := σ x) (s1 x) ?_ (by rw [hr, ← hv]; exact s2 q _ _ m e (by simp [fl]) hn.1)
    have := s1 x
    have a : (0 : ℝ) < σ x ∧ (σ x : ℝ) < 1 := by exact_mod_cast s0 x
    have b : |Spec.logistic x| ≤ 1 + 1 / 140 := by
      obtain ⟨b1, b2⟩ := abs_le.1 this
      rw [abs_le]; constructor <;> linarith
    linarith
  · refine call_abs hc ho hd (y := τ x) (t1 x) ?_ (by rw [hr, ← hv]; exact t2 g q _ _ m e (by simp [fl]) hn.1)
    have := t1 x
    have a : (-1 : ℝ) < τ x ∧ (τ x : ℝ) < 1 := by exact_mod_cast t0 x
    have b : |Real.tanh x| ≤ 1 + 1 / 182 := by
      obtain ⟨b1, b2⟩ := abs_le.1 this
      rw [abs_le]; constructor <;> linarith
    linarith

/-- -2^-14 is among the numbers. -/
example : Finite 10 5 0x8400 ∧ value false 10 5 0x8400 = -1 / 2 ^ 14 := ⟨⟨by decide, by decide⟩, by decide +kernel⟩

/-- **C80**, sine and cosine of every number of half turns, within 2^-24 and the error of the output type. -/
theorem C80_sin_cos (hc : Ok c) (hi : 2 ≤ Ei) (ho : 2 ≤ Eo) (hd : Finite Mi Ei d) {x : ℚ} (hx : x = value false Mi Ei d) :
    Near Mo Eo (sinCordic c Mi Ei Mo Eo d) (Real.sin (Real.pi * x)) (absErr Mo Eo (1 / 2 ^ 24) (Real.sin (Real.pi * x))) ∧
    Near Mo Eo (cosCordic c Mi Ei Mo Eo d) (Real.cos (Real.pi * x)) (absErr Mo Eo (1 / 2 ^ 24) (Real.cos (Real.pi * x))) := by
  rcases hr : Model.CholFloat.rep (fl .TRN Mi Ei) (value false Mi Ei d) with ⟨m, e⟩
  obtain ⟨hn, hv⟩ := num hi hd hr
  rw [← hx] at hv
  have h2 := two_le_largest (Mo := Mo) ho
  obtain ⟨sn, cs, a1, a2, b1, b2⟩ := Props.FloatTrig.C65_sin_cos (fl .TRN Mi Ei) (by simp [fl]) hn.1 e
  rw [hv] at b1 b2
  refine ⟨call_abs hc ho hd b1 ?_ (by rw [hr]; exact a1 _), call_abs hc ho hd b2 ?_ (by rw [hr]; exact a2 _)⟩
  · have := Real.abs_sin_le_one (Real.pi * x); norm_num at *; linarith
  · have := Real.abs_cos_le_one (Real.pi * x); norm_num at *; linarith

/-- 25/2 half turns. -/
example : Finite 10 5 0x4a40 ∧ value false 10 5 0x4a40 = 25 / 2 := ⟨⟨by decide, by decide⟩, by decide +kernel⟩

/-- **C80**, arcsine and arccosine in half turns of every number in `[-1, 1]`: within 1/1023 and the error of the output type, for
multiples of 2^-18 within 2^-27. -/
theorem C80_arcsin_arccos (hc : Ok c) (hi : 2 ≤ Ei) (ho : 2 ≤ Eo) (hd : Finite Mi Ei d) {x : ℚ} (hx : x = value false Mi Ei d)
    (h1 : |x| ≤ 1) {δ : ℝ} (hδ : δ = 1 / 1023 ∨ ((∃ k : ℤ, x = k / 2 ^ 18) ∧ δ = 1 / 2 ^ 27)) :
    Near Mo Eo (arcsinCordic c Mi Ei Mo Eo d) (Real.arcsin x / Real.pi) (absErr Mo Eo δ (Real.arcsin x / Real.pi)) ∧
    Near Mo Eo (arccosCordic c Mi Ei Mo Eo d) (Real.arccos x / Real.pi) (absErr Mo Eo δ (Real.arccos x / Real.pi)) := by
  rcases hr : Model.CholFloat.rep (fl .TRN Mi Ei) (value false Mi Ei d) with ⟨m, e⟩
  obtain ⟨hn, hv⟩ := num hi hd hr
  rw [← hx] at hv
  have h2 := two_le_largest (Mo := Mo) ho
  have hd1 : δ ≤ 1 := by rcases hδ with h | ⟨-, h⟩ <;> rw [h] <;> norm_num
  obtain ⟨y, a1, a2, a3⟩ := Props.FloatTrig.C65_arcsin (fl .TRN Mi Ei) (by simp [fl]) hn.1 e (by rw [hv]; exact h1)
  obtain ⟨z, b1, b2, b3⟩ := Props.FloatTrig.C65_arccos (fl .TRN Mi Ei) (by simp [fl]) hn.1 e (by rw [hv]; exact h1)
  rw [hv] at a2 a3 b2 b3
  have hy : |(y : ℝ) - Real.arcsin x / Real.pi| ≤ δ := by
    rcases hδ with h | ⟨hk, h⟩ <;> rw [h]
    · exact a2
    · exact a3 hk
  have hz : |(z : ℝ) - Real.arccos x / Real.pi| ≤ δ := by
    rcases hδ with h | ⟨hk, h⟩ <;> rw [h]
    · exact b2
    · exact b3 hk
  have hpi := Real.pi_pos
  refine ⟨call_abs hc ho hd hy ?_ (by rw [hr]; exact a1 _), call_abs hc ho hd hz ?_ (by rw [hr]; exact b1 _)⟩
  · have : |Real.arcsin x / Real.pi| ≤ 1 := by
      rw [abs_div, abs_of_pos hpi, div_le_one hpi, abs_le]
      have := Real.neg_pi_div_two_le_arcsin x
      have := Real.arcsin_le_pi_div_two x
      constructor <;> linarith
    linarith
  · have : |Real.arccos x / Real.pi| ≤ 1 := by
      rw [abs_div, abs_of_pos hpi, div_le_one hpi, abs_of_nonneg (Real.arccos_nonneg _)]
      exact Real.arccos_le_pi _
    linarith

example : value false 10 5 0xb800 = -1 / 2 ∧ |(-1 / 2 : ℚ)| ≤ 1 ∧ (-1 / 2 : ℚ) = (-131072 : ℤ) / 2 ^ 18 := by decide +kernel

/-- **C80**, arctangents of every number that is not negative: within 1/5000 for `ac_atan_pwl_ha` and 1/5400 for `ac_atan_pwl_vha`. -/
theorem C80_atan (hc : Ok c) (q : QMode) (hi : 2 ≤ Ei) (ho : 2 ≤ Eo) (hd : Finite Mi Ei d) {x : ℚ} (hx : x = value false Mi Ei d)
    (h0 : 0 ≤ x) :
    Near Mo Eo (atanPwlHa c q Mi Ei Mo Eo d) (Real.arctan x) (absErr Mo Eo (1 / 5000) (Real.arctan x)) ∧
    Near Mo Eo (atanPwlVha c q Mi Ei Mo Eo d) (Real.arctan x) (absErr Mo Eo (1 / 5400) (Real.arctan x)) := by
  rcases hr : Model.CholFloat.rep (fl .TRN Mi Ei) (value false Mi Ei d) with ⟨m, e⟩
  obtain ⟨hn, hv⟩ := num hi hd hr
  rw [← hx] at hv
  have hm := m_nonneg hv h0
  have h2 := two_le_largest (Mo := Mo) ho
  obtain ⟨α, -, a⟩ := Props.FloatAtan.C67_ha q (fl .TRN Mi Ei) (W_ge _ _ _)
  obtain ⟨β, -, b⟩ := Props.FloatAtan.C67_vha q (fl .TRN Mi Ei) (W_ge _ _ _)
  have at2 : |Real.arctan x| ≤ 1.6 := by
    have := Real.arctan_lt_pi_div_two x
    have := Real.neg_pi_div_two_lt_arctan x
    have := Real.pi_lt_d2
    rw [abs_le]; constructor <;> linarith
  have hv' : (m : ℝ) * 2 ^ e = x := by rw [← hv]; push_cast; rfl
  constructor
  · obtain ⟨a1, a2, a3⟩ := a (fl .TRN Mo Eo).dst m e hn hm
    rw [hv] at a1 a2 a3
    rw [hv'] at a2 a3
    refine call_abs hc ho hd (y := α x) ?_ (by linarith) (by rw [hr]; exact a1)
    rcases lt_or_ge x 1 with h | h
    · have := a2 h; linarith
    · exact a3 h
  · obtain ⟨a1, a2, a3⟩ := b (fl .TRN Mo Eo).dst m e hn hm
    rw [hv] at a1 a2 a3
    rw [hv'] at a2 a3
    refine call_abs hc ho hd (y := β x) ?_ (by linarith) (by rw [hr]; exact a1)
    rcases lt_or_ge x 1 with h | h
    · have := a2 h; linarith
    · exact a3 h

example : value false 10 5 0x3e00 = 3 / 2 ∧ (0 : ℚ) ≤ 3 / 2 := by decide +kernel

/-- **C80**, `ac_atan_pwl` of every number that is not negative: within 1/158, and within 1/176 for an input type with at least 12
mantissa bits. -/
theorem C80_atan_pwl (hc : Ok c) (q : QMode) (hi : 2 ≤ Ei) (ho : 2 ≤ Eo) (hd : Finite Mi Ei d) {x : ℚ} (hx : x = value false Mi Ei d)
    (h0 : 0 ≤ x) {δ : ℝ} (hδ : δ = 1 / 158 ∨ 12 ≤ Mi ∧ δ = 1 / 176) :
    Near Mo Eo (atanPwl c q Mi Ei Mo Eo d) (Real.arctan x) (absErr Mo Eo δ (Real.arctan x)) := by
  rcases hr : Model.CholFloat.rep (fl .TRN Mi Ei) (value false Mi Ei d) with ⟨m, e⟩
  obtain ⟨hn, hv⟩ := num hi hd hr
  rw [← hx] at hv
  have hm := m_nonneg hv h0
  have h2 := two_le_largest (Mo := Mo) ho
  obtain ⟨α, -, a⟩ := Props.FloatAtan.C67_pwl q (fl .TRN Mi Ei) (W_ge _ _ _)
  have at2 : |Real.arctan x| ≤ 1.6 := by
    have := Real.arctan_lt_pi_div_two x
    have := Real.neg_pi_div_two_lt_arctan x
    have := Real.pi_lt_d2
    rw [abs_le]; constructor <;> linarith
  have hv' : (m : ℝ) * 2 ^ e = x := by rw [← hv]; push_cast; rfl
  obtain ⟨a1, a2, a3, a4⟩ := a (fl .TRN Mo Eo).dst m e hn hm
  rw [hv] at a1 a2 a3 a4
  rw [hv'] at a2 a3 a4
  have hE : (2 : ℤ) ≤ 2 ^ ((fl .TRN Mi Ei).E - 1) := by
    have : 2 ^ 1 ≤ 2 ^ (Ei - 1) := Nat.pow_le_pow_right (by norm_num) (by omega)
    have h : (fl .TRN Mi Ei).E = Ei := rfl
    rw [h]; exact_mod_cast this
  have hI : (fl .TRN Mi Ei).I = 2 := rfl
  have t22 : (2 : ℝ) ^ ((fl .TRN Mi Ei).I - 22 - 2 ^ ((fl .TRN Mi Ei).E - 1)) ≤ 1 / 2 ^ 22 := by
    have : (1 / 2 ^ 22 : ℝ) = 2 ^ (-22 : ℤ) := by norm_num
    rw [this]; apply zpow_le_zpow_right₀ (by norm_num); rw [hI]; omega
  have t13 : (2 : ℝ) ^ ((fl .TRN Mi Ei).I - 13 - 2 ^ ((fl .TRN Mi Ei).E - 1)) ≤ 1 / 2 ^ 13 := by
    have : (1 / 2 ^ 13 : ℝ) = 2 ^ (-13 : ℤ) := by norm_num
    rw [this]; apply zpow_le_zpow_right₀ (by norm_num); rw [hI]; omega
  have hs : 1 / 176 ≤ δ := by rcases hδ with h | ⟨-, h⟩ <;> rw [h] <;> norm_num
  have hl : δ ≤ 1 / 100 := by rcases hδ with h | ⟨-, h⟩ <;> rw [h] <;> norm_num
  refine call_abs hc ho hd (y := α x) ?_ (by linarith) (by rw [hr]; exact a1)
  rcases lt_or_ge x 1 with h | h
  · have := a2 h
    have h5 : (if (fl .TRN Mi Ei).W ≤ 22 then (0 : ℝ) else 2 ^ ((fl .TRN Mi Ei).I - 22 - 2 ^ ((fl .TRN Mi Ei).E - 1))) ≤ 1 / 2 ^ 22 := by
      split_ifs
      · norm_num
      · exact t22
    norm_num at *; linarith
  · rcases hδ with h' | ⟨hM, h'⟩
    · have := a4 h; rw [h']; norm_num at *; linarith
    · have := a3 h (by simp only [fl]; omega); rw [h']; norm_num at *; linarith

/-- **C80**, tangent of every number from 0 to a quarter turn: the output is, up to the error of the output type, a number whose
arctangent is within 1/127 of the argument. -/
theorem C80_tan (hc : Ok c) (q : QMode) (hi : 2 ≤ Ei) (ho : 2 ≤ Eo) (hd : Finite Mi Ei d) {x : ℚ} (hx : x = value false Mi Ei d)
    (h0 : 0 ≤ x) (h1 : (x : ℝ) ≤ Real.pi / 2) : ∃ y : ℚ, 0 ≤ y ∧ |Real.arctan y - x| ≤ 1 / 127 ∧
      (x < 804 / 1024 - 1 / 2 ^ 22 → |Real.arctan y - x| ≤ 1 / 667) ∧
      (y ≤ largest Mo Eo → Near Mo Eo (tanPwl c q Mi Ei Mo Eo d) y (absErr Mo Eo 0 y)) := by
  rcases hr : Model.CholFloat.rep (fl .TRN Mi Ei) (value false Mi Ei d) with ⟨m, e⟩
  obtain ⟨hn, hv⟩ := num hi hd hr
  rw [← hx] at hv
  obtain ⟨τ, -, a, b⟩ := Props.FloatAct.C66_tan q
  obtain ⟨a0, a1, -, a2⟩ := a x h0 h1
  refine ⟨τ x, a0, a1, a2, fun hl => call_abs hc ho hd (y := τ x) (by simp) ?_ ?_⟩
  · rw [add_zero, abs_of_nonneg (by exact_mod_cast a0)]; exact (Rat.cast_le (K := ℝ)).2 hl
  · rw [hr, ← hv]; exact b _ _ m e (W_ge _ _ _) hn.1 (m_nonneg hv h0)

example : value false 10 5 0x3c00 = 1 ∧ ((1 : ℚ) : ℝ) ≤ Real.pi / 2 :=
  ⟨by decide +kernel, by have := Real.pi_gt_three; push_cast; linarith⟩

/-- **C80**, logarithms by hyperbolic CORDIC of every positive number, subnormal ones included: the error of C68 and that of the output
type.  `tf` overrides the widths of the temporaries if it is not `none`. -/
theorem C80_log_cordic_partial (hc : Ok c) (nanSup : Bool) {tf : Option ℕ} {tq : QMode} (hi : 2 ≤ Ei) (ho : 2 ≤ Eo) (hd : Finite Mi Ei d)
    {x : ℚ} (hx : x = value false Mi Ei d) (h0 : 0 < x)
    (h44 : max (tf.getD (Mi + 1)) (tf.getD Mo) ≤ 44) (hp1 : 1 ≤ tf.getD (Mi + 1)) (hq : tq = .TRN ∨ tq = .TRN_ZERO ∨ tf = none) :
    (|Real.logb 2 x| + ulps2 tf / 2 ^ tf.getD Mo ≤ ((largest Mo Eo : ℚ) : ℝ) →
      Near Mo Eo (log2Cordic c nanSup tf tq Mi Ei Mo Eo d) (Real.logb 2 x) (absErr Mo Eo (ulps2 tf / 2 ^ tf.getD Mo) (Real.logb 2 x))) ∧
    (|Real.log x| + ulpsE tf x / 2 ^ tf.getD Mo ≤ ((largest Mo Eo : ℚ) : ℝ) →
      Near Mo Eo (logCordic c nanSup tf tq Mi Ei Mo Eo d) (Real.log x) (absErr Mo Eo (ulpsE tf x / 2 ^ tf.getD Mo) (Real.log x))) := by
  rcases hr : Model.CholFloat.rep (fl .TRN Mi Ei) (value false Mi Ei d) with ⟨m, e⟩
  obtain ⟨hn, hv⟩ := num hi hd hr
  rw [← hx] at hv
  have hm := m_pos hv h0
  have hb : bits tf (fl .TRN Mo Eo) = tf.getD Mo := by
    unfold bits; congr 1; simp only [fl]; push_cast; omega
  have hw : tf.getD ((fl .TRN Mi Ei).W - 1) = tf.getD (Mi + 1) := rfl
  have hid : logNan c nanSup Mi Ei Mo Eo d = id := by
    funext r
    have := sgn_false (M := Mi) (E := Ei) (d := d) (by rw [← hx]; exact h0)
    simp [logNan, nan_false hd, this]
  obtain ⟨y, a1, a2⟩ := Props.FloatHcordicLog.C68_log2_partial (tf := tf) (tq := tq) (t := fl .TRN Mi Ei) (o := fl .TRN Mo Eo) (W_ge _ _ _)
    (by rw [hw, hb]; exact h44) (by rw [hw]; exact hp1) hq hn hm
  obtain ⟨z, b1, b2⟩ := Props.FloatHcordicLog.C68_log_partial (tf := tf) (tq := tq) (t := fl .TRN Mi Ei) (o := fl .TRN Mo Eo) (W_ge _ _ _)
    (by rw [hw, hb]; exact h44) (by rw [hw]; exact hp1) hq hn hm
  rw [hv, hb] at a2 b2
  unfold log2Cordic logCordic
  rw [hid, Option.map_id]; simp only [id]
  exact ⟨fun h => call_abs hc (f := fun t o m e => Model.FloatHcordic.log2 tf tq t o o.dst m e) ho hd a2 h (by rw [hr]; exact a1 _),
    fun h => call_abs hc (f := fun t o m e => Model.FloatHcordic.log tf tq t o o.dst m e) ho hd b2 h (by rw [hr]; exact b1 _)⟩

/-- The defaults, for binary16. -/
example : max ((none : Option ℕ).getD (10 + 1)) ((none : Option ℕ).getD 10) ≤ 44 ∧ 0 < value false 10 5 1 := by decide +kernel

/-- **C80**, logarithms by hyperbolic CORDIC with AC_HCORDIC_NAN_SUPPORTED: of a NaN, a NaN with its sign; of everything else with the sign
bit, a NaN without it. -/
theorem C80_log_cordic_nan (hc : Ok c) {tf : Option ℕ} {tq : QMode} (hM : 1 ≤ Mo) {r : ℕ}
    (hr : logCordic c true tf tq Mi Ei Mo Eo d = some r ∨ log2Cordic c true tf tq Mi Ei Mo Eo d = some r) :
    (nan Mi Ei d = true → nan Mo Eo r = true ∧ sgn Mo Eo r = sgn Mi Ei d) ∧
    (nan Mi Ei d = false → sgn Mi Ei d = true → nan Mo Eo r = true ∧ sgn Mo Eo r = false) := by
  have : ∃ r', logNan c true Mi Ei Mo Eo d r' = r := by
    rcases hr with h | h
    · obtain ⟨r', -, h'⟩ := Option.map_eq_some_iff.1 h; exact ⟨r', h'⟩
    · obtain ⟨r', -, h'⟩ := Option.map_eq_some_iff.1 h; exact ⟨r', h'⟩
  obtain ⟨r', rfl⟩ := this
  constructor
  · intro h
    unfold logNan
    rw [if_pos ⟨rfl, Or.inl h⟩, if_pos h, setSign_nan]
    exact ⟨(hc.nan Mo Eo hM).2.1, (setSign_spec _ _ _ _).1⟩
  · intro h hs
    unfold logNan
    rw [if_pos ⟨rfl, Or.inr hs⟩, h, if_neg (by simp)]
    exact (hc.nan Mo Eo hM).2

/-- A NaN with the sign bit, and -1. -/
example : nan 10 5 0xfe00 = true ∧ sgn 10 5 0xfe00 = true ∧ nan 10 5 0xbc00 = false ∧ sgn 10 5 0xbc00 = true ∧
    value false 10 5 0xbc00 = -1 := by decide +kernel

/-- The comment says that the function does as that of math.h, whose logarithm of -0 is minus infinity, as that of +0.  It is a NaN. -/
theorem C80_log_minus_zero_wrong (hc : Ok c) {tf : Option ℕ} {tq : QMode} (h1 : tf.getD 11 ≤ 44) (h2 : tf.getD 10 ≤ 44) :
    Finite 10 5 0x8000 ∧ value false 10 5 0x8000 = 0 ∧ ∃ r, logCordic c true tf tq 10 5 10 5 0x8000 = some r ∧ nan 10 5 r = true := by
  refine ⟨⟨by decide, by decide⟩, by decide +kernel, ?_⟩
  have hs := (Props.FloatHcordicLog.C68_in_table tf tq (fl .TRN 10 5) (fl .TRN 10 5) (fl .TRN 10 5).dst h1 h2
    (c.toF 10 5 0x8000).1 (c.toF 10 5 0x8000).2).1
  obtain ⟨y, hy⟩ := Option.isSome_iff_exists.1 hs
  have : ∃ r, logCordic c true tf tq 10 5 10 5 0x8000 = some r := by
    unfold logCordic call
    beta_reduce
    rw [hy]
    exact ⟨_, rfl⟩
  obtain ⟨r, hr⟩ := this
  exact ⟨r, hr, ((C80_log_cordic_nan hc (by norm_num) (Or.inl hr)).2 (by decide) (by decide)).1⟩

/-- **C80**, exponentials by hyperbolic CORDIC: the errors of C69 and a unit in the last place, where the power is in the range of the
normal numbers. -/
theorem C80_exp_cordic (hc : Ok c) (nanSup : Bool) {tf : Option ℕ} (tq : QMode) (hi : 2 ≤ Ei) (ho : 2 ≤ Eo) (hd : Finite Mi Ei d)
    {x : ℚ} (hx : x = value false Mi Ei d) (h1 : 1 ≤ tf.getD Mo) (h44 : tf.getD Mo ≤ 44) :
    (|x| ≤ range (fl .TRN Mo Eo) → InRange Mo Eo (8 / 2 ^ tf.getD Mo) ((2 : ℝ) ^ (x : ℝ)) →
      Near Mo Eo (exp2Cordic c nanSup tf tq Mi Ei Mo Eo d) ((2 : ℝ) ^ (x : ℝ)) (relErr Mo (8 / 2 ^ tf.getD Mo) * |(2 : ℝ) ^ (x : ℝ)|)) ∧
    (|(x : ℝ)| ≤ range (fl .TRN Mo Eo) * Real.log 2 → |x| + 1 ≤ 2 ^ tf.getD Mo →
      InRange Mo Eo ((8 + 3 / 2 * |(x : ℝ)|) / 2 ^ tf.getD Mo) (Real.exp x) →
      Near Mo Eo (expCordic c nanSup tf tq Mi Ei Mo Eo d) (Real.exp x)
        (relErr Mo ((8 + 3 / 2 * |(x : ℝ)|) / 2 ^ tf.getD Mo) * |Real.exp x|)) := by
  rcases hr : Model.CholFloat.rep (fl .TRN Mi Ei) (value false Mi Ei d) with ⟨m, e⟩
  obtain ⟨hn, hv⟩ := num hi hd hr
  rw [← hx] at hv
  have hb : bits tf (fl .TRN Mo Eo) = tf.getD Mo := by
    unfold bits; congr 1; simp only [fl]; push_cast; omega
  have hid : expNan c nanSup Mi Ei Mo Eo d = id := by
    funext r
    simp [expNan, nan_false hd]
  obtain ⟨p, -, p1, p2⟩ := Props.FloatHcordicExp.C69_exp2 tq (o := fl .TRN Mo Eo) (tf := tf) (by simp [fl]) (by rw [hb]; exact h1) (by rw [hb]; exact h44)
  obtain ⟨s, -, s1, s2⟩ := Props.FloatHcordicExp.C69_exp tq (o := fl .TRN Mo Eo) (tf := tf) (by simp [fl]) (by rw [hb]; exact h1) (by rw [hb]; exact h44)
  rw [hb] at p1 s1
  have hp : (0 : ℝ) < (2 : ℝ) ^ (x : ℝ) := Real.rpow_pos_of_pos (by norm_num) _
  unfold exp2Cordic expCordic
  rw [hid, Option.map_id]; simp only [id]
  exact ⟨fun hb h => call_rel hc (f := fun t o m e => Model.FloatHcordic.exp2 tf tq t o o.dst m e) ho hd (y := p x)
      (by rw [abs_of_pos hp]; exact p1 x hb) h (by rw [hr, ← hv]; exact p2 _ _ m e (by simp [fl]) hn),
    fun hb hs h => call_rel hc (f := fun t o m e => Model.FloatHcordic.exp tf tq t o o.dst m e) ho hd (y := s x)
      (by rw [abs_of_pos (Real.exp_pos _)]; exact (s1 x hb).2 hs) h (by rw [hr, ← hv]; exact s2 _ _ m e (by simp [fl]) hn)⟩

/-- **C80**, exponentials by hyperbolic CORDIC of a NaN with AC_HCORDIC_NAN_SUPPORTED: a NaN with its sign. -/
theorem C80_exp_cordic_nan (hc : Ok c) {tf : Option ℕ} {tq : QMode} (hM : 1 ≤ Mo) (hd : nan Mi Ei d = true) {r : ℕ}
    (hr : expCordic c true tf tq Mi Ei Mo Eo d = some r ∨ exp2Cordic c true tf tq Mi Ei Mo Eo d = some r) :
    nan Mo Eo r = true ∧ sgn Mo Eo r = sgn Mi Ei d := by
  have : ∃ r', expNan c true Mi Ei Mo Eo d r' = r := by
    rcases hr with h | h
    · obtain ⟨r', -, h'⟩ := Option.map_eq_some_iff.1 h; exact ⟨r', h'⟩
    · obtain ⟨r', -, h'⟩ := Option.map_eq_some_iff.1 h; exact ⟨r', h'⟩
  obtain ⟨r', rfl⟩ := this
  unfold expNan
  rw [if_pos ⟨rfl, hd⟩, setSign_nan]
  exact ⟨(hc.nan Mo Eo hM).2.1, (setSign_spec _ _ _ _).1⟩

example : nan 10 5 0xfe00 = true ∧ sgn 10 5 0xfe00 = true ∧ 1 ≤ (none : Option ℕ).getD 10 ∧ (none : Option ℕ).getD 10 ≤ 44 := by decide

/-- **C80**, powers of a positive base: the relative error of C70, which grows with the exponent, and a unit in the last place.  A base
of one gives one. -/
theorem C80_pow_cordic_partial (hc : Ok c) {tf : Option ℕ} {tq : QMode} {Mb Eb b : ℕ} (hi : 2 ≤ Ei) (hb : 2 ≤ Eb) (ho : 2 ≤ Eo)
    (hd : Finite Mi Ei d) (hdb : Finite Mb Eb b) {x y : ℚ} (hx : x = value false Mi Ei d) (hy : y = value false Mb Eb b) (h0 : 0 < x)
    (h44 : max (tf.getD (Mi + 1)) (tf.getD (Mo + 2)) ≤ 44) (hp1 : 1 ≤ tf.getD (Mi + 1))
    (hb1 : 1 ≤ tf.getD Mo) (hb44 : tf.getD Mo ≤ 44) (hq : tq = .TRN ∨ tq = .TRN_ZERO ∨ tf = none)
    (hr : |(y : ℝ) * Real.logb 2 x| + Props.FloatHcordicPow.prodErr tf (fl .TRN Mo Eo) y ≤ range (fl .TRN Mo Eo)) :
    (InRange Mo Eo (Props.FloatHcordicPow.powErr tf (fl .TRN Mo Eo) y) ((x : ℝ) ^ (y : ℝ)) →
      Near Mo Eo (powCordic c tf tq Mi Ei Mb Eb Mo Eo d b) ((x : ℝ) ^ (y : ℝ))
        (relErr Mo (Props.FloatHcordicPow.powErr tf (fl .TRN Mo Eo) y) * |(x : ℝ) ^ (y : ℝ)|)) ∧
    (x = 1 → Near Mo Eo (powCordic c tf tq Mi Ei Mb Eb Mo Eo d b) 1 0) := by
  rcases hra : Model.CholFloat.rep (fl .TRN Mi Ei) (value false Mi Ei d) with ⟨m, e⟩
  obtain ⟨hn, hv⟩ := num hi hd hra
  rw [← hx] at hv
  rcases hrb : Model.CholFloat.rep (fl .TRN Mb Eb) (value false Mb Eb b) with ⟨n, f⟩
  obtain ⟨hn', hv'⟩ := num hb hdb hrb
  rw [← hy] at hv'
  have hbt : bits tf (fl .TRN Mo Eo) = tf.getD Mo := by
    unfold bits; congr 1; simp only [fl]; push_cast; omega
  obtain ⟨r, r1, r2, r3⟩ := Props.FloatHcordicPow.C70_error_partial (tf := tf) (tq := tq) (t := fl .TRN Mi Ei) (s := fl .TRN Mb Eb)
    (o := fl .TRN Mo Eo) (W_ge _ _ _) (by simp [fl]) (by simp [fl]) h44 hp1 (by rw [hbt]; exact hb1) (by rw [hbt]; exact hb44) hq hn
    (m_pos hv h0) hn' (by rw [hv, hv']; exact hr)
  rw [hv, hv'] at r2
  have hp : (0 : ℝ) < (x : ℝ) ^ (y : ℝ) := Real.rpow_pos_of_pos (by exact_mod_cast h0) _
  have hpc : powCordic c tf tq Mi Ei Mb Eb Mo Eo d b =
      call c .TRN (fun t o m e => Model.FloatHcordic.pow tf tq t (fl .TRN Mb Eb) o o.dst m e n f) Mi Ei Mo Eo d := by
    unfold powCordic call; rw [hc.toF _ _ _ hdb, hrb]
  rw [hpc]
  refine ⟨fun h => call_rel hc ho hd (by rw [abs_of_pos hp]; exact r2) h (by rw [hra]; exact r1 _), fun h => ?_⟩
  have h1 := r3 (hv.trans h)
  have h2 := two_le_largest (Mo := Mo) ho
  have h2' : |(1 : ℚ)| ≤ largest Mo Eo := by
    have : (2 : ℚ) ≤ largest Mo Eo := by exact_mod_cast h2
    rw [abs_one]; linarith
  obtain ⟨p, p0, p1, -, p2⟩ := call_spec (q := .TRN) hc ho hd h2' (f := fun t o m e => Model.FloatHcordic.pow tf tq t (fl .TRN Mb Eb) o o.dst m e n f)
    (by rw [hra]; have := r1 (fl .TRN Mo Eo).dst; rw [h1] at this; exact this)
  refine ⟨p, p0, p1, ?_⟩
  rw [p2 (by rw [abs_one]; exact smallest_le_one ho), one_num ho]
  simp

/-- **C80**, powers of zero: 1 for the exponent 0, else 0, also for a negative exponent. -/
theorem C80_pow_zero (hc : Ok c) {tf : Option ℕ} {tq : QMode} {Mb Eb b : ℕ} (hb : 2 ≤ Eb) (ho : 2 ≤ Eo)
    (hd : Finite Mi Ei d) (hdb : Finite Mb Eb b) (hx : value false Mi Ei d = 0) (h44 : max (tf.getD (Mi + 1)) (tf.getD (Mo + 2)) ≤ 44)
    (hb44 : tf.getD Mo ≤ 44) :
    Near Mo Eo (powCordic c tf tq Mi Ei Mb Eb Mo Eo d b) (if value false Mb Eb b = 0 then 1 else 0) 0 := by
  rcases hrb : Model.CholFloat.rep (fl .TRN Mb Eb) (value false Mb Eb b) with ⟨n, f⟩
  obtain ⟨hn', hv'⟩ := num hb hdb hrb
  have hbt : bits tf (fl .TRN Mo Eo) = tf.getD Mo := by
    unfold bits; congr 1; simp only [fl]; push_cast; omega
  have hpc : powCordic c tf tq Mi Ei Mb Eb Mo Eo d b =
      call c .TRN (fun t o m e => Model.FloatHcordic.pow tf tq t (fl .TRN Mb Eb) o o.dst m e n f) Mi Ei Mo Eo d := by
    unfold powCordic call; rw [hc.toF _ _ _ hdb, hrb]
  have hz : n = 0 ↔ value false Mb Eb b = 0 := by
    rw [← hv']; constructor
    · intro h; rw [h, zero_mul]
    · intro h; exact (mul_eq_zero.1 h).resolve_right (Fmt.z_pos f).ne'
  have h2 := two_le_largest (Mo := Mo) ho
  have h2' : (2 : ℚ) ≤ largest Mo Eo := by exact_mod_cast h2
  have hy : |(if n = 0 then 1 else 0 : ℚ)| ≤ largest Mo Eo := by split_ifs <;> simp <;> linarith
  obtain ⟨p, p0, p1, p3, p2⟩ := call_spec (q := .TRN) hc ho hd hy (f := fun t o m e => Model.FloatHcordic.pow tf tq t (fl .TRN Mb Eb) o o.dst m e n f)
    (by
      rw [hx]
      have : Model.CholFloat.rep (fl .TRN Mi Ei) 0 = (0, 0) := by simp [Model.CholFloat.rep]
      rw [this]
      have := Props.FloatHcordicPow.C70_zero tf tq (fl .TRN Mi Ei) (fl .TRN Mb Eb) (fl .TRN Mo Eo) (fl .TRN Mo Eo).dst
        ((le_max_left _ _).trans h44) ((le_max_right _ _).trans h44) (by rw [hbt]; exact hb44) 0 n f
      dsimp only
      rw [this]; split_ifs <;> rfl)
  rw [hpc]
  have hcv : (fl .TRN Mo Eo).cvt 0 = 0 := by simp [FFmt.cvt]
  refine ⟨p, p0, p1, ?_⟩
  by_cases h : n = 0
  · rw [if_pos h] at p2
    rw [if_pos (hz.1 h), p2 (by rw [abs_one]; exact smallest_le_one ho), one_num ho]; simp
  · have hof : c.ofF Mo Eo 0 = p := by
      unfold call at p0
      rw [hc.toF _ _ _ hd, hx] at p0
      have e0 : Model.CholFloat.rep (fl .TRN Mi Ei) 0 = (0, 0) := by simp [Model.CholFloat.rep]
      rw [e0] at p0
      have := Props.FloatHcordicPow.C70_zero tf tq (fl .TRN Mi Ei) (fl .TRN Mb Eb) (fl .TRN Mo Eo) (fl .TRN Mo Eo).dst
        ((le_max_left _ _).trans h44) ((le_max_right _ _).trans h44) (by rw [hbt]; exact hb44) 0 n f
      dsimp only at p0
      rw [this, if_neg h, Option.map_some] at p0
      have hd0 : (fl .TRN Mo Eo).dst.cvt 0 = 0 := hcv
      rw [hd0] at p0
      exact Option.some.inj p0
    rw [if_neg (fun h' => h (hz.2 h')), ← hof]
    have := (ofF_num hc (q := .TRN) ho (x := 0) (hcv ▸ Proof.FloatNum.cvt_isNum (by simp [fl]) 0) (by simp; linarith)).2.2 (Or.inl rfl)
    rw [this]; simp

example : value false 10 5 0x4100 = 5 / 2 ∧ value false 10 5 0xbe00 = -3 / 2 ∧ value false 10 5 0x8000 = 0 ∧
    max ((none : Option ℕ).getD (10 + 1)) ((none : Option ℕ).getD (10 + 2)) ≤ 44 := by decide +kernel

end Props.StdFloatFns
