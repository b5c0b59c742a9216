import Verif.Proof.StdFloat
import Verif.Props.FloatRec
import Verif.Props.FloatSqrt
import Verif.Props.FloatLog
import Verif.Props.FloatPow
import Verif.Props.FloatDiv
import Verif.Props.FloatTrig
import Verif.Props.FloatAtan
import Verif.Props.FloatAct
import Verif.Props.FloatHcordicLog
import Verif.Props.FloatHcordicExp

/-! # C80: the scalar functions of IEEE numbers

Numbers of `ac_std_float` and `ac_ieee_float` with `M` mantissa and `E` exponent bits are bit patterns; `value false M E d` is the
number that `d` stands for.  `c` are the conversions to and from ac_float, of which `Ok c` states what is assumed.  The input type has
`Mi` and `Ei` bits, the output type `Mo` and `Eo`. -/

namespace Props.StdFloat
open Ac Model.StdFloat Spec.StdFloat Proof.StdFloat
open Spec.CholFloat (IsNum)
open Props.FloatRec (Num)
open Model.Float (FFmt Dst)
open Model.StdAddTree (nan sgn)

/-- **C80**, the types: the wrappers lose nothing.  Every bit pattern of a number stands for a number of the ac_float type, and every
number of the ac_float type in the range of the normal IEEE numbers is one of them. -/
theorem C80_types (q : QMode) {M E : ℕ} (hE : 2 ≤ E) : (∀ d, Finite M E d → IsNum (fl q M E) (value false M E d)) ∧
    (∀ x, IsNum (fl q M E) x → smallest E ≤ |x| → |x| ≤ largest M E → ∃ d, Finite M E d ∧ value false M E d = x) ∧
    (fl q M E).maxVal = largest M E :=
  ⟨fun _ h => isNum hE h, fun _ h h0 h1 => exists_bits (by omega) h h0 h1, fl_maxVal q M E⟩

/-- 3 and -2^-24 of binary16. -/
example : Finite 10 5 0x4200 ∧ value false 10 5 0x4200 = 3 ∧ Finite 10 5 0x8001 ∧ value false 10 5 0x8001 = -1 / 2 ^ 24 :=
  ⟨⟨by decide, by decide⟩, by decide +kernel, ⟨by decide, by decide⟩, by decide +kernel⟩

/-- Conversions as assumed. -/
example : ∃ c, Ok c := ok_exists

/-- Mantissa and exponent of a number. -/
theorem num {M E d : ℕ} (hE : 2 ≤ E) (hd : Finite M E d) {m : ℚ} {e : ℤ}
    (h : Model.CholFloat.rep (fl .TRN M E) (value false M E d) = (m, e)) : Num (fl .TRN M E) m e ∧ m * 2 ^ e = value false M E d := by
  obtain ⟨a, b, c, d⟩ := Proof.FloatNum.rep_num (by simp [fl]) (show 1 ≤ (fl .TRN M E).E by simp only [fl]; omega) (isNum (q := .TRN) hE hd)
  rw [h] at a b c d
  exact ⟨⟨a, b, c⟩, d⟩

theorem m_pos {m x : ℚ} {e : ℤ} (h : m * 2 ^ e = x) (hx : 0 < x) : 0 < m := by
  by_contra hm
  have := mul_nonpos_of_nonpos_of_nonneg (not_lt.1 hm) (Fmt.z_pos e).le
  linarith

theorem m_nonneg {m x : ℚ} {e : ℤ} (h : m * 2 ^ e = x) (hx : 0 ≤ x) : 0 ≤ m := by
  by_contra hm
  have := mul_neg_of_neg_of_pos (not_le.1 hm) (Fmt.z_pos e)
  linarith

theorem m_ne {m x : ℚ} {e : ℤ} (h : m * 2 ^ e = x) (hx : x ≠ 0) : m ≠ 0 := by
  rintro rfl; exact hx (by rw [← h, zero_mul])

/-- The mantissa of a number that is not too small is normalised. -/
theorem normal {M E d : ℕ} (h : smallest E / 4 ≤ value false M E d) {m : ℚ} {e : ℤ}
    (hr : Model.CholFloat.rep (fl .TRN M E) (value false M E d) = (m, e)) : Props.FloatSqrt.Normal (fl .TRN M E) m := by
  have := Proof.FloatNum.rep_normal (t := fl .TRN M E) (x := value false M E d) (by
    refine le_trans (le_of_eq ?_) h
    unfold smallest
    rw [show (4 : ℚ) = 2 ^ (2 : ℤ) by norm_num, ← zpow_sub₀ (by norm_num)]
    congr 1
    simp only [fl, bias_eq]; ring)
  rw [hr] at this
  exact this

theorem W_ge (q : QMode) (M E : ℕ) : 2 ≤ (fl q M E).W := by simp [fl]

variable {c : Conv} {Mi Ei Mo Eo d : ℕ}

/-- **C80**, reciprocals: right up to 1/512, 1/8192 and 1/30000 and a unit in the last place, for every nonzero number, subnormal ones
included, whose reciprocal is in the range of the normal numbers. -/
theorem C80_reciprocal (hc : Ok c) (q : QMode) (hi : 2 ≤ Ei) (ho : 2 ≤ Eo) (hd : Finite Mi Ei d) {x : ℚ}
    (hx : x = value false Mi Ei d) (h0 : x ≠ 0) :
    (InRange Mo Eo (1 / 512) (1 / x) → Near Mo Eo (reciprocal c q Mi Ei Mo Eo d) (1 / x) (relErr Mo (1 / 512) * |1 / (x : ℝ)|)) ∧
    (InRange Mo Eo (1 / 8192) (1 / x) → Near Mo Eo (reciprocalHa c q Mi Ei Mo Eo d) (1 / x) (relErr Mo (1 / 8192) * |1 / (x : ℝ)|)) ∧
    (InRange Mo Eo (1 / 30000) (1 / x) →
      Near Mo Eo (reciprocalVha c q Mi Ei Mo Eo d) (1 / x) (relErr Mo (1 / 30000) * |1 / (x : ℝ)|)) := by
  rcases hr : Model.CholFloat.rep (fl .TRN Mi Ei) (value false Mi Ei d) with ⟨m, e⟩
  obtain ⟨hn, hv⟩ := num hi hd hr
  rw [← hx] at hv
  have hm := m_ne hv h0
  have conv : ∀ {ρ : ℚ → ℚ} {ε : ℚ}, Props.FloatRec.Approx ρ ε → |((ρ x : ℚ) : ℝ) - 1 / x| ≤ (ε : ℝ) * |1 / (x : ℝ)| := by
    intro ρ ε h
    have h1 := (Rat.cast_le (K := ℝ)).2 (h.1 x h0)
    push_cast at h1
    have hx' : (x : ℝ) ≠ 0 := by exact_mod_cast h0
    have : ((ρ x : ℚ) : ℝ) - 1 / x = (ρ x * x - 1) * (1 / x) := by field_simp
    rw [this, abs_mul]
    exact mul_le_mul_of_nonneg_right h1 (abs_nonneg _)
  obtain ⟨ρ, a, b⟩ := Props.FloatRec.C60_reciprocal
  obtain ⟨ρ', a', b'⟩ := Props.FloatRec.C60_reciprocal_ha
  obtain ⟨ρ'', a'', b''⟩ := Props.FloatRec.C60_reciprocal_vha
  refine ⟨fun h => call_rel hc ho hd (y := ρ x) ?_ h ?_, fun h => call_rel hc ho hd (y := ρ' x) ?_ h ?_,
    fun h => call_rel hc ho hd (y := ρ'' x) ?_ h ?_⟩
  · have := conv a; push_cast at this; exact this
  · rw [hr, ← hv]; exact b q _ _ _ m e (W_ge _ _ _) hn hm
  · have := conv a'; push_cast at this; exact this
  · rw [hr, ← hv]; exact b' q _ _ _ m e (W_ge _ _ _) hn hm
  · have := conv a''; push_cast at this; exact this
  · rw [hr, ← hv]; exact b'' q _ _ _ m e (W_ge _ _ _) hn hm

/-- **C80**, reciprocals of zero, of either sign: the largest number. -/
theorem C80_reciprocal_zero (hc : Ok c) (q : QMode) (ho : 2 ≤ Eo) (hd : Finite Mi Ei d) (h0 : value false Mi Ei d = 0) :
    Near Mo Eo (reciprocal c q Mi Ei Mo Eo d) (largest Mo Eo : ℚ) 0 ∧ Near Mo Eo (reciprocalHa c q Mi Ei Mo Eo d) (largest Mo Eo : ℚ) 0 ∧
    Near Mo Eo (reciprocalVha c q Mi Ei Mo Eo d) (largest Mo Eo : ℚ) 0 := by
  have hL : 0 ≤ largest Mo Eo := by rw [← fl_maxVal .TRN]; exact Proof.FloatCvt.max_nonneg _
  have hs : smallest Eo ≤ |largest Mo Eo| := by
    rw [abs_of_nonneg hL]
    have h1 : (2 : ℤ) ≤ 2 ^ (Eo - 1) := by
      have : 2 ^ 1 ≤ 2 ^ (Eo - 1) := Nat.pow_le_pow_right (by norm_num) (by omega)
      exact_mod_cast this
    have h2 : (2 : ℚ) ^ Mo ≤ 2 ^ (Mo + 1) - 1 := by
      have : (1 : ℚ) ≤ 2 ^ Mo := one_le_pow₀ (by norm_num)
      rw [pow_succ]; linarith
    unfold smallest largest
    refine le_trans ?_ (mul_le_mul_of_nonneg_right h2 (Fmt.z_pos _).le)
    rw [← zpow_natCast, Fmt.z_add]
    apply Fmt.z_le
    simp only [bias_eq]; omega
  have key : ∀ {q' : QMode} {f : FFmt → FFmt → ℚ → ℤ → Option ℚ}, (∀ e, f (fl .TRN Mi Ei) (fl q' Mo Eo) 0 e = some (fl q' Mo Eo).maxVal) →
      Near Mo Eo (call c q' f Mi Ei Mo Eo d) (largest Mo Eo : ℚ) 0 := by
    intro q' f hf
    have hcv : (fl q' Mo Eo).cvt (largest Mo Eo) = largest Mo Eo := by
      have := Proof.StdFloat.cvt_num (t := fl q' Mo Eo) (by simp [fl]) (largest_num q' Mo Eo false)
      simpa using this
    obtain ⟨p, p0, p1, -, p2⟩ := call_spec hc ho hd (f := f) (q := q') (y := largest Mo Eo) (le_of_eq (abs_of_nonneg hL)) (by
      rw [h0, hcv]
      have := hf 0
      rw [fl_maxVal] at this
      simpa [Model.CholFloat.rep] using this)
    exact ⟨p, p0, p1, by rw [p2 hs, hcv]; simp⟩
  exact ⟨key fun e => (Props.FloatRec.C60_zero q _ _ _ e).1, key fun e => (Props.FloatRec.C60_zero q _ _ _ e).2.1,
    key fun e => (Props.FloatRec.C60_zero q _ _ _ e).2.2⟩

/-- The reciprocal of 3 in binary16. -/
example : InRange 10 5 (1 / 512) (1 / ((3 : ℚ) : ℝ)) := by
  unfold InRange smallest largest bias
  norm_num [abs_of_pos]

/-- **C80**, piecewise linear roots: for every number from a quarter of the smallest normal one on, `ac_sqrt_pwl` is right up to 1/850,
`ac_inverse_sqrt_pwl` up to 1/1100, and for every positive number `ac_inverse_sqrt_pwl_vha` up to 1/17000, each plus a unit in the last
place, if the root is in the range of the normal numbers.  Missing: the first two for smaller, subnormal, numbers, where they are
wrong (`C80_subnormal_wrong`). -/
theorem C80_roots_partial (hc : Ok c) (q oq : QMode) (hM : 1 ≤ Mi) (hi : 2 ≤ Ei) (ho : 2 ≤ Eo) (hd : Finite Mi Ei d) {x : ℚ}
    (hx : x = value false Mi Ei d) (h0 : 0 < x) {r : ℝ} (hr : r = Real.sqrt x) :
    (smallest Ei / 4 ≤ x → InRange Mo Eo (1 / 850) r → Near Mo Eo (sqrtPwl c q Mi Ei Mo Eo d) r (relErr Mo (1 / 850) * |r|)) ∧
    (smallest Ei / 4 ≤ x → InRange Mo Eo (1 / 1100) (1 / r) →
      Near Mo Eo (inverseSqrtPwl c q Mi Ei Mo Eo d) (1 / r) (relErr Mo (1 / 1100) * |1 / r|)) ∧
    (InRange Mo Eo (1 / 17000) (1 / r) →
      Near Mo Eo (inverseSqrtPwlVha c oq q Mi Ei Mo Eo d) (1 / r) (relErr Mo (1 / 17000) * |1 / r|)) := by
  rcases hr' : Model.CholFloat.rep (fl .TRN Mi Ei) (value false Mi Ei d) with ⟨m, e⟩
  obtain ⟨hn, hv⟩ := num hi hd hr'
  rw [← hx] at hv
  have hm := m_pos hv h0
  have hr0 : 0 < r := by
    rw [hr]; apply Real.sqrt_pos.2; exact_mod_cast h0
  have inv : ∀ (y : ℚ) (ε : ℝ), |(y : ℝ) * r - 1| ≤ ε → |(y : ℝ) - 1 / r| ≤ ε * |1 / r| := by
    intro y ε h
    have : (y : ℝ) - 1 / r = ((y : ℝ) * r - 1) * (1 / r) := by field_simp
    rw [this, abs_mul]
    exact mul_le_mul_of_nonneg_right h (abs_nonneg _)
  have hW : 3 ≤ (fl .TRN Mi Ei).W := by simp only [fl]; omega
  refine ⟨fun hs h => ?_, fun hs h => ?_, fun h => ?_⟩
  · obtain ⟨y, h1, -, he⟩ := Props.FloatSqrt.C61_sqrt_partial q _ (fl .TRN Mo Eo).dst m e (by omega) hn (normal (hx ▸ hs) hr')
    rw [hv, ← hr] at he
    exact call_rel hc ho hd (y := y) (by rw [abs_of_pos hr0]; exact he) h (by rw [hr']; exact h1)
  · obtain ⟨y, h1, -, he⟩ := Props.FloatSqrt.C61_inverse_sqrt_partial q .TRN _ (fl .TRN Mo Eo).dst m e hW hn (normal (hx ▸ hs) hr')
    rw [hv, ← hr] at he
    exact call_rel hc ho hd (y := y) (inv y _ he) h (by rw [hr']; exact h1)
  · obtain ⟨y, h1, -, he⟩ := Props.FloatSqrt.C61_inverse_sqrt_vha q oq _ (fl oq Mo Eo).dst m e (by omega) hn hm
    rw [hv, ← hr] at he
    exact call_rel hc ho hd (y := y) (inv y _ he) h (by rw [hr']; exact h1)

/-- A subnormal number of binary16 that is normalised in ac_float, 2^-16. -/
example : Finite 10 5 0x0100 ∧ value false 10 5 0x0100 = 1 / 2 ^ 16 ∧ smallest 5 / 4 = 1 / 2 ^ 16 :=
  ⟨⟨by decide, by decide⟩, by decide +kernel, by decide +kernel⟩

/-- The smallest number of binary16, 2^-24: its square root is returned as more than 16 times 2^-12, and its inverse square root as less
than a sixteenth of 2^12. -/
theorem C80_subnormal_wrong (hc : Ok c) : Finite 10 5 1 ∧ value false 10 5 1 = (1 / 2 ^ 12) ^ 2 ∧
    (∃ r, sqrtPwl c .TRN 10 5 10 5 1 = some r ∧ 16 / 2 ^ 12 < value false 10 5 r) ∧
    ∃ r, inverseSqrtPwl c .TRN 10 5 10 5 1 = some r ∧ value false 10 5 r < 2 ^ 12 / 16 := by
  have hd : Finite 10 5 1 := ⟨by decide, by decide⟩
  have hv : value false 10 5 1 = (1 / 2 ^ 12) ^ 2 := by decide +kernel
  refine ⟨hd, hv, ?_, ?_⟩
  · obtain ⟨p, p0, -, -, p2⟩ := call_spec hc (q := .TRN) (f := fun t o m e => Model.Float.sqrtPwl .TRN t o.dst m e) (Mo := 10) (Eo := 5)
      (by norm_num) hd (y := 513 / 131072) (by decide +kernel) (by decide +kernel)
    refine ⟨p, p0, ?_⟩
    rw [p2 (by decide +kernel)]
    decide +kernel
  · obtain ⟨p, p0, -, -, p2⟩ := call_spec hc (q := .TRN) (f := fun t o m e => Model.Float.inverseSqrtPwl .TRN t o.Q o.dst m e)
      (Mo := 10) (Eo := 5) (by norm_num) hd (y := 1021 / 4) (by decide +kernel) (by decide +kernel)
    refine ⟨p, p0, ?_⟩
    rw [p2 (by decide +kernel)]
    decide +kernel

/-- A positive number has no sign bit. -/
theorem sgn_false {M E : ℕ} (h : 0 < value false M E d) : sgn M E d = false := by
  by_contra hs
  have hs' : d.testBit (M + E) = true := by simpa [sgn] using hs
  have := setSign_value M E d true
  have hab := abs_nonneg (value false M E d)
  have e : value false M E d = -|value false M E d| := by
    unfold value
    rw [hs', if_pos rfl, abs_mul, abs_neg, abs_one, one_mul, neg_one_mul, abs_of_nonneg]
    split_ifs
    · exact le_refl _
    · exact mul_nonneg (Nat.cast_nonneg _) (Fmt.z_pos _).le
    · exact mul_nonneg (Nat.cast_nonneg _) (Fmt.z_pos _).le
  linarith

/-- A number is not a NaN. -/
theorem nan_false {M E : ℕ} (h : Finite M E d) : nan M E d = false := by
  have : Model.StdAddTree.expo M E d ≠ 2 ^ E - 1 := ne_of_lt h.2
  simp [nan, this]

/-- **C80**, `ac_sqrt`: with the default rounding of its temporaries the square root of every number from a quarter of the smallest
normal one on is right up to two units in the last place.  Missing: smaller, subnormal, numbers, whose error is a unit of the temporaries (C64);
roundings of the temporaries, with which it is wrong (`C80_sqrt_round_wrong`). -/
theorem C80_sqrt_partial (hc : Ok c) (nanSup : Bool) {tq : QMode} (htq : tq = .TRN ∨ tq = .TRN_ZERO) (hi : 2 ≤ Ei) (ho : 2 ≤ Eo)
    (hd : Finite Mi Ei d) {x : ℚ} (hx : x = value false Mi Ei d) (h0 : smallest Ei / 4 ≤ x)
    (hr : InRange Mo Eo (1 / 2 ^ Mo) (Real.sqrt x)) :
    Near Mo Eo (some (sqrt c nanSup tq Mi Ei Mo Eo d)) (Real.sqrt x) (relErr Mo (1 / 2 ^ Mo) * |Real.sqrt x|) := by
  rcases hr' : Model.CholFloat.rep (fl .TRN Mi Ei) (value false Mi Ei d) with ⟨m, e⟩
  obtain ⟨hn, hv⟩ := num hi hd hr'
  rw [← hx] at hv
  have hx0 : 0 < x := lt_of_lt_of_le (div_pos (Fmt.z_pos _) (by norm_num)) h0
  have hm := m_pos hv hx0
  obtain ⟨y, h1, -, he⟩ := Props.FloatDiv.C64_sqrt_partial tq Mo (fl .TRN Mi Ei) m e (by simp [fl]) (by simp only [fl]; omega)
    (Or.inl htq) hn hm.le
  have hN : Props.FloatDiv.Norm (fl .TRN Mi Ei) m := by
    unfold Props.FloatDiv.Norm; rw [abs_of_pos hm]; exact normal (hx ▸ h0) hr'
  have he' := he hN
  rw [hv] at he'
  have e1 : (2 : ℝ) ^ (1 - (Mo : ℤ) - (fl .TRN Mi Ei).I / 2) = 1 / 2 ^ Mo := by
    have : (1 - (Mo : ℤ) - (fl .TRN Mi Ei).I / 2) = -Mo := by simp only [fl]; omega
    rw [this, zpow_neg, zpow_natCast, one_div]
  rw [e1] at he'
  have key := call_rel hc (q := .TRN) (f := fun t o m e => some (Model.Float.sqrt tq Mo t o.dst m e)) (Mo := Mo) ho hd (y := y)
    (r := Real.sqrt x) (ε := 1 / 2 ^ Mo) (by rw [abs_of_nonneg (Real.sqrt_nonneg _)]; exact he') hr (by
      rw [hr']; exact congrArg some (h1 _))
  have hsg : sgn Mi Ei d = false := sgn_false (by rw [← hx]; exact hx0)
  have : some (sqrt c nanSup tq Mi Ei Mo Eo d) =
      call c .TRN (fun t o m e => some (Model.Float.sqrt tq Mo t o.dst m e)) Mi Ei Mo Eo d := by
    unfold Model.StdFloat.sqrt call
    simp [hsg, nan_false hd]
  rw [this]
  exact key

/-- **C80**, `ac_sqrt`, special inputs: the square root of a zero is a zero with the same sign.  With AC_SQRT_NAN_SUPPORTED that of a
NaN, or of anything negative but zero, is a NaN with the sign of the input. -/
theorem C80_sqrt_special (hc : Ok c) (nanSup : Bool) {tq : QMode} (htq : tq = .TRN ∨ tq = .TRN_ZERO) (hM : 1 ≤ Mo) (hi : 2 ≤ Ei) (ho : 2 ≤ Eo) :
    (Near Mo Eo (some (sqrt c nanSup tq Mi Ei Mo Eo 0)) 0 0) ∧
    (Near Mo Eo (some (sqrt c nanSup tq Mi Ei Mo Eo (2 ^ (Mi + Ei)))) 0 0 ∧ sgn Mo Eo (sqrt c nanSup tq Mi Ei Mo Eo (2 ^ (Mi + Ei))) = true) ∧
    (nan Mi Ei d = true ∨ (Finite Mi Ei d ∧ value false Mi Ei d < 0) →
      nan Mo Eo (sqrt c true tq Mi Ei Mo Eo d) = true ∧ sgn Mo Eo (sqrt c true tq Mi Ei Mo Eo d) = sgn Mi Ei d) := by
  have hcv : (fl .TRN Mo Eo).cvt 0 = 0 := by simp [FFmt.cvt]
  have z0 : ∀ d', Finite Mi Ei d' → value false Mi Ei d' = 0 →
      (c.ofF Mo Eo (Model.Float.sqrt tq Mo (fl .TRN Mi Ei) (fl .TRN Mo Eo).dst (c.toF Mi Ei d').1 (c.toF Mi Ei d').2)) = c.ofF Mo Eo 0 := by
    intro d' hf hv
    rw [hc.toF _ _ _ hf, hv]
    have hm : (fl .TRN Mi Ei).mant.Rep 0 := Proof.FloatNum.rep_iff.2 ⟨0, by simp, by positivity, by simp⟩
    have := Proof.FloatDiv.sqrt_eq (tq := tq) (tf := Mo) (t := fl .TRN Mi Ei) (fl .TRN Mo Eo).dst (by simp [fl]) (by simp only [fl]; omega)
      (Or.inl htq) hm le_rfl 0
    have e0 : Model.CholFloat.rep (fl .TRN Mi Ei) 0 = (0, 0) := by simp [Model.CholFloat.rep]
    rw [e0]
    simp only []
    rw [this]
    have q0 : quant tq (Real.sqrt ((0 * 2 ^ ((0 : ℤ) % 2) : ℚ) : ℝ) * 2 ^ (Mo : ℤ)) = 0 := by
      rw [zero_mul, Rat.cast_zero, Real.sqrt_zero, zero_mul]
      simpa using quant_intCast (R := ℝ) tq 0
    rw [q0]
    show c.ofF Mo Eo ((fl .TRN Mo Eo).cvt _) = _
    simp [hcv]
  have hO : Finite Mo Eo (c.ofF Mo Eo 0) ∧ value false Mo Eo (c.ofF Mo Eo 0) = 0 := by
    have := hc.keeps Mo Eo 0 (zero_bits ho).1
    rw [(zero_bits ho).2] at this
    exact this
  refine ⟨?_, ?_, ?_⟩
  · refine ⟨c.ofF Mo Eo 0, ?_, hO.1, by rw [hO.2]; simp⟩
    have hs : sgn Mi Ei 0 = false := by simp [sgn]
    unfold Model.StdFloat.sqrt
    simp [hs, nan_false (zero_bits hi).1, z0 0 (zero_bits hi).1 (zero_bits hi).2]
  · have e : (2 ^ (Mi + Ei) : ℕ) = setSign Mi Ei 0 true := by simp [setSign]
    obtain ⟨s1, s2, s3, s4⟩ := setSign_spec Mi Ei 0 true
    rw [← e] at s1 s2 s3 s4
    have hf : Finite Mi Ei (2 ^ (Mi + Ei)) := ⟨s4, by rw [s2]; exact (zero_bits hi).1.2⟩
    have hv : value false Mi Ei (2 ^ (Mi + Ei)) = 0 := by
      rw [e, setSign_value, (zero_bits hi).2]; simp
    have hz : Model.StdAddTree.expo Mi Ei (2 ^ (Mi + Ei)) = 0 := by
      have : expField Mi Ei 0 = 0 := by simp [expField]
      rw [← this]; exact s2
    have hmz : Model.StdAddTree.mantZero Mi (2 ^ (Mi + Ei)) = true := by
      unfold Model.StdAddTree.mantZero; rw [s3]; simp
    have eq : sqrt c nanSup tq Mi Ei Mo Eo (2 ^ (Mi + Ei)) = setSign Mo Eo (c.ofF Mo Eo 0) true := by
      unfold Model.StdFloat.sqrt
      dsimp only
      rw [z0 _ hf hv, if_pos ⟨hz, hmz, s1⟩]
    obtain ⟨t1, t2, -, t4⟩ := setSign_spec Mo Eo (c.ofF Mo Eo 0) true
    rw [eq]
    refine ⟨⟨_, rfl, ⟨t4, by rw [t2]; exact hO.1.2⟩, ?_⟩, t1⟩
    rw [setSign_value, hO.2]; simp
  · intro h
    have nz : ¬ (Model.StdAddTree.expo Mi Ei d = 0 ∧ Model.StdAddTree.mantZero Mi d = true ∧ sgn Mi Ei d = true) := by
      rintro ⟨a, b, -⟩
      rcases h with h | h
      · simp only [nan, Bool.and_eq_true, decide_eq_true_eq, Bool.not_eq_true'] at h
        rw [b] at h; exact absurd h.2 (by simp)
      · have a' : expField Mi Ei d = 0 := a
        have b' : d % 2 ^ Mi = 0 := by simpa [Model.StdAddTree.mantZero] using b
        have := h.2
        unfold value at this
        rw [if_pos a', b'] at this
        simp at this
    have cond : nan Mi Ei d = true ∨ sgn Mi Ei d = true := by
      rcases h with h | h
      · exact Or.inl h
      · right
        by_contra hs
        have hs' : d.testBit (Mi + Ei) = false := by simpa [sgn] using hs
        have hv := h.2
        unfold value at hv
        rw [hs', if_neg (show ¬ (false = true) by simp), one_mul] at hv
        have : (0 : ℚ) ≤ if expField Mi Ei d = 0 then if false = true then (0 : ℚ) else ((d % 2 ^ Mi : ℕ) : ℚ) * 2 ^ (1 - bias Ei - Mi)
            else ((2 ^ Mi + d % 2 ^ Mi : ℕ) : ℚ) * 2 ^ ((expField Mi Ei d : ℤ) - bias Ei - Mi) := by
          split_ifs
          · exact le_refl _
          · exact mul_nonneg (Nat.cast_nonneg _) (Fmt.z_pos _).le
          · exact mul_nonneg (Nat.cast_nonneg _) (Fmt.z_pos _).le
        linarith
    have eq : sqrt c true tq Mi Ei Mo Eo d = setSign Mo Eo (c.nan Mo Eo) (sgn Mi Ei d) := by
      unfold Model.StdFloat.sqrt
      dsimp only
      rw [if_neg nz, if_pos ⟨rfl, cond⟩]
    rw [eq, setSign_nan]
    exact ⟨(hc.nan Mo Eo hM).2.1, (setSign_spec _ _ _ _).1⟩

/-- 2 and a NaN of binary16. -/
example : value false 10 5 0x4000 = 2 ∧ smallest 5 / 4 ≤ 2 ∧ nan 10 5 0x7e00 = true := by decide +kernel

/-- With AC_RND for the temporaries the square root of 4 - 2^-13 is returned as zero. -/
theorem C80_sqrt_round_wrong (hc : Ok c) : Finite 14 8 (128 * 2 ^ 14 + 2 ^ 14 - 1) ∧
    value false 14 8 (128 * 2 ^ 14 + 2 ^ 14 - 1) = 4 - 1 / 2 ^ 13 ∧
    value false 6 8 (sqrt c false .RND 14 8 6 8 (128 * 2 ^ 14 + 2 ^ 14 - 1)) = 0 := by
  have hd : Finite 14 8 (128 * 2 ^ 14 + 2 ^ 14 - 1) := ⟨by decide, by decide⟩
  refine ⟨hd, by decide +kernel, ?_⟩
  have h0 : sqrt c false .RND 14 8 6 8 (128 * 2 ^ 14 + 2 ^ 14 - 1) = c.ofF 6 8 0 := by
    unfold Model.StdFloat.sqrt
    rw [hc.toF _ _ _ hd]
    dsimp only
    rw [if_neg (by decide), if_neg (by decide)]
    congr 1
    decide +kernel
  rw [h0]
  have := hc.keeps 6 8 0 (zero_bits (by norm_num)).1
  rw [(zero_bits (by norm_num)).2] at this
  exact this.2

end Props.StdFloat
