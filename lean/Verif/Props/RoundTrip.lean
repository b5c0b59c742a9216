import Verif.Proof.RoundTrip
import Verif.Props.LogPwl
import Verif.Props.PowPwl
import Verif.Props.Reciprocal
import Verif.Props.Atan
import Verif.Props.Tan
import Verif.Props.Arcsin
import Verif.Props.Sincos
import Verif.Props.Cordic
import Verif.Props.HcordicLog
import Verif.Props.HcordicExp

/-! # C83: functions and their inverses, applied one after the other

`m` is the type of the intermediate value, `out` that of the final result. -/

namespace Props.RoundTrip
open Ac Proof.RoundTrip

/-- **C83**, base 2: the power of the logarithm is the argument up to 1/235, the rounding of the logarithm and that of the
result. -/
theorem C83_log2_pow2 (q q' : QMode) (cn : Bool) {f m out : Fmt} (hW : 1 ≤ f.W) (hS : f.S = false) (hm : 1 ≤ m.W)
    (hmS : m.S = true) (hmF : 1 ≤ m.F) (ho : 1 ≤ out.W) (hSo : out.S = false) {x : ℚ} (hx : f.Rep x) (h0 : 0 < x)
    (hc : cn = true ∨ 2 ^ (f.I - 1) ≤ x) (hr : |Real.logb 2 x| + 1 / 600 ≤ m.maxVal)
    (hro : x * (1 + 1 / 235 + 101 / 100 * 2 ^ (-m.F)) ≤ out.maxVal) :
    ∃ y z : ℚ, Model.PwlFixed.log2 q cn f m x = some y ∧ Model.PwlFixed.pow2 q' m out y = some z ∧
      |(z : ℝ) - x| < x * (1 / 235 + 101 / 100 * 2 ^ (-m.F)) + 2 ^ (-out.F) := by
  obtain ⟨r, -, h1, -, h2, -, -⟩ := Props.LogPwl.C34_log2 q cn (out := m) hW hS hx hx h0 le_rfl hc
  have hxR : (0 : ℝ) < x := by exact_mod_cast h0
  have hrm : |r| ≤ m.maxVal := by
    have : |(r : ℝ)| ≤ m.maxVal := by
      have := abs_sub_abs_le_abs_sub (r : ℝ) (Real.logb 2 x)
      linarith
    exact_mod_cast this
  have hy := near_signed hm hmS hrm
  have hrep : m.Rep (m.cvt r) := Fmt.rep_cvt hm r
  obtain ⟨p, -, h3, -, h4, h5, -, -⟩ := Props.PowPwl.C35_pow2 q' (f := m) (out := out) ho hSo hrep hrep le_rfl
  refine ⟨_, _, h1, h3, ?_⟩
  set y := m.cvt r with hy'
  have hu : (0 : ℝ) < 2 ^ (-m.F) := by positivity
  have hu2 : (2 : ℝ) ^ (-m.F) ≤ 1 / 2 := by
    have := zpow_le_zpow_right₀ (a := (2 : ℝ)) (by norm_num) (show -m.F ≤ -1 by omega)
    norm_num at this ⊢; exact this
  have hd : |(y : ℝ) - Real.logb 2 x| ≤ 1 / 600 + 2 ^ (-m.F) := by
    calc |(y : ℝ) - Real.logb 2 x| = |((y : ℝ) - r) + (r - Real.logb 2 x)| := by ring_nf
      _ ≤ |(y : ℝ) - r| + |r - Real.logb 2 x| := abs_add_le _ _
      _ ≤ _ := by linarith
  have e1 : (2 : ℝ) ^ (y : ℝ) / x = 2 ^ ((y : ℝ) - Real.logb 2 x) := by
    rw [Real.rpow_sub (by norm_num), Real.rpow_logb (by norm_num) (by norm_num) hxR]
  have e2 := two_pow_near hd (by linarith)
  rw [← e1] at e2
  have key := compose hxR e2 (by rw [div_eq_mul_one_div] at h5; exact h5) (by norm_num)
  have hb : x * (1 / 600 + (2 : ℝ) ^ (-m.F) + 1 / 400 + (1 / 600 + 2 ^ (-m.F)) * (1 / 400)) ≤
      x * (1 / 235 + 101 / 100 * 2 ^ (-m.F)) := mul_le_mul_of_nonneg_left (by linarith) hxR.le
  have hp : |(p : ℝ) - x| ≤ x * (1 / 235 + 101 / 100 * 2 ^ (-m.F)) := key.trans hb
  have hpm : p ≤ out.maxVal := by
    have h6 := (abs_le.1 hp).2
    have h7 := (Rat.cast_le (K := ℝ)).2 hro
    push_cast at h7
    have : (p : ℝ) ≤ out.maxVal := by linarith
    exact_mod_cast this
  have hz := near_pos ho h4.le hpm
  calc |((out.cvt p : ℚ) : ℝ) - x| = |(((out.cvt p : ℚ) : ℝ) - p) + (p - x)| := by ring_nf
    _ ≤ |((out.cvt p : ℚ) : ℝ) - p| + |(p : ℝ) - x| := abs_add_le _ _
    _ < _ := by linarith

/-- The error of the natural logarithm, with its rounding to the type `m`. -/
noncomputable def logErr (m : Fmt) (x : ℝ) : ℝ := 1 / 800 + |Real.log x| / 20000 + 2 ^ (-m.F)

/-- **C83**, base e: the exponential of the logarithm is the argument up to the error of the logarithm, 1/256 and the rounding
of the result; `n` is the number of fraction bits chosen for the exponential. -/
theorem C83_log_exp {n : ℕ} (h12 : 12 ≤ n) (q q' : QMode) {f m out : Fmt} (hW : 1 ≤ f.W) (hS : f.S = false) (hm : 1 ≤ m.W)
    (hmS : m.S = true) (ho : 1 ≤ out.W) (hSo : out.S = false) {x : ℚ} (hx : f.Rep x) (h0 : 0 < x)
    (h60 : |Real.log x| ≤ 60) (hδ : logErr m x ≤ 1) (hr : |Real.log x| + (1 / 800 + |Real.log x| / 20000) ≤ m.maxVal)
    (hro : x * (1 + 1 / 256 + 257 / 256 * (logErr m x + logErr m x ^ 2)) ≤ out.maxVal) :
    ∃ y z : ℚ, Model.PwlFixed.log q f m x = some y ∧ Model.PwlFixed.exp n q' m out y = some z ∧
      |(z : ℝ) - x| < x * (1 / 256 + 257 / 256 * (logErr m x + logErr m x ^ 2)) + 2 ^ (-out.F) := by
  obtain ⟨r, -, h1, -, h2, -, -⟩ := Props.LogPwl.C34_ln q (out := m) hW hS hx hx h0 le_rfl
  have hxR : (0 : ℝ) < x := by exact_mod_cast h0
  have hrm : |r| ≤ m.maxVal := by
    have : |(r : ℝ)| ≤ m.maxVal := by
      have := abs_sub_abs_le_abs_sub (r : ℝ) (Real.log x)
      linarith
    exact_mod_cast this
  have hy := near_signed hm hmS hrm
  have hrep : m.Rep (m.cvt r) := Fmt.rep_cvt hm r
  set y := m.cvt r with hy'
  have hd : |(y : ℝ) - Real.log x| ≤ logErr m x := by
    unfold logErr
    calc |(y : ℝ) - Real.log x| = |((y : ℝ) - r) + (r - Real.log x)| := by ring_nf
      _ ≤ |(y : ℝ) - r| + |r - Real.log x| := abs_add_le _ _
      _ ≤ _ := by linarith
  have h64 : |y| ≤ 64 := by
    have h3 := abs_sub_abs_le_abs_sub (y : ℝ) (Real.log x)
    have : |(y : ℝ)| ≤ 64 := by linarith
    exact_mod_cast this
  obtain ⟨p, -, h3, -, h4, -, -, -⟩ := Props.PowPwl.C35_exp n q' (out := out) hm ho hSo hrep hrep le_rfl
  obtain ⟨p', h3', h5⟩ := Props.PowPwl.C35_exp_error h12 q' (out := out) hm ho hSo hrep h64
  have e1 : Real.exp (y : ℝ) / x = Real.exp ((y : ℝ) - Real.log x) := by rw [Real.exp_sub, Real.exp_log hxR]
  have e2 := exp_near hd hδ
  rw [← e1] at e2
  have key := compose hxR e2 (by rw [div_eq_mul_one_div] at h5; exact h5) (by norm_num)
  have hp : |(p' : ℝ) - x| ≤ x * (1 / 256 + 257 / 256 * (logErr m x + logErr m x ^ 2)) := key.trans (le_of_eq (by ring))
  have hexp := Real.exp_pos (y : ℝ)
  have hp0 : 0 ≤ p' := by
    have : (0 : ℝ) ≤ p' := by linarith [(abs_le.1 h5).1]
    exact_mod_cast this
  have hpm : p' ≤ out.maxVal := by
    have h6 := (abs_le.1 hp).2
    have : (p' : ℝ) ≤ out.maxVal := by linarith
    exact_mod_cast this
  refine ⟨_, _, h1, h3', ?_⟩
  have hz := near_pos ho hp0 hpm
  calc |((out.cvt p' : ℚ) : ℝ) - x| = |(((out.cvt p' : ℚ) : ℝ) - p') + (p' - x)| := by ring_nf
    _ ≤ |((out.cvt p' : ℚ) : ℝ) - p'| + |(p' : ℝ) - x| := abs_add_le _ _
    _ < _ := by linarith

/-- **C83**, reciprocal of the reciprocal of a positive number: `e` is the relative error of the intermediate value. -/
theorem C83_recip_recip (q q' : QMode) {f m out : Fmt} (hW : 1 ≤ f.W) (hm : 1 ≤ m.W) (ho : 1 ≤ out.W) {x : ℚ} (hx : f.Rep x)
    (h0 : 0 < x) {e : ℚ} (he : e = 1 / 512 + x * 2 ^ (-m.F)) (he1 : e < 1) (hr : (1 + 1 / 512) / x ≤ m.maxVal)
    (hro : x * ((1 + 1 / 512) / (1 - e)) ≤ out.maxVal) :
    ∃ y z : ℚ, Model.PwlFixed.reciprocal q f m x = some y ∧ Model.PwlFixed.reciprocal q' m out y = some z ∧
      |z - x| < x * ((e + 1 / 512) / (1 - e)) + 2 ^ (-out.F) := by
  obtain ⟨r, -, h1, -, -, -, -, -⟩ := Props.Reciprocal.C29_reciprocal q (out := m) hW hm hx hx h0.ne' h0.ne'
  obtain ⟨y, h1', h2⟩ := Props.Reciprocal.C29_output q hW hm hx h0 hr
  have hyr : y = m.cvt r := Option.some.inj (h1'.symm.trans h1)
  have hrep : m.Rep y := by rw [hyr]; exact Fmt.rep_cvt hm r
  have hxy : |x * y - 1| < e := by
    have : x * y - 1 = x * (y - 1 / x) := by field_simp
    rw [this, abs_mul, abs_of_pos h0, he]
    calc x * |y - 1 / x| < x * (1 / 512 / x + 2 ^ (-m.F)) := mul_lt_mul_of_pos_left h2 h0
      _ = _ := by field_simp
  obtain ⟨l1, l2⟩ := abs_lt.1 hxy
  have hy0 : 0 < y := by
    have : 0 < x * y := by linarith
    exact (mul_pos_iff_of_pos_left h0).1 this
  have hinv : 1 / y ≤ x / (1 - e) := by
    rw [div_le_div_iff₀ hy0 (by linarith)]; linarith
  have hro' : (1 + 1 / 512) / y ≤ out.maxVal := by
    refine le_trans ?_ hro
    calc (1 + 1 / 512) / y = (1 + 1 / 512) * (1 / y) := by ring
      _ ≤ (1 + 1 / 512) * (x / (1 - e)) := mul_le_mul_of_nonneg_left hinv (by norm_num)
      _ = _ := by ring
  obtain ⟨z, h3, h4⟩ := Props.Reciprocal.C29_output q' hm ho hrep hy0 hro'
  refine ⟨y, z, h1', h3, ?_⟩
  have h5 : |1 / y - x| ≤ x * (e / (1 - e)) := by
    have : 1 / y - x = -(x * y - 1) * (1 / y) := by field_simp; ring
    rw [this, abs_mul, abs_neg, abs_of_pos (one_div_pos.2 hy0)]
    calc |x * y - 1| * (1 / y) ≤ e * (x / (1 - e)) := mul_le_mul hxy.le hinv (one_div_pos.2 hy0).le (by linarith)
      _ = _ := by ring
  have h6 : 1 / 512 / y ≤ x * (1 / 512 / (1 - e)) := by
    calc 1 / 512 / y = 1 / 512 * (1 / y) := by ring
      _ ≤ 1 / 512 * (x / (1 - e)) := mul_le_mul_of_nonneg_left hinv (by norm_num)
      _ = _ := by ring
  have e3 : x * ((e + 1 / 512) / (1 - e)) = x * (e / (1 - e)) + x * (1 / 512 / (1 - e)) := by ring
  have e4 : z - x = (z - 1 / y) + (1 / y - x) := by ring
  have e5 := abs_add_le (z - 1 / y) (1 / y - x)
  rw [e3, e4]
  linarith

/-- **C83**, the sine and the cosine of one angle from the table: the sum of their squares is one up to four units. -/
theorem C83_sincos_squares {f t : Fmt} (hf : f.I < f.W) (hS : t.S = true) (hW : t.I ≤ t.W)
    (hI : 2 ≤ t.I ∨ (t.I = 1 ∧ 3 ≤ t.W ∧ (t.O = .SAT ∨ t.O = .SAT_SYM))) {x : ℚ} (hx : f.Rep x) {e : ℝ}
    (he : e = 2 ^ (-t.F) + 1 / 2 ^ 47 + (if f.W - f.I ≤ 12 then 0 else 1 / 650)) :
    ∃ c s : ℚ, Model.Sincos.sincos f t x = some (c, s) ∧ |(s : ℝ) ^ 2 + c ^ 2 - 1| ≤ 4 * e + 2 * e ^ 2 := by
  obtain ⟨c, s, h1, h2, h3⟩ := Props.Sincos.C37_error hf hS hW hI hx
  rw [← he] at h2 h3
  exact ⟨c, s, h1, pythagoras h3 h2⟩

/-- **C83**, the same for the CORDIC functions. -/
theorem C83_cordic_squares {f t : Fmt} (hf : f.I ≤ f.W) (h68 : t.W ≤ 68) (hI : 2 ≤ t.I) (hF : 2 ≤ t.F) (hS : t.S = true)
    {a : ℚ} (ha : f.Rep a) {e : ℝ} (he : e = 3 * 2 ^ (-t.F) + 1 / 2 ^ 50 + 5 / 2 ^ t.W) :
    ∃ s c : ℚ, Model.Cordic.sin f t a = some s ∧ Model.Cordic.cos f t a = some c ∧
      |(s : ℝ) ^ 2 + c ^ 2 - 1| ≤ 4 * e + 2 * e ^ 2 := by
  obtain ⟨s, c, h1, h2, h3, h4⟩ := Props.Cordic.C38_sin_cos hf h68 hI hF hS ha
  rw [← he] at h3 h4
  exact ⟨s, c, h1, h2, pythagoras h3 h4⟩

/-- **C83**, the arc tangent of the tangent: the angle up to the errors of the two functions and of the two types. -/
theorem C83_tan_atan_partial (q q' : QMode) {f m out : Fmt} (hS : f.S = false) (hw : Props.Tan.Compiles f)
    (hf : Props.Tan.Fits f) (hm : 1 ≤ m.W) (hmS : m.S = false) (hrm : 128 ≤ m.maxVal) (ho : 1 ≤ out.W)
    (hro : 1.571 ≤ out.maxVal) {x : ℚ} (hx : f.Rep x) (hs : x < 1.556640625) :
    ∃ y z : ℚ, Model.Tan.tan q f m x = some y ∧ Model.Atan.atanPwl q' m out y = some z ∧
      |(z : ℝ) - x| < 1 / 210 + 1 / 177 + 2 ^ (-m.F) + 2 ^ (-out.F) := by
  obtain ⟨r, -, h1, -, h2, h3, h4, -⟩ := Props.Tan.C44_tan_partial q m hS hw hf hx hx hs hs
  have hrep : m.Rep (m.cvt r) := Fmt.rep_cvt hm r
  obtain ⟨z, -, -, h5, -, -, h6, -, -⟩ := Props.Atan.C43_output q' (out := out) hm hmS ho hro hrep
  refine ⟨_, z, h1, h5, ?_⟩
  have ha : |Real.arctan r - x| ≤ 1 / 210 := by
    rcases lt_or_ge x (804 / 1024) with h | h
    · exact (h3 h).trans (by norm_num)
    · exact h4 h
  have hr : r ≤ m.maxVal := by
    refine le_trans ?_ hrm
    by_contra hc
    have hc' : ((128 : ℚ) : ℝ) < r := (Rat.cast_lt (K := ℝ)).2 (not_le.1 hc)
    have k1 := Real.arctan_strictMono hc'
    have k2 := Real.arctan_inv_of_pos (x := 128) (by norm_num)
    have k3 := arctan_lip ((128 : ℝ)⁻¹) 0
    rw [Real.arctan_zero, sub_zero, sub_zero] at k3
    have k4 := (abs_le.1 k3).2
    have k5 := (abs_le.1 ha).2
    have k6 := (Rat.cast_lt (K := ℝ)).2 hs
    have k7 := Real.pi_gt_d6
    push_cast at k1 k6
    rw [abs_of_pos (show (0 : ℝ) < (128 : ℝ)⁻¹ by norm_num)] at k4
    norm_num at k4 k6 k2
    linarith
  have hz : |(z : ℝ) - Real.arctan ((m.cvt r : ℚ) : ℝ)| < 1 / 177 + 2 ^ (-out.F) := by
    refine lt_of_lt_of_le h6 ?_
    split_ifs <;> norm_num
  have hy := near_pos hm h2 hr
  have hl := arctan_lip ((m.cvt r : ℚ) : ℝ) r
  have e : (z : ℝ) - x = ((z : ℝ) - Real.arctan ((m.cvt r : ℚ) : ℝ)) +
      ((Real.arctan ((m.cvt r : ℚ) : ℝ) - Real.arctan r) + (Real.arctan r - x)) := by ring
  have t1 := abs_add_le ((z : ℝ) - Real.arctan ((m.cvt r : ℚ) : ℝ))
    ((Real.arctan ((m.cvt r : ℚ) : ℝ) - Real.arctan r) + (Real.arctan r - x))
  have t2 := abs_add_le (Real.arctan ((m.cvt r : ℚ) : ℝ) - Real.arctan r) (Real.arctan r - x)
  rw [e]
  linarith

/-- **C83**, the CORDIC sine of the CORDIC arc sine: `h` is the number of fraction bits of the angle. -/
theorem C83_arcsin_sin {o t : Fmt} {h : ℕ} (hF : o.F = h) (h1 : 1 ≤ h) (h2 : h ≤ 64) (hS : o.S = true) (hI : 1 ≤ o.I)
    (hW : 3 ≤ o.W) (h68 : t.W ≤ 68) (htI : 2 ≤ t.I) (htF : 2 ≤ t.F) (htS : t.S = true) {v : ℚ} (hv : |v| ≤ 1) :
    ∃ a s : ℚ, Model.Arcsin.arcsin o v = some a ∧ Model.Cordic.sin o t a = some s ∧
      |(s : ℝ) - v| ≤ Real.pi * ((3 / 2 * √(2 * h + 1) + 2) / 2 ^ h + 8 / 5 * (h + 1) ^ 2 / 4 ^ h + 1 / 2 ^ 117) +
        (3 * 2 ^ (-t.F) + 1 / 2 ^ 50 + 5 / 2 ^ t.W) := by
  obtain ⟨r, e1, -⟩ := Props.Arcsin.C50_angle hF h1 h2 hv
  obtain ⟨a, e2, e3⟩ := Props.Arcsin.C50_error_partial hF h1 h2 hS hI hW hv
  have ha : a = o.cvt r := Option.some.inj (e2.symm.trans e1)
  have hrep : o.Rep a := by rw [ha]; exact Fmt.rep_cvt (by omega) r
  have hoF : o.F = o.W - o.I := rfl
  obtain ⟨s, -, e4, -, e5, -⟩ := Props.Cordic.C38_sin_cos (f := o) (t := t) (by omega) h68 htI htF htS hrep
  refine ⟨a, s, e2, e4, ?_⟩
  obtain ⟨v1, v2⟩ := abs_le.1 hv
  have hsv : Real.sin (Real.pi * (Real.arcsin v / Real.pi)) = v := by
    rw [mul_div_cancel₀ _ Real.pi_ne_zero]
    exact Real.sin_arcsin (by exact_mod_cast v1) (by exact_mod_cast v2)
  have hl := sin_lip (Real.pi * a) (Real.pi * (Real.arcsin v / Real.pi))
  rw [hsv, ← mul_sub, abs_mul, abs_of_pos Real.pi_pos] at hl
  have hl2 := mul_le_mul_of_nonneg_left e3 Real.pi_pos.le
  have e : (s : ℝ) - v = (s - Real.sin (Real.pi * a)) + (Real.sin (Real.pi * a) - v) := by ring
  rw [e]
  have := abs_add_le (s - Real.sin (Real.pi * a)) (Real.sin (Real.pi * a) - (v : ℝ))
  linarith

theorem log2_rep {tf : Option ℕ} {tq : QMode} {f out : Fmt} (ho : 1 ≤ out.W) {x z : ℚ}
    (h : Model.Hcordic.log2 tf tq f out x = some z) : out.Rep z := by
  unfold Model.Hcordic.log2 at h
  simp only [Option.bind_eq_bind, Option.bind_eq_some_iff] at h
  obtain ⟨a, -, h⟩ := h
  rw [← Option.some.inj h]
  exact Fmt.rep_cvt ho _

/-- **C83**, base 2 with the hyperbolic CORDIC functions: `δ` is the error of the logarithm. -/
theorem C83_cordic_log2_exp2_partial {tf tf' : Option ℕ} {tq tq' : QMode} {f m out : Fmt} (hW : 1 ≤ f.W) (hS : f.S = false)
    (hm : 1 ≤ m.W) (hmS : m.S = true)
    (h44 : max (tf.getD f.W) (Props.HcordicLog.bits tf m) ≤ 44) (hp1 : 1 ≤ tf.getD f.W)
    (hq : tq = .TRN ∨ tq = .TRN_ZERO ∨ tf = none) {x : ℚ} (hx : f.Rep x) (hx0 : 0 < x)
    (hr : |Real.logb 2 x| + Props.HcordicLog.ulps2 tf / 2 ^ Props.HcordicLog.bits tf m ≤ m.maxVal) (ho : 1 ≤ out.W)
    (hSo : out.S = false) (hf : (m.W : ℤ) - m.I ≤ 45)
    (h44' : Props.HcordicExp.bits tf' out ≤ 44) (hq' : tq' = .TRN ∨ tq' = .TRN_ZERO ∨ (m.W : ℤ) - m.I ≤ Props.HcordicExp.bits tf' out) {δ : ℝ}
    (hδ : δ = Props.HcordicLog.ulps2 tf / 2 ^ Props.HcordicLog.bits tf m + 2 ^ (-m.F)) (hδ1 : δ ≤ 1)
    (hro : x * ((1 + δ) * (1 + 13 / 2 / 2 ^ Props.HcordicExp.bits tf' out)) ≤ out.maxVal) :
    ∃ y z : ℚ, Model.Hcordic.log2 tf tq f m x = some y ∧ Model.Hcordic.exp2 tf' tq' m out y = some z ∧
      |(z : ℝ) - x| ≤ x * ((1 + δ) * (1 + 13 / 2 / 2 ^ Props.HcordicExp.bits tf' out) - 1) + 2 ^ (-out.F) := by
  obtain ⟨y, e1, e2⟩ := Props.HcordicLog.C52_log2_partial hW hS hm hmS h44 hp1 hq hx hx0 hr
  rw [← hδ] at e2
  have hxR : (0 : ℝ) < x := by exact_mod_cast hx0
  have e3 : (2 : ℝ) ^ (y : ℝ) / x = 2 ^ ((y : ℝ) - Real.logb 2 x) := by
    rw [Real.rpow_sub (by norm_num), Real.rpow_logb (by norm_num) (by norm_num) hxR]
  have e4 := two_pow_near e2 hδ1
  rw [← e3] at e4
  set ε : ℝ := 13 / 2 / 2 ^ Props.HcordicExp.bits tf' out with hε
  have ε0 : 0 ≤ ε := by positivity
  have hle : (2 : ℝ) ^ (y : ℝ) ≤ x * (1 + δ) := by
    have := (abs_le.1 e4).2
    have h5 : (2 : ℝ) ^ (y : ℝ) / x ≤ 1 + δ := by linarith
    rw [div_le_iff₀ hxR] at h5
    linarith
  have hfit : (2 : ℝ) ^ (y : ℝ) * (1 + ε) ≤ out.maxVal := by
    refine le_trans ?_ hro
    rw [← mul_assoc]
    exact mul_le_mul_of_nonneg_right hle (by linarith)
  have hpos : (0 : ℝ) < 2 ^ (y : ℝ) := Real.rpow_pos_of_pos (by norm_num) _
  obtain ⟨z, e5, e6⟩ := Props.HcordicExp.C53_exp2_partial (tq := tq') (out := out) ho hSo hf h44' (log2_rep hm e1)
    (hq'.imp_right (Or.imp_right Or.inr)) (Or.inr (Or.inr hfit))
  refine ⟨y, z, e1, e5, ?_⟩
  have hmin : min ((2 : ℝ) ^ (y : ℝ)) out.maxVal = 2 ^ (y : ℝ) := by
    refine min_eq_left (le_trans ?_ hfit)
    have := mul_nonneg hpos.le ε0
    linarith
  rw [hmin, ← hε] at e6
  have h7 : |(2 : ℝ) ^ (y : ℝ) - x| ≤ x * δ := by
    have : (2 : ℝ) ^ (y : ℝ) - x = x * (2 ^ (y : ℝ) / x - 1) := by field_simp
    rw [this, abs_mul, abs_of_pos hxR]
    exact mul_le_mul_of_nonneg_left e4 hxR.le
  have h8 := mul_le_mul_of_nonneg_left hle ε0
  have h9 := abs_add_le ((z : ℝ) - 2 ^ (y : ℝ)) (2 ^ (y : ℝ) - (x : ℝ))
  rw [show ((z : ℝ) - 2 ^ (y : ℝ)) + (2 ^ (y : ℝ) - (x : ℝ)) = z - x by ring] at h9
  have e7 : x * ((1 + δ) * (1 + ε) - 1) = x * δ + ε * (x * (1 + δ)) := by ring
  rw [e7]
  linarith

/-! ## The hypotheses are met -/

def u8 : Fmt := ⟨8, 4, false, .TRN, .WRAP⟩
def mid : Fmt := ⟨16, 4, true, .RND, .SAT⟩
def out16 : Fmt := ⟨16, 6, false, .TRN, .WRAP⟩

theorem rep_52 : u8.Rep (5 / 2) := ⟨40, by decide, by decide, by decide +kernel⟩

theorem logb_52 : |Real.logb 2 ((5 / 2 : ℚ) : ℝ)| ≤ 2 := by
  push_cast
  rw [abs_of_nonneg (Real.logb_nonneg (by norm_num) (by norm_num)), Real.logb_le_iff_le_rpow (by norm_num) (by norm_num)]
  norm_num

theorem log_52 : |Real.log ((5 / 2 : ℚ) : ℝ)| ≤ 3 / 2 := by
  push_cast
  rw [abs_of_nonneg (Real.log_nonneg (by norm_num))]
  have := Real.log_le_sub_one_of_pos (show (0 : ℝ) < 5 / 2 by norm_num)
  linarith

theorem mid_max : mid.maxVal = 8 - 1 / 4096 := by decide +kernel
theorem out16_max : out16.maxVal = 64 - 1 / 1024 := by decide +kernel

example : ∃ y z : ℚ, Model.PwlFixed.log2 .TRN true u8 mid (5 / 2) = some y ∧ Model.PwlFixed.pow2 .TRN mid out16 y = some z ∧
    |(z : ℝ) - (5 / 2 : ℚ)| < (5 / 2 : ℚ) * (1 / 235 + 101 / 100 * 2 ^ (-mid.F)) + 2 ^ (-out16.F) := by
  refine C83_log2_pow2 .TRN .TRN true (by decide) rfl (by decide) rfl (by decide) (by decide) rfl rep_52 (by norm_num) (Or.inl rfl)
    ?_ ?_
  · rw [mid_max]; push_cast; have := logb_52; push_cast at this; linarith
  · rw [out16_max, show mid.F = 12 by decide]; norm_num

example : ∃ y z : ℚ, Model.PwlFixed.log .TRN u8 mid (5 / 2) = some y ∧ Model.PwlFixed.exp 12 .TRN mid out16 y = some z ∧
    |(z : ℝ) - (5 / 2 : ℚ)| <
      (5 / 2 : ℚ) * (1 / 256 + 257 / 256 * (logErr mid (5 / 2 : ℚ) + logErr mid (5 / 2 : ℚ) ^ 2)) + 2 ^ (-out16.F) := by
  have hl := log_52
  have he : logErr mid ((5 / 2 : ℚ) : ℝ) ≤ 1 / 100 := by
    unfold logErr
    rw [show mid.F = 12 by decide]
    norm_num at hl ⊢
    linarith
  have he0 : 0 ≤ logErr mid ((5 / 2 : ℚ) : ℝ) := by unfold logErr; positivity
  refine C83_log_exp le_rfl .TRN .TRN (by decide) rfl (by decide) rfl (by decide) rfl rep_52 (by norm_num) (by linarith)
    (by linarith) ?_ ?_
  · rw [mid_max]; push_cast at hl ⊢; linarith
  · rw [out16_max]
    have := pow_le_pow_left₀ he0 he 2
    push_cast at this he ⊢
    norm_num at this he ⊢
    linarith

example : ∃ y z : ℚ, Model.PwlFixed.reciprocal .TRN u8 mid (5 / 2) = some y ∧ Model.PwlFixed.reciprocal .TRN mid out16 y = some z ∧
    |z - 5 / 2| < 5 / 2 * ((1 / 512 + 5 / 2 * 2 ^ (-mid.F) + 1 / 512) / (1 - (1 / 512 + 5 / 2 * 2 ^ (-mid.F)))) + 2 ^ (-out16.F) := by
  refine C83_recip_recip .TRN .TRN (by decide) (by decide) (by decide) rep_52 (by norm_num) rfl ?_ ?_ ?_
  · rw [show mid.F = 12 by decide]; norm_num
  · rw [mid_max]; norm_num
  · rw [out16_max, show mid.F = 12 by decide]; norm_num

example : ∃ c s : ℚ, Model.Sincos.sincos ⟨10, 2, true, .TRN, .WRAP⟩ ⟨16, 2, true, .TRN, .WRAP⟩ (3 / 16) = some (c, s) ∧
    |(s : ℝ) ^ 2 + c ^ 2 - 1| ≤ 4 * (2 ^ (-14 : ℤ) + 1 / 2 ^ 47) + 2 * (2 ^ (-14 : ℤ) + 1 / 2 ^ 47) ^ 2 :=
  C83_sincos_squares (by decide) rfl (by decide) (Or.inl (by decide)) ⟨48, by decide, by decide, by decide +kernel⟩
    (by rw [if_pos (by decide)]; norm_num [Fmt.F])

example : ∃ s c : ℚ, Model.Cordic.sin ⟨8, 2, true, .TRN, .WRAP⟩ ⟨16, 2, true, .TRN, .WRAP⟩ (1 / 4) = some s ∧
    Model.Cordic.cos ⟨8, 2, true, .TRN, .WRAP⟩ ⟨16, 2, true, .TRN, .WRAP⟩ (1 / 4) = some c ∧
    |(s : ℝ) ^ 2 + c ^ 2 - 1| ≤ 4 * (3 * 2 ^ (-14 : ℤ) + 1 / 2 ^ 50 + 5 / 2 ^ 16) + 2 * (3 * 2 ^ (-14 : ℤ) + 1 / 2 ^ 50 + 5 / 2 ^ 16) ^ 2 :=
  C83_cordic_squares (by decide) (by decide) (by decide) (by decide) rfl ⟨16, by decide, by decide, by decide +kernel⟩
    (by norm_num [Fmt.F])

example : ∃ y z : ℚ, Model.Tan.tan .TRN ⟨16, 2, false, .TRN, .WRAP⟩ ⟨20, 8, false, .TRN, .WRAP⟩ (3 / 2) = some y ∧
    Model.Atan.atanPwl .TRN ⟨20, 8, false, .TRN, .WRAP⟩ out16 y = some z ∧
    |(z : ℝ) - (3 / 2 : ℚ)| < 1 / 210 + 1 / 177 + 2 ^ (-12 : ℤ) + 2 ^ (-10 : ℤ) := by
  have := C83_tan_atan_partial .TRN .TRN (f := ⟨16, 2, false, .TRN, .WRAP⟩) (m := ⟨20, 8, false, .TRN, .WRAP⟩) (out := out16)
    (x := 3 / 2) rfl (by unfold Props.Tan.Compiles; decide) (Or.inl rfl) (by decide) rfl (by decide +kernel) (by decide)
    (by rw [out16_max]; norm_num) ⟨24576, by decide, by decide, by decide +kernel⟩ (by norm_num)
  simpa [Fmt.F, out16] using this

example : ∃ a s : ℚ, Model.Arcsin.arcsin ⟨16, 2, true, .TRN, .WRAP⟩ (1 / 3) = some a ∧
    Model.Cordic.sin ⟨16, 2, true, .TRN, .WRAP⟩ ⟨18, 2, true, .TRN, .WRAP⟩ a = some s ∧
    |(s : ℝ) - (1 / 3 : ℚ)| ≤ Real.pi * ((3 / 2 * √(2 * (14 : ℕ) + 1) + 2) / 2 ^ 14 + 8 / 5 * ((14 : ℕ) + 1) ^ 2 / 4 ^ 14 + 1 / 2 ^ 117) +
      (3 * 2 ^ (-16 : ℤ) + 1 / 2 ^ 50 + 5 / 2 ^ 18) :=
  C83_arcsin_sin (o := ⟨16, 2, true, .TRN, .WRAP⟩) (t := ⟨18, 2, true, .TRN, .WRAP⟩) (h := 14) (by decide) (by decide) (by decide)
    rfl (by decide) (by decide) (by decide) (by decide) (by decide) rfl (by norm_num [abs_le])

example : ∃ y z : ℚ, Model.Hcordic.log2 none .TRN u8 mid (5 / 2) = some y ∧ Model.Hcordic.exp2 none .TRN mid out16 y = some z ∧
    |(z : ℝ) - (5 / 2 : ℚ)| ≤ (5 / 2 : ℚ) * ((1 + (5 / 2 ^ 12 + 2 ^ (-12 : ℤ))) * (1 + 13 / 2 / 2 ^ 10) - 1) + 2 ^ (-10 : ℤ) := by
  have hb : Props.HcordicLog.bits none mid = 12 := by decide
  have hb' : Props.HcordicExp.bits none out16 = 10 := by decide
  have hu : Props.HcordicLog.ulps2 none = 5 := by simp [Props.HcordicLog.ulps2]
  have := C83_cordic_log2_exp2_partial (tf := none) (tf' := none) (tq := .TRN) (tq' := .TRN) (f := u8) (m := mid) (out := out16)
    (x := 5 / 2) (δ := 5 / 2 ^ 12 + 2 ^ (-12 : ℤ)) (by decide) rfl (by decide) rfl (by decide) (by decide) (Or.inl rfl)
    rep_52 (by norm_num) ?_ (by decide) rfl (by decide) (by decide) (Or.inl rfl) ?_ (by norm_num) ?_
  · rw [hb'] at this; simpa [Fmt.F, out16] using this
  · rw [hb, hu, mid_max]
    have := logb_52
    push_cast at this ⊢
    linarith
  · rw [hb, hu]; rfl
  · rw [hb', out16_max]; norm_num

end Props.RoundTrip
