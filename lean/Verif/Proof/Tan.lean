import Verif.Proof.TanTable

/-! # Lemmas for C44 -/

namespace Proof.Tan
open Ac Model.Pwl Model.PwlFixed Model.Tan Proof.Pwl Proof.PwlFixed
open Proof.Atan (tangent)

/-! ## The intermediate input -/

/-- Formats whose conversion to the intermediate type cannot wrap. -/
def Fits (f : Fmt) : Prop :=
  f.Q = .TRN ∨ f.Q = .TRN_ZERO ∨ f.O = .SAT ∨ f.O = .SAT_SYM ∨ 1 ≤ f.I ∨ f.W - f.I ≤ 19

theorem tInt_F (e : ℕ) {f : Fmt} (hw : 1 ≤ widthInt f) : (tInt e f).F = fbInt f + e := by
  unfold tInt Fmt.F
  push_cast
  rw [Int.toNat_of_nonneg (by omega)]
  unfold widthInt
  ring

theorem top {g : Fmt} (hS : g.S = false) : ((maxRaw g.W g.S : ℤ) : ℚ) + 1 = 2 ^ g.I * 2 ^ g.F := by
  unfold maxRaw
  rw [hS, ← zpow_add₀ (by norm_num)]
  unfold Fmt.F
  rw [show g.I + (g.W - g.I) = (g.W : ℤ) by ring, zpow_natCast]
  simp

theorem below_top {g : Fmt} (hS : g.S = false) {x : ℚ} (h : x < 2 ^ g.I) : x * 2 ^ g.F < maxRaw g.W g.S + 1 := by
  rw [top hS]; exact mul_lt_mul_of_pos_right h (Fmt.z_pos _)

theorem exact_fit {g : Fmt} (hW : 1 ≤ g.W) (hS : g.S = false) {x : ℚ} (h0 : 0 ≤ x) (h : x < 2 ^ g.I) {n : ℤ}
    (hn : x * 2 ^ g.F = n) : g.cvt x = x := by
  have := below_top hS h
  rw [hn] at this
  have hle : n ≤ maxRaw g.W g.S := by
    have : n < maxRaw g.W g.S + 1 := by exact_mod_cast this
    omega
  rw [cvt_clip hW hS h0 (Or.inl (by rw [hn]; exact_mod_cast hle)), clip_exact g hn hle]

theorem wide_fit {e : ℕ} {f : Fmt} (hw : 1 ≤ widthInt f) (hf : Fits f) (hwide : 19 < f.W - f.I) {x : ℚ} (h0 : 0 ≤ x)
    (h : x < 2 ^ (min f.I 1)) (h' : x < 1594 / 1024) : (tInt e f).cvt x = clip (tInt e f) x := by
  have hb := below_top (g := tInt e f) rfl h
  refine cvt_clip (by unfold tInt; simp; omega) rfl h0 ?_
  unfold Fits at hf
  rcases hf with hf | hf | hf | hf | hf | hf
  · exact Or.inr (Or.inl ⟨hb, Or.inl hf⟩)
  · exact Or.inr (Or.inl ⟨hb, Or.inr hf⟩)
  · exact Or.inr (Or.inr (Or.inl hf))
  · exact Or.inr (Or.inr (Or.inr hf))
  · left
    have t := top (g := tInt e f) rfl
    have hI : (tInt e f).I = 1 := by unfold tInt; simp; omega
    rw [hI] at t
    have hF : (2 : ℤ) ≤ (tInt e f).F := by
      rw [tInt_F e hw]; unfold fbInt; simp only [show 0 ≤ f.I by omega, if_true]; omega
    have hz := Fmt.z_le hF
    have hz' := Fmt.z_pos (tInt e f).F
    norm_num at hz t
    nlinarith
  · omega

theorem rep_lt {f : Fmt} (hS : f.S = false) {x : ℚ} (hx : f.Rep x) : 0 ≤ x ∧ x < 2 ^ f.I ∧ ∃ r : ℤ, x * 2 ^ f.F = r := by
  obtain ⟨r, r0, r1, rfl⟩ := hx
  have r0' : 0 ≤ r := by simpa [minRaw, hS] using r0
  refine ⟨mul_nonneg (by exact_mod_cast r0') (Fmt.z_pos _).le, ?_, r, Fmt.val_mul_pow _ _⟩
  have t := top (g := f) hS
  have hz := Fmt.z_pos f.F
  have : f.val r * 2 ^ f.F < 2 ^ f.I * 2 ^ f.F := by
    rw [Fmt.val_mul_pow, ← t]
    have : (r : ℚ) ≤ maxRaw f.W f.S := by exact_mod_cast r1
    linarith
  exact lt_of_mul_lt_mul_right this hz.le

/-- The intermediate input for a wide input, on all rationals. -/
def half (f : Fmt) (x : ℚ) : ℚ :=
  clip (tInt 0 f) ((tInt 1 f).val (min (quant f.Q (x * 2 ^ (tInt 1 f).F)) (maxRaw (tInt 1 f).W false) / 2))

theorem half_mono (f : Fmt) {x y : ℚ} (h : x ≤ y) : half f x ≤ half f y := by
  unfold half
  apply clip_mono
  rw [Fmt.val_le]
  have := min_le_min_right (maxRaw (tInt 1 f).W false)
    (quant_mono f.Q (mul_le_mul_of_nonneg_right h (Fmt.z_pos (tInt 1 f).F).le))
  omega

variable {f : Fmt}

/-- The intermediate input below a quarter of a half turn. -/
theorem inp_low (hS : f.S = false) (hw : 1 ≤ widthInt f) (hf : Fits f) {x : ℚ} (hx : f.Rep x)
    (he : ¬ exceeds f x) :
    0 ≤ inputInt f x ∧ |inputInt f x - x| ≤ 1 / 2 ^ 19 ∧
    inputInt f x = if f.W - f.I ≤ 19 then x else clip (tInt 0 f) x := by
  obtain ⟨x0, x1, r, hr⟩ := rep_lt hS hx
  have hlt : x < 804 / 1024 := by
    by_contra h
    push Not at h
    apply he
    refine ⟨?_, h⟩
    by_contra hI
    have := Fmt.z_le (show f.I ≤ -1 by omega)
    norm_num at this
    linarith
  have hx1 : x < 2 ^ (min f.I 1) := by
    rcases le_total f.I 1 with h | h
    · rw [min_eq_left h]; exact x1
    · rw [min_eq_right h]; norm_num; linarith
  unfold inputInt
  rw [if_neg he]
  by_cases hn : f.W - f.I ≤ 19
  · have : (tInt 0 f).cvt x = x := by
      refine exact_fit (n := r * (if 0 ≤ f.I then 2 else 1)) (by unfold tInt; simp; omega) rfl x0 hx1 ?_
      rw [tInt_F 0 hw]
      unfold fbInt
      rw [min_eq_right hn]
      unfold Fmt.F at hr
      push_cast
      rw [add_zero, zpow_add₀ (by norm_num), ← mul_assoc, hr]
      split_ifs <;> norm_num
    rw [this, if_pos hn]
    exact ⟨x0, by simp, rfl⟩
  · push Not at hn
    rw [wide_fit hw hf hn x0 hx1 (by linarith), if_neg (by omega)]
    refine ⟨clip_nonneg _ x0, ?_, rfl⟩
    refine le_trans (clip_err _ (below_top rfl hx1).le) ?_
    rw [tInt_F 0 hw]
    have : (2 : ℚ) ^ (-(fbInt f + ((0 : ℕ) : ℤ))) ≤ 2 ^ (-19 : ℤ) := by
      apply Fmt.z_le
      unfold fbInt
      split_ifs <;> push_cast <;> omega
    refine le_trans this ?_
    norm_num

/-- The halved intermediate input. -/
theorem inp_high (hS : f.S = false) (hw : 1 ≤ widthInt f) (hf : Fits f) {x : ℚ} (hx : f.Rep x)
    (he : exceeds f x) (hs : x < 1594 / 1024) :
    0 ≤ inputInt f x ∧ |2 * inputInt f x - x| ≤ 1 / 2 ^ 18 ∧
    inputInt f x = if f.W - f.I ≤ 19 then x / 2 else half f x := by
  obtain ⟨x0, x1, r, hr⟩ := rep_lt hS hx
  have hI : 0 ≤ f.I := he.1
  have hx1 : x < 2 ^ (min f.I 1) := by
    rcases le_total f.I 1 with h | h
    · rw [min_eq_left h]; exact x1
    · rw [min_eq_right h]; norm_num; linarith
  unfold inputInt
  rw [if_pos he]
  have W0 : 1 ≤ (tInt 0 f).W := by unfold tInt; simp; omega
  have W1 : 1 ≤ (tInt 1 f).W := by unfold tInt; simp
  by_cases hn : f.W - f.I ≤ 19
  · have hF1 : (tInt 1 f).F = (f.W - f.I) + 2 := by
      rw [tInt_F 1 hw]; unfold fbInt; rw [min_eq_right hn, if_pos hI]; push_cast; ring
    have hF0 : (tInt 0 f).F = (f.W - f.I) + 1 := by
      rw [tInt_F 0 hw]; unfold fbInt; rw [min_eq_right hn, if_pos hI]; push_cast; ring
    unfold Fmt.F at hr
    have n1 : x * 2 ^ (tInt 1 f).F = ((r * 4 : ℤ) : ℚ) := by
      rw [hF1, zpow_add₀ (by norm_num), ← mul_assoc, hr]; push_cast; norm_num
    have e1 : (tInt 1 f).cvt x = x := exact_fit W1 rfl x0 hx1 n1
    have raw1 : (tInt 1 f).raw x = r * 4 := by
      unfold Fmt.raw; rw [n1, Int.floor_intCast]
    have e2 : (tInt 1 f).val (r * 4 / 2) = x / 2 := by
      rw [show r * 4 / 2 = r * 2 by omega]
      have hz := Fmt.z_pos (tInt 1 f).F
      have a := Fmt.val_mul_pow (tInt 1 f) (r * 2)
      have b : x / 2 * 2 ^ (tInt 1 f).F = ((r * 2 : ℤ) : ℚ) := by
        have : x / 2 * 2 ^ (tInt 1 f).F = x * 2 ^ (tInt 1 f).F / 2 := by ring
        rw [this, n1]; push_cast; ring
      rw [← b] at a
      exact mul_right_cancel₀ hz.ne' a
    have e3 : (tInt 0 f).cvt (x / 2) = x / 2 := by
      refine exact_fit (n := r) W0 rfl (by linarith) ?_ ?_
      · show x / 2 < 2 ^ (min f.I 1); linarith
      · rw [hF0, zpow_add₀ (by norm_num), ← mul_assoc, div_mul_eq_mul_div, hr]; norm_num
    rw [e1, raw1, e2, e3, if_pos hn]
    refine ⟨by linarith, ?_, rfl⟩
    rw [show 2 * (x / 2) - x = 0 by ring]; simp
  · push Not at hn
    have hF1 : (tInt 1 f).F = 21 := by
      rw [tInt_F 1 hw]; unfold fbInt; rw [min_eq_left hn.le, if_pos hI]; norm_num
    have hF0 : (tInt 0 f).F = 20 := by
      rw [tInt_F 0 hw]; unfold fbInt; rw [min_eq_left hn.le, if_pos hI]; norm_num
    have c1 := wide_fit (e := 1) hw hf hn x0 hx1 (by linarith)
    have er := clip_err (tInt 1 f) (below_top (g := tInt 1 f) rfl hx1).le
    have hQ : (tInt 1 f).Q = f.Q := rfl
    have hSS : (tInt 1 f).S = false := rfl
    unfold clip at c1 er
    rw [hQ, hSS] at c1 er
    set n := min (quant f.Q (x * 2 ^ (tInt 1 f).F)) (maxRaw (tInt 1 f).W false) with hnd
    have raw1 : (tInt 1 f).raw ((tInt 1 f).cvt x) = n := by rw [c1, Fmt.raw_val]
    have v1 : ∀ k : ℤ, (tInt 1 f).val k = k / 2097152 := by
      intro k; unfold Fmt.val; rw [hF1]; norm_num; ring
    rw [raw1]
    rw [v1, hF1] at er
    have er := abs_le.1 er
    norm_num at er
    have n0 : 0 ≤ n := by
      refine le_min (le_quant ?_) (maxRaw_nonneg _ _)
      simpa using mul_nonneg x0 (Fmt.z_pos (tInt 1 f).F).le
    have hdiv1 : ((n / 2 : ℤ) : ℚ) ≤ n / 2 := by
      have : 2 * (n / 2) ≤ n := by omega
      have : (2 : ℚ) * ((n / 2 : ℤ) : ℚ) ≤ n := by exact_mod_cast this
      linarith
    have hdiv2 : (n : ℚ) / 2 - 1 / 2 ≤ ((n / 2 : ℤ) : ℚ) := by
      have : n ≤ 2 * (n / 2) + 1 := by omega
      have : (n : ℚ) ≤ 2 * ((n / 2 : ℤ) : ℚ) + 1 := by exact_mod_cast this
      linarith
    have hdiv0 : (0 : ℚ) ≤ ((n / 2 : ℤ) : ℚ) := by exact_mod_cast (by omega : 0 ≤ n / 2)
    have t0 := top (g := tInt 0 f) rfl
    have hI1 : (1 : ℚ) ≤ 2 ^ (tInt 0 f).I := by
      have := Fmt.z_le (show (0 : ℤ) ≤ (tInt 0 f).I by unfold tInt; simp; omega)
      simpa using this
    rw [hF0] at t0
    have h0 : 0 ≤ (tInt 1 f).val (n / 2) := by rw [v1]; positivity
    have hb : (tInt 1 f).val (n / 2) * 2 ^ (tInt 0 f).F ≤ maxRaw (tInt 0 f).W (tInt 0 f).S := by
      rw [v1, hF0]
      norm_num at t0 ⊢
      linarith
    have c0 := cvt_clip (f := tInt 0 f) W0 rfl h0 (Or.inl hb)
    have er0 := clip_err (tInt 0 f) (x := (tInt 1 f).val (n / 2)) (by linarith)
    rw [c0, if_neg (by omega)]
    refine ⟨clip_nonneg _ h0, ?_, rfl⟩
    rw [hF0] at er0
    have er0 := abs_le.1 er0
    set c := clip (tInt 0 f) ((tInt 1 f).val (n / 2))
    rw [v1] at er0
    norm_num at er0
    rw [abs_le]
    norm_num
    constructor <;> linarith

/-! ## The doubled angle -/

/-- The type of `one_minus_tan_theta_by_2_sqr`. -/
def f16 (q : QMode) : Fmt := ⟨16, 0, false, q, .WRAP⟩
/-- The type of `recip_value`. -/
def f10 (q : QMode) : Fmt := ⟨16, 6, false, q, .WRAP⟩

/-- `one_minus_tan_theta_by_2_sqr` for a table value. -/
def den (q : QMode) (y : ℚ) : ℚ := (f16 q).cvt (1 - y * y)
/-- `recip_value`. -/
def rcp (q : QMode) (y : ℚ) : ℚ := (f10 q).cvt (Proof.Reciprocal.core (f16 q) |den q y|)

theorem f16_F (q : QMode) : (f16 q).F = 16 := by norm_num [f16, Fmt.F]
theorem f10_F (q : QMode) : (f10 q).F = 10 := by norm_num [f10, Fmt.F]

theorem den_eq (q : QMode) {y : ℚ} (h0 : 41 / 100 ≤ y) (h1 : y ≤ 986 / 1000) :
    den q y = clip (f16 q) (1 - y * y) ∧ |den q y - (1 - y * y)| ≤ 1 / 65536 ∧ 0 < den q y := by
  have a1 : 1 - y * y ≤ 832 / 1000 := by nlinarith
  have a2 : 277 / 10000 ≤ 1 - y * y := by nlinarith
  have hm : ((maxRaw (f16 q).W (f16 q).S : ℤ) : ℚ) = 65535 := by norm_num [f16, maxRaw]
  have hb : (1 - y * y) * 2 ^ (f16 q).F ≤ maxRaw (f16 q).W (f16 q).S := by
    rw [hm, f16_F]; norm_num; linarith
  have c : den q y = clip (f16 q) (1 - y * y) := cvt_clip (by norm_num [f16]) rfl (by linarith) (Or.inl hb)
  have e := clip_err (f16 q) (x := 1 - y * y) (by linarith)
  rw [← c, f16_F] at e
  norm_num at e
  refine ⟨c, by rw [show (1 : ℚ) - y * y = 1 - y * y by rfl]; norm_num; exact e, ?_⟩
  have := abs_le.1 e
  linarith

theorem rcp_eq (q : QMode) {y : ℚ} (h0 : 41 / 100 ≤ y) (h1 : y ≤ 986 / 1000) :
    reciprocal q (f16 q) (f10 q) (den q y) = some (rcp q y) ∧ |rcp q y * (1 - y * y) - 1| ≤ 1 / 300 ∧ 0 < rcp q y ∧
    rcp q y = clip (f10 q) (Proof.Reciprocal.core (f16 q) |den q y|) := by
  obtain ⟨d1, d2, d3⟩ := den_eq q h0 h1
  have hrep : (f16 q).Rep (den q y) := Fmt.rep_cvt (by norm_num [f16]) _
  have hc := Proof.Reciprocal.core_pos (f := f16 q) (by norm_num [f16]) hrep d3.ne'
  have hr := Proof.Reciprocal.reciprocal_eq q (f := f16 q) (out := f10 q) (by norm_num [f16]) (by norm_num [f10]) hrep d3.ne'
  rw [if_neg (fun c => absurd c.2 (by linarith))] at hr
  have a1 : 1 - y * y ≤ 832 / 1000 := by nlinarith
  have a2 : 277 / 10000 ≤ 1 - y * y := by nlinarith
  unfold rcp
  nth_rw 2 [abs_of_pos d3] at hc
  set ρ := Proof.Reciprocal.core (f16 q) |den q y|
  obtain ⟨c1, c0⟩ := hc
  have c1 := abs_le.1 c1
  have d2 := abs_le.1 d2
  set d := den q y
  set D := 1 - y * y
  have hρ : ρ ≤ 363 / 10 := by
    by_contra h
    push Not at h
    nlinarith
  have hm : ((maxRaw (f10 q).W (f10 q).S : ℤ) : ℚ) = 65535 := by norm_num [f10, maxRaw]
  have hb : ρ * 2 ^ (f10 q).F ≤ maxRaw (f10 q).W (f10 q).S := by
    rw [hm, f10_F]; norm_num; linarith
  have c : (f10 q).cvt ρ = clip (f10 q) ρ := cvt_clip (by norm_num [f10]) rfl c0.le (Or.inl hb)
  have e := clip_err (f10 q) (x := ρ) (by linarith)
  rw [← c, f10_F] at e
  norm_num at e
  have e := abs_le.1 e
  set R := (f10 q).cvt ρ
  have hη : |R * D - 1| ≤ 1 / 300 := by
    rw [abs_le]
    have m1 := mul_le_mul_of_nonneg_right e.1 (by linarith : 0 ≤ D)
    have m2 := mul_le_mul_of_nonneg_right e.2 (by linarith : 0 ≤ D)
    have m3 := mul_le_mul_of_nonneg_left d2.1 c0.le
    have m4 := mul_le_mul_of_nonneg_left d2.2 c0.le
    constructor <;> nlinarith
  refine ⟨hr, hη, ?_, c⟩
  have := abs_le.1 hη
  by_contra h
  push Not at h
  nlinarith

theorem rcp_mono (q : QMode) {y y' : ℚ} (h0 : 41 / 100 ≤ y) (h : y ≤ y') (h1 : y' ≤ 986 / 1000) : rcp q y ≤ rcp q y' := by
  obtain ⟨-, -, -, a⟩ := rcp_eq q h0 (by linarith)
  obtain ⟨-, -, -, b⟩ := rcp_eq q (by linarith) h1
  obtain ⟨d1, d2, d3⟩ := den_eq q h0 (by linarith)
  obtain ⟨d1', d2', d3'⟩ := den_eq q (by linarith) h1
  rw [a, b]
  apply clip_mono
  refine Proof.Reciprocal.core_anti (f := f16 q) (by norm_num [f16]) (Fmt.rep_cvt (by norm_num [f16]) _)
    (Fmt.rep_cvt (by norm_num [f16]) _) d3'.ne' d3.ne' ?_
  rw [abs_of_pos d3, abs_of_pos d3', d1, d1']
  apply clip_mono
  nlinarith

/-- A small relative error moves the arctangent by at most half of it. -/
theorem arctan_rel {t a η : ℝ} (ht : 0 < t) (h1 : η < 1) (h : |a / t - 1| ≤ η) :
    |Real.arctan a - Real.arctan t| ≤ η / (2 * (1 - η)) := by
  obtain ⟨l, u⟩ := abs_le.1 h
  have l' : t * (1 - η) ≤ a := by
    have := (le_div_iff₀ ht).1 (by linarith : 1 - η ≤ a / t); linarith
  have u' : a ≤ t * (1 + η) := by
    have := (div_le_iff₀ ht).1 (by linarith : a / t ≤ 1 + η); linarith
  have hη : 0 ≤ η := le_trans (abs_nonneg _) h
  have h1' : 0 < 1 - η := by linarith
  have ha : 0 < a := lt_of_lt_of_le (mul_pos ht h1') l'
  have key : ∀ v w : ℝ, 0 < v → t * (1 - η) ≤ v → w - v ≤ t * η → 0 ≤ w → Real.arctan w - Real.arctan v ≤ η / (2 * (1 - η)) := by
    intro v w hv hv' hw hw0
    have tg := tangent hw0 hv.le
    have hq : (w - v) * (1 / (1 + v ^ 2)) ≤ η / (2 * (1 - η)) := by
      rw [mul_one_div, div_le_div_iff₀ (by positivity) (by positivity)]
      have s1 : (w - v) * (2 * (1 - η)) ≤ t * η * (2 * (1 - η)) := mul_le_mul_of_nonneg_right hw (by positivity)
      have s2 : η * (2 * (t * (1 - η))) ≤ η * (2 * v) := mul_le_mul_of_nonneg_left (by linarith) hη
      have s3 : η * (2 * v) ≤ η * (1 + v ^ 2) := mul_le_mul_of_nonneg_left (by nlinarith [sq_nonneg (v - 1)]) hη
      nlinarith
    linarith
  rw [abs_le]
  constructor
  · have := key a t ha l' (by nlinarith) ht.le
    linarith
  · have := key t a ht (by nlinarith) (by nlinarith) ha.le
    linarith

theorem double (q : QMode) {y : ℚ} (h0 : 41 / 100 ≤ y) (h1 : y ≤ 986 / 1000) :
    |Real.arctan ((2 * y * rcp q y : ℚ) : ℝ) - 2 * Real.arctan y| ≤ 1 / 598 := by
  obtain ⟨-, r1, r2, -⟩ := rcp_eq q h0 h1
  have y0 : (0 : ℝ) < y := by exact_mod_cast (by linarith : 0 < y)
  have y1 : (y : ℝ) < 1 := by exact_mod_cast (by linarith : y < 1)
  rw [Real.two_mul_arctan (by linarith) y1]
  have hd : (0 : ℝ) < 1 - y ^ 2 := by nlinarith
  have := arctan_rel (t := 2 * y / (1 - y ^ 2)) (a := ((2 * y * rcp q y : ℚ) : ℝ)) (η := 1 / 300) (by positivity) (by norm_num) (by
    have e : ((2 * y * rcp q y : ℚ) : ℝ) / (2 * y / (1 - y ^ 2)) - 1 = ((rcp q y * (1 - y * y) - 1 : ℚ) : ℝ) := by
      push_cast
      field_simp
    rw [e]
    have := Rat.cast_le (K := ℝ) |>.2 r1
    push_cast at this ⊢
    exact this)
  refine le_trans this (by norm_num)

/-! ## The function -/

/-- The value before it is converted to the output type, for the table place `k`. -/
def val (q : QMode) (e : Bool) (k : ℕ) : ℚ := if e then 2 * Y k * rcp q (Y k) else Y k

theorem Y_lo : 41 / 100 ≤ Y 4095 := by decide +kernel
theorem Y_hi : Y 8120 ≤ 986 / 1000 := by decide +kernel

theorem meet (q : QMode) : Y 8191 ≤ 2 * Y 4095 * rcp q (Y 4095) := by cases q <;> decide +kernel

theorem val_mono (q : QMode) {e e' : Bool} {k k' : ℕ} (he : e = true → 4095 ≤ k ∧ k ≤ 8120) (he' : e' = true → 4095 ≤ k' ∧ k' ≤ 8120)
    (hk : k < 8192) (hk' : k' < 8192) (hs : e = e' → k ≤ k') (ho : e = true → e' = true) : val q e k ≤ val q e' k' := by
  have dbl : ∀ a b, 4095 ≤ a → a ≤ b → b ≤ 8120 → 2 * Y a * rcp q (Y a) ≤ 2 * Y b * rcp q (Y b) := by
    intro a b h1 h2 h3
    have y1 := Y_mono h1 (by omega)
    have y2 := Y_mono h2 (by omega)
    have y3 := Y_mono h3 (by norm_num)
    have l := Y_lo
    have u := Y_hi
    have r := rcp_mono q (by linarith) y2 (by linarith)
    have r0 := (rcp_eq q (y := Y a) (by linarith) (by linarith)).2.2.1
    exact mul_le_mul (by linarith) r r0.le (by linarith)
  unfold val
  cases e <;> cases e'
  · exact Y_mono (hs rfl) hk'
  · have := Y_mono (show k ≤ 8191 by omega) (by norm_num)
    have m := meet q
    have d := dbl 4095 k' le_rfl (he' rfl).1 (he' rfl).2
    simp only [if_true, Bool.false_eq_true, if_false]
    linarith
  · exact absurd (ho rfl) (by decide)
  · exact dbl k k' (he rfl).1 (hs rfl) (he' rfl).2

theorem tan_eq (q : QMode) (out : Fmt) (hS : f.S = false) (hw : 1 ≤ widthInt f) (hf : Fits f) {x : ℚ} (hx : f.Rep x)
    (hs : x < 1594 / 1024) :
    ∃ k : ℕ, k < 8192 ∧ (k : ℚ) ≤ inputInt f x * 10433 ∧ inputInt f x * 10433 < k + 1 ∧
    (exceeds f x → 4095 ≤ k ∧ k ≤ 8120) ∧
    tan q f out x = some (out.cvt (val q (decide (exceeds f x)) k)) ∧ 
    |Real.arctan (val q (decide (exceeds f x)) k) - x| ≤ (if exceeds f x then 1 / 210 else 1 / 668) := by
  by_cases he : exceeds f x
  · obtain ⟨i0, i1, -⟩ := inp_high hS hw hf hx he hs
    have i2 := abs_le.1 i1
    norm_num at i2
    obtain ⟨k, hk, k1, k2, k3, k4⟩ := seg (v := inputInt f x) i0 (by norm_num; linarith) q
    have hxl : 804 / 1024 ≤ x := he.2
    have kl : 4095 ≤ k := by
      have : (4095 : ℚ) < k + 1 := by linarith
      have : 4095 < k + 1 := by exact_mod_cast this
      omega
    have ku : k ≤ 8120 := by
      have : (k : ℚ) < 8121 := by linarith
      have : k < 8121 := by exact_mod_cast this
      omega
    have y1 : 41 / 100 ≤ Y k := le_trans Y_lo (Y_mono kl hk)
    have y2 : Y k ≤ 986 / 1000 := le_trans (Y_mono ku (by norm_num)) Y_hi
    refine ⟨k, hk, k1, k2, fun _ => ⟨kl, ku⟩, ?_, ?_⟩
    · unfold tan
      simp only [k3, k4, Option.bind_eq_bind, Option.bind_some, he, if_true, decide_true, val]
      have := (rcp_eq q y1 y2).1
      unfold den f16 f10 at this
      rw [this]
      simp only [Option.bind_some]
      rw [if_neg (by linarith)]
    · simp only [he, decide_true, if_true, val]
      have d := abs_le.1 (double q y1 y2)
      have e := abs_le.1 (Y_err hk (v := (inputInt f x : ℚ)) (by
        rw [div_le_iff₀ (by norm_num)]; exact_mod_cast k1) (by
        rw [le_div_iff₀ (by norm_num)]; exact_mod_cast k2.le))
      have i3 := Rat.cast_le (K := ℝ) |>.2 i2.1
      have i4 := Rat.cast_le (K := ℝ) |>.2 i2.2
      push_cast at i3 i4
      rw [abs_le]
      constructor <;> linarith
  · obtain ⟨i0, i1, -⟩ := inp_low hS hw hf hx he
    have i2 := abs_le.1 i1
    norm_num at i2
    have hxl : x < 804 / 1024 := by
      by_contra h
      push Not at h
      apply he
      refine ⟨?_, h⟩
      by_contra hI
      have := Fmt.z_le (show f.I ≤ -1 by omega)
      have := (rep_lt hS hx).2.1
      norm_num at *
      linarith
    obtain ⟨k, hk, k1, k2, k3, k4⟩ := seg (v := inputInt f x) i0 (by norm_num; linarith) q
    refine ⟨k, hk, k1, k2, fun h => absurd h he, ?_, ?_⟩
    · unfold tan
      simp only [k3, k4, Option.bind_eq_bind, Option.bind_some, he, if_false, decide_false, val, Bool.false_eq_true]
      rw [if_neg (by linarith)]
    · simp only [he, decide_false, if_false, val, Bool.false_eq_true]
      have e := abs_le.1 (Y_err hk (v := (inputInt f x : ℚ)) (by
        rw [div_le_iff₀ (by norm_num)]; exact_mod_cast k1) (by
        rw [le_div_iff₀ (by norm_num)]; exact_mod_cast k2.le))
      have i3 := Rat.cast_le (K := ℝ) |>.2 i2.1
      have i4 := Rat.cast_le (K := ℝ) |>.2 i2.2
      push_cast at i3 i4
      rw [abs_le]
      constructor <;> linarith

theorem inp_mono (hS : f.S = false) (hw : 1 ≤ widthInt f) (hf : Fits f) {x x' : ℚ} (hx : f.Rep x) (hx' : f.Rep x')
    (h : x ≤ x') (hs : x' < 1594 / 1024) (he : exceeds f x ↔ exceeds f x') : inputInt f x ≤ inputInt f x' := by
  by_cases h1 : exceeds f x
  · rw [(inp_high hS hw hf hx h1 (by linarith)).2.2, (inp_high hS hw hf hx' (he.1 h1) hs).2.2]
    split_ifs
    · linarith
    · exact half_mono f h
  · rw [(inp_low hS hw hf hx h1).2.2, (inp_low hS hw hf hx' (fun c => h1 (he.2 c))).2.2]
    split_ifs
    · exact h
    · exact clip_mono _ h

theorem val_nonneg (q : QMode) {e : Bool} {k : ℕ} (hk : k < 8192) (he : e = true → 4095 ≤ k ∧ k ≤ 8120) : 0 ≤ val q e k := by
  unfold val
  cases e
  · simp only [Bool.false_eq_true, if_false]
    unfold Y
    exact div_nonneg (by exact_mod_cast (Y_range hk).1) (by positivity)
  · simp only [if_true]
    obtain ⟨h1, h2⟩ := he rfl
    have y1 : 41 / 100 ≤ Y k := le_trans Y_lo (Y_mono h1 hk)
    have y2 : Y k ≤ 986 / 1000 := le_trans (Y_mono h2 (by norm_num)) Y_hi
    have := (rcp_eq q y1 y2).2.2.1
    have : 0 < Y k := by linarith
    positivity

theorem spec2 (q : QMode) (out : Fmt) (hS : f.S = false) (hw : 1 ≤ widthInt f) (hf : Fits f) {x x' : ℚ} (hx : f.Rep x)
    (hx' : f.Rep x') (hs : x < 1594 / 1024) (hs' : x' < 1594 / 1024) :
    ∃ r r' : ℚ, tan q f out x = some (out.cvt r) ∧ tan q f out x' = some (out.cvt r') ∧
    0 ≤ r ∧ |Real.arctan r - x| ≤ (if exceeds f x then 1 / 210 else 1 / 668) ∧
    |Real.arctan r' - x'| ≤ (if exceeds f x' then 1 / 210 else 1 / 668) ∧ (¬ exceeds f x → r ≤ 1) ∧ (x ≤ x' → r ≤ r') := by
  obtain ⟨k, hk, k1, k2, k3, k4, k5⟩ := tan_eq q out hS hw hf hx hs
  obtain ⟨k', hk', k1', k2', k3', k4', k5'⟩ := tan_eq q out hS hw hf hx' hs'
  refine ⟨_, _, k4, k4', val_nonneg q hk (fun h => k3 (of_decide_eq_true h)), k5, k5', ?_, ?_⟩
  · intro h
    simp only [h, decide_false, val, Bool.false_eq_true, if_false]
    refine le_trans (Y_mono (show k ≤ 8191 by omega) (by norm_num)) (by decide +kernel)
  · intro h
    have mono : exceeds f x → exceeds f x' := fun c => ⟨c.1, le_trans c.2 h⟩
    refine val_mono q (fun c => k3 (of_decide_eq_true c)) (fun c => k3' (of_decide_eq_true c)) hk hk' ?_ ?_
    · intro c
      have c' : exceeds f x ↔ exceeds f x' := decide_eq_decide.1 c
      exact place_mono (inp_mono hS hw hf hx hx' h hs' c') k1 k2'
    · intro c
      exact decide_eq_true (mono (of_decide_eq_true c))

theorem spec (q : QMode) (out : Fmt) (hS : f.S = false) (hw : 1 ≤ widthInt f) (hf : Fits f) {x x' : ℚ} (hx : f.Rep x)
    (hx' : f.Rep x') (hs : x < 1594 / 1024) (hs' : x' < 1594 / 1024) :
    ∃ r r' : ℚ, tan q f out x = some (out.cvt r) ∧ tan q f out x' = some (out.cvt r') ∧
    0 ≤ r ∧ |Real.arctan r - x| ≤ (if exceeds f x then 1 / 210 else 1 / 668) ∧ (¬ exceeds f x → r ≤ 1) ∧ (x ≤ x' → r ≤ r') := by
  obtain ⟨r, r', a, b, c, d, -, e⟩ := spec2 q out hS hw hf hx hx' hs hs'
  exact ⟨r, r', a, b, c, d, e⟩

theorem tan_isSome (q : QMode) (f out : Fmt) (x : ℚ) : (tan q f out x).isSome := by
  unfold tan
  obtain ⟨y, hy⟩ := segVal_isSome (m := tanM) (c := tanC) (ib := 3) rfl rfl 10 10 (inputInt f x * (10433 / 1024))
  have hr : ∀ d, ∃ r, reciprocal q ⟨16, 0, false, q, .WRAP⟩ ⟨16, 6, false, q, .WRAP⟩ d = some r := by
    intro d
    unfold reciprocal
    obtain ⟨z, hz⟩ := segVal_isSome (m := recM) (c := recC) (ib := 3) rfl rfl 10 (scBits 10 ((16 : ℕ) - 4 - (if false then 1 else 0)))
      (((Model.Normalize.normalize (uns ⟨16, 0, false, q, .WRAP⟩) ((uns ⟨16, 0, false, q, .WRAP⟩).raw (magnitude ⟨16, 0, false, q, .WRAP⟩ d))).1 - 1 / 2) * 16)
    simp only [hz, Option.bind_eq_bind, Option.bind_some]
    split_ifs <;> exact ⟨_, rfl⟩
  obtain ⟨r, hr⟩ := hr ((⟨16, 0, false, q, .WRAP⟩ : Fmt).cvt (1 - (⟨20, 0, false, q, .WRAP⟩ : Fmt).cvt y * (⟨20, 0, false, q, .WRAP⟩ : Fmt).cvt y))
  simp only [hy, Option.bind_eq_bind, Option.bind_some]
  split_ifs <;> simp [hr]

/-- From the error of the angle to that of the value, for values up to 1. -/
theorem forward {r t e : ℝ} (r0 : 0 ≤ r) (r1 : r ≤ 1) (t0 : 0 ≤ t) (t1 : t ≤ 1) (h : |Real.arctan r - Real.arctan t| ≤ e) :
    |r - t| ≤ 2 * e := by
  have key : ∀ u v : ℝ, 0 ≤ u → v ≤ 1 → u ≤ v → v - u ≤ 2 * (Real.arctan v - Real.arctan u) := by
    intro u v u0 v1 huv
    have tg := tangent u0 (le_trans u0 huv)
    have : (u - v) * (1 / (1 + v ^ 2)) ≤ (u - v) * (1 / 2) := by
      apply mul_le_mul_of_nonpos_left _ (by linarith)
      apply one_div_le_one_div_of_le (by positivity)
      nlinarith
    linarith
  have h := abs_le.1 h
  rw [abs_le]
  rcases le_total r t with hrt | hrt
  · have := key r t r0 t1 hrt
    constructor <;> linarith
  · have := key t r t0 r1 hrt
    constructor <;> linarith

end Proof.Tan
