import Verif.Proof.ComplexSqrt
import Verif.Props.IsqrtPwl

/-! # The inverse square root of a complex number -/

namespace Proof.ComplexIsqrt
open Ac Model.Complex Proof.Complex Proof.ComplexSqrt

variable {f fm fc fmc out : Fmt} {a b : ℚ}

/-- The type of `inverse_sqrt` is just wide enough at the top. -/
theorem inv_fit (q : QMode) (hW : 1 ≤ f.W) (hWm : 1 ≤ fm.W) (hSm : fm.S = false) {m : ℚ} (hrep : fm.Rep m)
    (hl : 2 ^ (-(2 * f.F)) ≤ m) (hm : 0 < m) : Proof.IsqrtPwl.core q true fm m ≤ (invFmt q f).maxVal := by
  obtain ⟨a1, a2, a3, -⟩ := Proof.PwlFixed.norm_pos (cn := true) hWm hSm hrep hm (Or.inl rfl) 3
  unfold Proof.IsqrtPwl.core
  set n := (Model.PwlFixed.norm true fm m).1
  set e := (Model.PwlFixed.norm true fm m).2
  have he : 1 - 2 * f.F ≤ e := by
    by_contra hc
    push Not at hc
    have h1 : m < 2 ^ (-(2 * f.F)) := by
      rw [a1]
      calc n * 2 ^ e < 1 * 2 ^ e := mul_lt_mul_of_pos_right a3 (Fmt.z_pos _)
        _ = 2 ^ e := one_mul _
        _ ≤ 2 ^ (-(2 * f.F)) := Fmt.z_le (by omega)
    linarith
  obtain ⟨k, hk, hg, l1, l2, g1, g2⟩ := Proof.IsqrtPwl.g_cell a2 a3
  have ho := Proof.IsqrtPwl.odd_facts (q := q) a2 a3
  have hodd : (Proof.IsqrtPwl.tfmt q).cvt (Proof.IsqrtPwl.g n * Model.PwlFixed.inverseroot2) ≤ 1 - 1 / 2 ^ 24 := by
    obtain ⟨r, -, r1, e⟩ := Fmt.rep_cvt (f := Proof.IsqrtPwl.tfmt q) (by simp [Proof.IsqrtPwl.tfmt])
      (Proof.IsqrtPwl.g n * Model.PwlFixed.inverseroot2)
    rw [e]
    have e1 : (Proof.IsqrtPwl.tfmt q).F = 24 := rfl
    have r2 : r ≤ 2 ^ 24 - 1 := r1
    have r3 : (r : ℚ) ≤ 2 ^ 24 - 1 := by exact_mod_cast r2
    unfold Fmt.val
    rw [e1]; norm_num at r3 ⊢; linarith
  have hF : (invFmt q f).F = f.I + 23 := by unfold invFmt Fmt.F; push_cast; ring
  have hI : (invFmt q f).I = f.F := rfl
  rw [rec_max rfl, hF, hI]
  have hz := Fmt.z_pos f.F
  have hu : (2 : ℚ) ^ (-(f.I + 23)) ≤ 1 / 2 ^ 24 * 2 ^ f.F := by
    rw [show (1 / 2 ^ 24 : ℚ) = 2 ^ (-24 : ℤ) by norm_num, Fmt.z_add]
    exact Fmt.z_le (by unfold Fmt.F; omega)
  by_cases h2 : 2 - 2 * f.F ≤ e
  · have hm1 : Proof.IsqrtPwl.m1 q n e ≤ 3 / 2 := by
      unfold Proof.IsqrtPwl.m1; split_ifs
      · linarith
      · linarith
    have hm0 : 0 ≤ Proof.IsqrtPwl.m1 q n e := by
      unfold Proof.IsqrtPwl.m1; split_ifs
      · linarith
      · have := (abs_le.1 ho).1; unfold Model.PwlFixed.inverseroot2 at *; norm_num at this; linarith
    have hp : (2 : ℚ) ^ (-(e / 2)) ≤ 1 / 2 * 2 ^ f.F := by
      rw [show (1 / 2 : ℚ) = 2 ^ (-1 : ℤ) by norm_num, Fmt.z_add]
      exact Fmt.z_le (by omega)
    calc Proof.IsqrtPwl.m1 q n e * 2 ^ (-(e / 2)) ≤ 3 / 2 * (1 / 2 * 2 ^ f.F) :=
          mul_le_mul hm1 hp (Fmt.z_pos _).le (by norm_num)
      _ ≤ _ := by linarith
  · have he1 : e = 1 - 2 * f.F := by omega
    have hm1 : Proof.IsqrtPwl.m1 q n e ≤ 1 - 1 / 2 ^ 24 := by
      unfold Proof.IsqrtPwl.m1; rw [if_neg (by omega)]; exact hodd
    have hp : (2 : ℚ) ^ (-(e / 2)) = 2 ^ f.F := by congr 1; omega
    rw [hp]
    have := mul_le_mul_of_nonneg_right hm1 hz.le
    linarith

/-- Assignment of a small number to a signed type. -/
theorem cvt_signed {o : Fmt} (hoW : 1 ≤ o.W) (hS : o.S = true) (hO : o.O = .WRAP) {r : ℚ} (h : |r| ≤ 2 ^ (o.I - 1) - 2 ^ (-o.F)) :
    |o.cvt r - r| < 2 ^ (-o.F) ∧ (0 ≤ r → 0 ≤ o.cvt r) ∧ (r ≤ 0 → o.cvt r ≤ 0) := by
  have hz := Fmt.z_pos o.F
  have hz' := Fmt.z_pos (-o.F)
  have e : (2 : ℚ) ^ (o.I - 1) * 2 ^ o.F = 2 ^ (o.W - 1) := by
    rw [Fmt.z_add, ← zpow_natCast]; congr 1; unfold Fmt.F; omega
  have h1 : |r * 2 ^ o.F| ≤ 2 ^ (o.W - 1) - 1 := by
    rw [abs_mul, abs_of_pos hz]
    have := mul_le_mul_of_nonneg_right h hz.le
    rwa [sub_mul, e, Fmt.z_add, neg_add_cancel, zpow_zero] at this
  obtain ⟨h2, h3⟩ := abs_le.1 h1
  have hmax : ((maxRaw o.W o.S : ℤ) : ℚ) = 2 ^ (o.W - 1) - 1 := by rw [hS]; simp [maxRaw]
  have hlo : ((loRaw o.W o.S o.O : ℤ) : ℚ) = -2 ^ (o.W - 1) := by rw [hS, hO]; simp [loRaw, minRaw]
  have c0 : ((loRaw o.W o.S o.O : ℤ) : ℚ) ≤ r * 2 ^ o.F := by rw [hlo]; linarith
  have c1 : r * 2 ^ o.F ≤ ((maxRaw o.W o.S : ℤ) : ℚ) := by rw [hmax]; exact h3
  have ev : o.cvt r = o.val (quant o.Q (r * 2 ^ o.F)) := by
    unfold Fmt.cvt Fmt.cvtRaw; rw [ovf_of_range hoW (le_quant c0) (quant_le c1)]
  refine ⟨by simpa using Fmt.cvt_err hoW c0 c1, ?_, ?_⟩
  · intro hr
    rw [ev]; unfold Fmt.val
    have : (0 : ℤ) ≤ quant o.Q (r * 2 ^ o.F) := le_quant (by push_cast; exact mul_nonneg hr hz.le)
    exact mul_nonneg (by exact_mod_cast this) hz'.le
  · intro hr
    rw [ev]; unfold Fmt.val
    have : quant o.Q (r * 2 ^ o.F) ≤ (0 : ℤ) := quant_le (by push_cast; exact mul_nonpos_of_nonpos_of_nonneg hr hz.le)
    exact mul_nonpos_of_nonpos_of_nonneg (by exact_mod_cast this) hz'.le

theorem conj_facts (q : QMode) (hI : -26 ≤ f.I) (hW : 1 ≤ f.W) : (conjFmt q f).F = ((f.W : ℤ) + 23) / 2 + 22 ∧
    (conjFmt q f).I - 1 = rtI f.I ∧ 3 ≤ (conjFmt q f).W := by
  obtain ⟨xF, xI, xW, xS⟩ := xy_F f (by omega)
  refine ⟨?_, ?_, ?_⟩
  · rw [← xF]; unfold conjFmt Fmt.F; push_cast; ring
  · unfold conjFmt; simp only; rw [xI]; ring
  · unfold conjFmt; simp only; omega

/-- A product of a stored root and the stored inverse is exact, and so is its negation. -/
theorem prod_exact (q : QMode) {s v : ℚ} (hcW : 1 ≤ (conjFmt q f).W) (hs : (conjFmt q f).Rep s) (hv : (invFmt q f).Rep v) :
    (otFmt q f).cvt (s * v) = s * v ∧ (otFmt q f).cvt (-(s * v)) = -(s * v) := by
  obtain ⟨i, i0, i1, es⟩ := hs
  obtain ⟨j, j0, j1, ev⟩ := hv
  have hF : (otFmt q f).F = (conjFmt q f).F + (invFmt q f).F := by unfold otFmt Fmt.F; push_cast; ring
  have hsv : s * v = (otFmt q f).val (i * j) := by
    rw [es, ev]; unfold Fmt.val; rw [hF, neg_add, ← Fmt.z_add]; push_cast; ring
  have hi : |i| ≤ 2 ^ ((conjFmt q f).W - 1) := by
    have e : (conjFmt q f).S = true := rfl
    rw [e] at i0 i1
    simp only [minRaw, maxRaw, if_true] at i0 i1
    rw [abs_le]; constructor <;> omega
  have hj : |j| ≤ 2 ^ (invFmt q f).W - 1 := by
    have e : (invFmt q f).S = false := rfl
    rw [e] at j0 j1
    simp only [minRaw, maxRaw, Bool.false_eq_true, if_false] at j0 j1
    rw [abs_le]; constructor <;> omega
  have hij : |i * j| < 2 ^ ((otFmt q f).W - 1) := by
    have e : (otFmt q f).W - 1 = ((conjFmt q f).W - 1) + (invFmt q f).W := by unfold otFmt; simp only; omega
    rw [e, pow_add, abs_mul]
    have h1 : |i| * |j| ≤ 2 ^ ((conjFmt q f).W - 1) * (2 ^ (invFmt q f).W - 1) :=
      mul_le_mul hi hj (abs_nonneg _) (by positivity)
    have h2 : (0 : ℤ) < 2 ^ ((conjFmt q f).W - 1) := by positivity
    rw [mul_sub, mul_one] at h1
    linarith
  obtain ⟨h1, h2⟩ := abs_lt.1 hij
  have key : ∀ k : ℤ, -2 ^ ((otFmt q f).W - 1) < k → k < 2 ^ ((otFmt q f).W - 1) → (otFmt q f).cvt ((otFmt q f).val k) = (otFmt q f).val k := by
    intro k k1 k2
    have e : (otFmt q f).S = true := rfl
    have e' : (otFmt q f).O = .WRAP := rfl
    refine Fmt.cvt_val (by unfold otFmt; simp only; omega) ?_ ?_
    · rw [e, e']; simp only [loRaw, minRaw, if_true]; simp; omega
    · rw [e]; simp only [maxRaw, if_true]; omega
  constructor
  · rw [hsv]; exact key _ h1 h2
  · have : -(s * v) = (otFmt q f).val (-(i * j)) := by rw [hsv]; unfold Fmt.val; push_cast; ring
    rw [this]; exact key _ (by omega) (by omega)

/-- One stored root. -/
theorem stored (q : QMode) (hW : 1 ≤ f.W) (hI : -26 ≤ f.I) {M : ℝ} (hMl : (((2 : ℚ) ^ (-f.F) : ℚ) : ℝ) ≤ M)
    (hMu : M ≤ 7072 / 10000 * (((2 : ℚ) ^ f.I : ℚ) : ℝ)) {x r : ℚ} (hr : r = x ∨ r = -x) (hx0 : 0 ≤ x) {P : ℝ} (hPM : P ≤ M)
    (hx : |(x : ℝ) ^ 2 - P| ≤ M / 340) :
    |((|(conjFmt q f).cvt r| : ℚ) : ℝ) ^ 2 - P| ≤ M / 339 ∧ (0 ≤ r → 0 ≤ (conjFmt q f).cvt r) ∧ (r ≤ 0 → (conjFmt q f).cvt r ≤ 0) := by
  obtain ⟨cF, cI, cW⟩ := conj_facts q hI hW
  have hMpos : 0 < M := lt_of_lt_of_le (by exact_mod_cast Fmt.z_pos (-f.F)) hMl
  have habs : |r| = x := by rcases hr with rfl | rfl <;> simp [abs_of_nonneg hx0]
  have hx2 : x ^ 2 ≤ 36 / 100 * (2 ^ rtI f.I) ^ 2 := by
    have h1 : (x : ℝ) ^ 2 ≤ 72 / 100 * (((2 : ℚ) ^ f.I : ℚ) : ℝ) := by
      have := (abs_le.1 hx).2
      have : (0 : ℝ) < (((2 : ℚ) ^ f.I : ℚ) : ℝ) := by exact_mod_cast Fmt.z_pos f.I
      linarith
    have h2 : ((x ^ 2 : ℚ) : ℝ) ≤ ((72 / 100 * 2 ^ f.I : ℚ) : ℝ) := by push_cast at h1 ⊢; exact h1
    have h3 : x ^ 2 ≤ 72 / 100 * 2 ^ f.I := Rat.cast_le.1 h2
    have h4 : 2 * (2 : ℚ) ^ f.I ≤ (2 ^ rtI f.I) ^ 2 := by
      rw [pow_two, Fmt.z_add, ← Fmt.z_succ]
      refine Fmt.z_le ?_
      rw [rtI_eq]; split_ifs <;> omega
    linarith
  have hxle : x ≤ 6 / 10 * 2 ^ rtI f.I := by
    refine le_of_sq_le_sq ?_ (mul_nonneg (by norm_num) (Fmt.z_pos _).le)
    rw [mul_pow]; linarith
  have hul : (2 : ℚ) ^ (-(conjFmt q f).F) ≤ 1 / 4 * 2 ^ rtI f.I := by
    rw [show (1 / 4 : ℚ) = 2 ^ (-2 : ℤ) by norm_num, Fmt.z_add]
    refine Fmt.z_le ?_
    rw [← cI]; unfold Fmt.F; omega
  have hz := Fmt.z_pos (rtI f.I)
  obtain ⟨hn, hp, hneg⟩ := cvt_signed (o := conjFmt q f) (by omega) rfl rfl (r := r) (by rw [habs, cI]; linarith)
  refine ⟨?_, hp, hneg⟩
  set w := |(conjFmt q f).cvt r| with hw
  have hwx : |w - x| < 2 ^ (-(conjFmt q f).F) := by
    rw [hw, ← habs]; exact lt_of_le_of_lt (abs_abs_sub_abs_le_abs_sub _ _) hn
  set u : ℚ := 2 ^ (-(conjFmt q f).F) with hu
  have hu2 : u ^ 2 ≤ 1 / 2 ^ 40 * 2 ^ (-f.F) := by
    rw [hu, pow_two, Fmt.z_add, show (1 / 2 ^ 40 : ℚ) = 2 ^ (-40 : ℤ) by norm_num, Fmt.z_add]
    refine Fmt.z_le ?_
    rw [cF]; unfold Fmt.F; omega
  set g := Real.sqrt M with hg
  have hg0 : 0 ≤ g := Real.sqrt_nonneg _
  have hgg : g ^ 2 = M := Real.sq_sqrt hMpos.le
  have hug : (u : ℝ) ≤ 1 / 2 ^ 20 * g := by
    refine le_of_sq_le_sq ?_ (mul_nonneg (by norm_num) hg0)
    have h2 : ((u ^ 2 : ℚ) : ℝ) ≤ ((1 / 2 ^ 40 * 2 ^ (-f.F) : ℚ) : ℝ) := Rat.cast_le.2 hu2
    rw [mul_pow, hgg]
    push_cast at h2 hMl
    have := mul_le_mul_of_nonneg_left hMl (by norm_num : (0 : ℝ) ≤ 1 / 2 ^ 40)
    calc (u : ℝ) ^ 2 ≤ _ := h2
      _ ≤ _ := this
      _ = _ := by norm_num
  have hxg : (x : ℝ) ≤ 102 / 100 * g := by
    refine le_of_sq_le_sq ?_ (mul_nonneg (by norm_num) hg0)
    rw [mul_pow, hgg]
    have := (abs_le.1 hx).2
    linarith
  have hnR : |(w : ℝ) - x| ≤ u := by
    have := (Rat.cast_lt (K := ℝ)).2 hwx
    push_cast at this; exact this.le
  have hxR0 : (0 : ℝ) ≤ x := by exact_mod_cast hx0
  have hwR0 : (0 : ℝ) ≤ w := by exact_mod_cast abs_nonneg ((conjFmt q f).cvt r)
  have hw2 : (w : ℝ) ≤ 103 / 100 * g := by have := (abs_le.1 hnR).2; linarith
  have key : |(w : ℝ) ^ 2 - (x : ℝ) ^ 2| ≤ M / 400000 := by
    have : (w : ℝ) ^ 2 - (x : ℝ) ^ 2 = (w - x) * (w + x) := by ring
    rw [this, abs_mul, abs_of_nonneg (by linarith : (0 : ℝ) ≤ w + x)]
    calc |(w : ℝ) - x| * (w + x) ≤ (1 / 2 ^ 20 * g) * (205 / 100 * g) :=
          mul_le_mul (le_trans hnR hug) (by linarith) (by linarith) (mul_nonneg (by norm_num) hg0)
      _ = 205 / 100 / 2 ^ 20 * M := by rw [← hgg]; ring
      _ ≤ M / 400000 := by linarith
  calc |(w : ℝ) ^ 2 - P| ≤ |(w : ℝ) ^ 2 - (x : ℝ) ^ 2| + |(x : ℝ) ^ 2 - P| := abs_sub_le _ _ _
    _ ≤ _ := by linarith

/-- The product with the inverse of the magnitude. -/
theorem scaled {M P w v : ℝ} (hM : 0 < M) (hP0 : 0 ≤ P) (hPM : P ≤ M) (hw : |w ^ 2 - P| ≤ M / 339) (hv : |v * M - 1| ≤ 1 / 1299) :
    |(w * v) ^ 2 - P / M ^ 2| ≤ 1 / (220 * M) := by
  set t := v * M with ht
  obtain ⟨v1, v2⟩ := abs_le.1 hv
  have ht2 : |t ^ 2 - 1| ≤ 155 / 100000 := by
    rw [abs_le]; constructor <;> nlinarith
  obtain ⟨t1, t2⟩ := abs_le.1 ht2
  have e : (w * v) ^ 2 - P / M ^ 2 = ((w ^ 2 - P) * t ^ 2 + P * (t ^ 2 - 1)) / M ^ 2 := by
    rw [ht]; field_simp; ring
  have hM2 : 0 < M ^ 2 := by positivity
  rw [e, abs_div, abs_of_pos hM2, div_le_iff₀ hM2]
  have e2 : 1 / (220 * M) * M ^ 2 = M / 220 := by field_simp
  rw [e2]
  calc |(w ^ 2 - P) * t ^ 2 + P * (t ^ 2 - 1)| ≤ |(w ^ 2 - P) * t ^ 2| + |P * (t ^ 2 - 1)| := abs_add_le _ _
    _ = |w ^ 2 - P| * t ^ 2 + P * |t ^ 2 - 1| := by
        rw [abs_mul, abs_mul, abs_of_nonneg (sq_nonneg t), abs_of_nonneg hP0]
    _ ≤ M / 339 * (100155 / 100000) + M * (155 / 100000) := by
        refine add_le_add (mul_le_mul hw (by linarith) (sq_nonneg _) (by positivity)) (mul_le_mul hPM ht2 (abs_nonneg _) hM.le)
    _ ≤ M / 220 := by linarith

theorem inverseSqrt_eq (q : QMode) (hW : 1 ≤ f.W) (hS : f.S = true) (hI : -26 ≤ f.I) (ha : f.Rep a) (hb : f.Rep b)
    (hz : a ≠ 0 ∨ b ≠ 0) (hWm : 1 ≤ fm.W) (hSm : fm.S = false) (hOm : fm.O ≠ .SAT_SYM) (hrep : fm.Rep (a ^ 2 + b ^ 2))
    (hWc : 1 ≤ fc.W) (hSc : fc.S = true) (hOc : fc.O ≠ .SAT_SYM) (hIc : -26 ≤ fc.I) (hac : fc.Rep a) (hbc : fc.Rep (-b))
    (hWmc : 1 ≤ fmc.W) (hSmc : fmc.S = false) (hOmc : fmc.O ≠ .SAT_SYM) (hrepc : fmc.Rep (a ^ 2 + (-b) ^ 2))
    {M : ℝ} (hM : M = Real.sqrt ((a : ℝ) ^ 2 + (b : ℝ) ^ 2)) :
    ∃ x y : ℚ, inverseSqrt q f fm fc fmc out a b =
        some (out.cvt x, out.cvt (if 0 < b ∨ a < 0 ∧ b = 0 then -y else y)) ∧ 0 ≤ x ∧ 0 ≤ y ∧
      |(x : ℝ) ^ 2 - (M + a) / 2 / M ^ 2| ≤ 1 / (220 * M) ∧ |(y : ℝ) ^ 2 - (M - a) / 2 / M ^ 2| ≤ 1 / (220 * M) := by
  have hl := m_low ha hb hz
  have hu := m_up hW ha hb
  have hm : 0 < a ^ 2 + b ^ 2 := lt_of_lt_of_le (Fmt.z_pos _) hl
  -- the magnitude
  have hMl : (((2 : ℚ) ^ (-f.F) : ℚ) : ℝ) ≤ M := by
    rw [hM]
    apply Real.le_sqrt_of_sq_le
    have e : ((2 : ℚ) ^ (-f.F)) ^ 2 ≤ a ^ 2 + b ^ 2 := by
      rw [pow_two, Fmt.z_add]; convert hl using 2; ring
    exact_mod_cast e
  have hMpos : 0 < M := lt_of_lt_of_le (by exact_mod_cast Fmt.z_pos (-f.F)) hMl
  have hM2 : M ^ 2 = ((a ^ 2 + b ^ 2 : ℚ) : ℝ) := by
    rw [hM, Real.sq_sqrt (by positivity)]; push_cast; rfl
  have hI0 := Fmt.z_pos f.I
  have hMu : M ≤ 7072 / 10000 * (((2 : ℚ) ^ f.I : ℚ) : ℝ) := by
    refine le_of_sq_le_sq ?_ (mul_nonneg (by norm_num) (by exact_mod_cast hI0.le))
    have e1 : (2 : ℚ) ^ I1 f = 1 / 2 * (2 ^ f.I) ^ 2 := by
      unfold I1; rw [if_pos hS, pow_two, Fmt.z_add, show (1 / 2 : ℚ) = 2 ^ (-1 : ℤ) by norm_num, Fmt.z_add]
      congr 1; ring
    have e2 : (0 : ℚ) < (2 ^ f.I) ^ 2 := by positivity
    have e3 : a ^ 2 + b ^ 2 ≤ (7072 / 10000 * 2 ^ f.I) ^ 2 := by rw [mul_pow]; linarith
    rw [hM2]
    have := (Rat.cast_le (K := ℝ)).2 e3
    refine le_trans this (le_of_eq ?_)
    push_cast; ring
  have haM : |(a : ℝ)| ≤ M := by
    rw [hM]; apply Real.le_sqrt_of_sq_le; rw [sq_abs]; have := sq_nonneg (b : ℝ); linarith
  obtain ⟨aM1, aM2⟩ := abs_le.1 haM
  -- the root of the conjugate
  obtain ⟨x, y, es, -, -, x0, y0, ex, ey⟩ := sqrt_eq (out := conjFmt q f) q hWc hSc hIc hac hbc hWmc hSmc hOmc hrepc
    (M := M) (by rw [hM]; push_cast; congr 2; ring)
  obtain ⟨cF, cI, cW⟩ := conj_facts q hI hW
  set r : ℚ := if -b < 0 then -y else y with hr
  have hr' : r = y ∨ r = -y := by rw [hr]; split_ifs <;> simp
  obtain ⟨sx, sx1, -⟩ := stored q hW hI hMl hMu (Or.inl rfl) x0 (P := (M + a) / 2) (by linarith) ex
  obtain ⟨sy, sy1, sy2⟩ := stored q hW hI hMl hMu hr' y0 (P := (M - a) / 2) (by linarith) ey
  rw [abs_of_nonneg (sx1 x0)] at sx
  -- the inverse of the magnitude
  have hiW : 1 ≤ (invFmt q f).W := by unfold invFmt; simp
  have ev := Proof.IsqrtPwl.inverseSqrt_eq q true hWm hSm hiW rfl hrep hm (Or.inl rfl)
  obtain ⟨c1, c2⟩ := Proof.IsqrtPwl.core_err (q := q) (cn := true) hWm hSm hrep hm (Or.inl rfl)
  have hfit := inv_fit q hW hWm hSm hrep hl hm
  have hvn := cvt_near hiW c2.le hfit
  set C := Proof.IsqrtPwl.core q true fm (a ^ 2 + b ^ 2) with hC
  set v := (invFmt q f).cvt C with hv
  have hvr : (invFmt q f).Rep v := Fmt.rep_cvt hiW C
  have hv0 : 0 ≤ v := by
    obtain ⟨k, k0, -, e⟩ := id hvr
    rw [e]; unfold Fmt.val
    have k0' : 0 ≤ k := k0
    exact mul_nonneg (by exact_mod_cast k0') (Fmt.z_pos _).le
  have hvM : |(v : ℝ) * M - 1| ≤ 1 / 1299 := by
    have h1 : |(C : ℝ) * M - 1| ≤ 1 / 1300 := by
      have := (Rat.cast_le (K := ℝ)).2 c1
      push_cast at this
      rw [show (a : ℝ) ^ 2 + (b : ℝ) ^ 2 = M ^ 2 by rw [hM2]; push_cast; rfl, ← mul_pow] at this
      have hC0 : (0 : ℝ) < C := by exact_mod_cast c2
      have ht0 : 0 < (C : ℝ) * M := mul_pos hC0 hMpos
      obtain ⟨d1, d2⟩ := abs_le.1 this
      generalize (C : ℝ) * M = t at *
      rw [abs_le]; constructor <;> nlinarith
    have h2 : |(v : ℝ) - C| * M ≤ 1 / 2 ^ 23 := by
      have hF : (invFmt q f).F = f.I + 23 := by unfold invFmt Fmt.F; push_cast; ring
      rw [hF] at hvn
      have h3 : |(v : ℝ) - C| ≤ (((2 : ℚ) ^ (-(f.I + 23)) : ℚ) : ℝ) := by
        have := (Rat.cast_lt (K := ℝ)).2 hvn
        push_cast at this ⊢; exact this.le
      calc |(v : ℝ) - C| * M ≤ (((2 : ℚ) ^ (-(f.I + 23)) : ℚ) : ℝ) * (7072 / 10000 * (((2 : ℚ) ^ f.I : ℚ) : ℝ)) :=
            mul_le_mul h3 hMu hMpos.le (by exact_mod_cast (Fmt.z_pos _).le)
        _ = 7072 / 10000 * (((2 : ℚ) ^ (-(f.I + 23)) * 2 ^ f.I : ℚ) : ℝ) := by push_cast; ring
        _ = 7072 / 10000 * (((2 : ℚ) ^ (-23 : ℤ) : ℚ) : ℝ) := by rw [Fmt.z_add]; congr 3; ring
        _ ≤ 1 / 2 ^ 23 := by norm_num
    calc |(v : ℝ) * M - 1| = |((v : ℝ) - C) * M + (C * M - 1)| := by congr 1; ring
      _ ≤ |((v : ℝ) - C) * M| + |(C : ℝ) * M - 1| := abs_add_le _ _
      _ = |(v : ℝ) - C| * M + |(C : ℝ) * M - 1| := by rw [abs_mul, abs_of_pos hMpos]
      _ ≤ 1 / 2 ^ 23 + 1 / 1300 := add_le_add h2 h1
      _ ≤ 1 / 1299 := by norm_num
  set w := (conjFmt q f).cvt r with hw
  set xt := (conjFmt q f).cvt x with hxt
  refine ⟨xt * v, |w| * v, ?_, mul_nonneg (sx1 x0) hv0, mul_nonneg (abs_nonneg _) hv0, ?_, ?_⟩
  · obtain ⟨p1, -⟩ := prod_exact q (by omega) (Fmt.rep_cvt (by omega) x) hvr
    obtain ⟨p3, p4⟩ := prod_exact q (by omega) (Fmt.rep_cvt (by omega) r) hvr
    unfold inverseSqrt
    rw [Fmt.cvt_rep hWc hOc hac, Fmt.cvt_rep hWc hOc hbc, es]
    simp only [Option.bind_eq_bind, Option.bind_some]
    rw [magSqr_eq hWm hOm hrep, ev]
    simp only [Option.bind_some]
    rw [if_pos hz, p1, p3]
    congr 2
    congr 1
    rcases lt_trichotomy b 0 with h | h | h
    · have h1 : r = y := by rw [hr, if_neg (by linarith)]
      rw [if_neg (fun c => absurd c.2 h.ne), if_neg (by rintro (c | c); · linarith
                                                        · exact absurd c.2 h.ne)]
      rw [abs_of_nonneg (sy1 (by rw [h1]; exact y0))]
    · have h1 : r = y := by rw [hr, if_neg (by rw [h]; simp)]
      have h2 : |w| = w := abs_of_nonneg (sy1 (by rw [h1]; exact y0))
      by_cases h3 : a < 0
      · rw [if_pos ⟨h3, h⟩, if_pos (Or.inr ⟨h3, h⟩), p4, h2]
      · rw [if_neg (fun c => h3 c.1), if_neg (by rintro (c | c); · linarith
                                                 · exact h3 c.1), h2]
    · have h1 : r = -y := by rw [hr, if_pos (by linarith)]
      rw [if_neg (fun c => absurd c.2 h.ne'), if_pos (Or.inl h)]
      rw [abs_of_nonpos (sy2 (by rw [h1]; linarith))]
      ring
  · push_cast
    exact scaled hMpos (by linarith) (by linarith) sx hvM
  · push_cast
    push_cast at sy
    exact scaled hMpos (by linarith) (by linarith) sy hvM

end Proof.ComplexIsqrt
