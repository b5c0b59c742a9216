import Verif.Props.SqrtPwl
import Verif.Props.IsqrtPwl
import Verif.Props.LogPwl
import Verif.Props.PowPwl
import Verif.Props.Sigmoid
import Verif.Props.Tanh
import Verif.Props.Cordic
import Verif.Props.Sincos
import Verif.Props.Arcsin
import Verif.Props.Arccos
import Verif.Props.Atan
import Verif.Props.Atan2
import Verif.Props.HcordicLog
import Verif.Props.HcordicExp

/-! # Identities between the functions, and ranges (C86)

`f` and `g` are types of arguments, `t` and `o` types of outputs. `o.cvt r` is the assignment of the exact number `r` to an output
of type `o`; where a theorem names `r` the identity is about the numbers before that assignment. -/

namespace Props.Identities
open Ac

theorem pyth {s c a e : ℝ} (hs : |s - Real.sin a| ≤ e) (hc : |c - Real.cos a| ≤ e) :
    |s| ≤ 1 + e ∧ |c| ≤ 1 + e ∧ |s ^ 2 + c ^ 2 - 1| ≤ 3 * e + 2 * e ^ 2 := by
  have e0 : 0 ≤ e := le_trans (abs_nonneg _) hs
  have h1 := Real.sin_sq_add_cos_sq a
  have b1 : |Real.sin a| ≤ 1 := Real.abs_sin_le_one a
  have b2 : |Real.cos a| ≤ 1 := Real.abs_cos_le_one a
  set S := Real.sin a
  set C := Real.cos a
  obtain ⟨d, rfl⟩ : ∃ d, s = S + d := ⟨s - S, by ring⟩
  obtain ⟨k, rfl⟩ : ∃ k, c = C + k := ⟨c - C, by ring⟩
  rw [add_sub_cancel_left] at hs hc
  refine ⟨(abs_add_le _ _).trans (add_le_add b1 hs), (abs_add_le _ _).trans (add_le_add b2 hc), ?_⟩
  have e1 : (S + d) ^ 2 + (C + k) ^ 2 - 1 = 2 * (S * d + C * k) + (d ^ 2 + k ^ 2) := by linear_combination h1
  have hd : d ^ 2 ≤ e ^ 2 := by rw [← sq_abs d]; exact pow_le_pow_left₀ (abs_nonneg _) hs 2
  have hk : k ^ 2 ≤ e ^ 2 := by rw [← sq_abs k]; exact pow_le_pow_left₀ (abs_nonneg _) hc 2
  -- Cauchy-Schwarz: the mixed term is at most the square root of twice the square of `e`
  have cs : |S * d + C * k| ≤ 3 / 2 * e := by
    refine abs_le_of_sq_le_sq ?_ (by linarith)
    have : (S * d + C * k) ^ 2 + (S * k - C * d) ^ 2 = d ^ 2 + k ^ 2 := by linear_combination (d ^ 2 + k ^ 2) * h1
    nlinarith [sq_nonneg (S * k - C * d), sq_nonneg e]
  rw [e1]
  refine (abs_add_le _ _).trans ?_
  rw [abs_mul, abs_of_nonneg (by positivity : 0 ≤ d ^ 2 + k ^ 2), abs_of_pos (by norm_num : (0 : ℝ) < 2)]
  linarith

/-- The largest error of the sine and cosine by CORDIC, by C38. -/
noncomputable def cordicErr (t : Fmt) : ℝ := 3 * 2 ^ (-t.F) + 1 / 2 ^ 50 + 5 / 2 ^ t.W

/-- **C86**, CORDIC: the sine and cosine of one angle exceed 1 by no more than their error, and their squares add up to 1 but
for three times the error and twice its square. Missing from the full claim: that they stay within `[-1, 1]`, which is false, see
`C86_cordic_range_wrong`. -/
theorem C86_cordic_partial {f t : Fmt} (hf : f.I ≤ f.W) (h68 : t.W ≤ 68) (hI : 2 ≤ t.I) (hF : 2 ≤ t.F) (hS : t.S = true) {a : ℚ}
    (ha : f.Rep a) :
    ∃ s c : ℚ, Model.Cordic.sin f t a = some s ∧ Model.Cordic.cos f t a = some c ∧ |(s : ℝ)| ≤ 1 + cordicErr t ∧
      |(c : ℝ)| ≤ 1 + cordicErr t ∧ |(s : ℝ) ^ 2 + c ^ 2 - 1| ≤ 3 * cordicErr t + 2 * cordicErr t ^ 2 := by
  obtain ⟨s, c, h1, h2, e1, e2⟩ := Props.Cordic.C38_sin_cos hf h68 hI hF hS ha
  exact ⟨s, c, h1, h2, pyth e1 e2⟩

example : (⟨12, 2, true, .TRN, .WRAP⟩ : Fmt).Rep (-77 / 64) ∧
    Model.Cordic.sin ⟨12, 2, true, .TRN, .WRAP⟩ ⟨16, 2, true, .TRN, .WRAP⟩ (-77 / 64) = some (9759 / 16384) ∧
    Model.Cordic.cos ⟨12, 2, true, .TRN, .WRAP⟩ ⟨16, 2, true, .TRN, .WRAP⟩ (-77 / 64) = some (-1645 / 2048) := by
  refine ⟨⟨-1232, by decide, by decide, by decide +kernel⟩, ?_, ?_⟩ <;> decide +kernel

/-- The sine of minus a quarter turn is below -1, and the cosine of half a turn too, for wide outputs as for narrow ones. -/
theorem C86_cordic_range_wrong :
    Model.Cordic.sin ⟨20, 8, true, .TRN, .WRAP⟩ ⟨40, 8, true, .TRN, .WRAP⟩ (-1 / 2) = some (-1 - 1 / 2 ^ 32) ∧
    Model.Cordic.cos ⟨20, 8, true, .TRN, .WRAP⟩ ⟨40, 8, true, .TRN, .WRAP⟩ 1 = some (-1 - 1 / 2 ^ 32) ∧
    Model.Cordic.sin ⟨10, 1, true, .TRN, .WRAP⟩ ⟨8, 2, true, .TRN, .WRAP⟩ (-259 / 512) = some (-1 - 1 / 2 ^ 6) := by
  refine ⟨?_, ?_, ?_⟩ <;> decide +kernel

/-- Conversion keeps numbers of magnitude up to 1 there, if the type can hold 1. -/
theorem cvt_le_one {t : Fmt} (hS : t.S = true) (hI : 1 ≤ t.I) (hW : t.I ≤ t.W) {v : ℚ} (hv : |v| ≤ 1) : |t.cvt v| ≤ 1 := by
  obtain ⟨v0, v1⟩ := abs_le.1 hv
  have hW1 : 1 ≤ t.W := by omega
  have hz := Fmt.z_pos t.F
  have hz' := Fmt.z_pos (-t.F)
  have hFp := Proof.Sincos.F_pow hW
  have hpw : (2 : ℚ) ^ t.F = ((2 ^ t.F.toNat : ℤ) : ℚ) := by
    have hm : (2 : ℚ) ^ t.F * 2 ^ (-t.F) = 1 := by rw [← zpow_add₀ (by norm_num)]; simp
    exact mul_right_cancel₀ hz'.ne' (hm.trans hFp.symm)
  have fin : ∀ r : ℤ, -2 ^ t.F.toNat ≤ r → r ≤ 2 ^ t.F.toNat → |t.val r| ≤ 1 := by
    intro r r0 r1
    have r0' : ((-2 ^ t.F.toNat : ℤ) : ℚ) ≤ r := by exact_mod_cast r0
    have r1' : (r : ℚ) ≤ ((2 ^ t.F.toNat : ℤ) : ℚ) := by exact_mod_cast r1
    rw [Int.cast_neg] at r0'
    have m0 := mul_le_mul_of_nonneg_right r0' hz'.le
    have m1 := mul_le_mul_of_nonneg_right r1' hz'.le
    rw [neg_mul, hFp] at m0
    rw [hFp] at m1
    exact abs_le.2 ⟨m0, m1⟩
  rcases lt_or_ge 1 t.I with h | h
  · have q0 : -2 ^ t.F.toNat ≤ quant t.Q (v * 2 ^ t.F) := by
      refine le_quant ?_
      rw [Int.cast_neg, ← hpw]
      have := mul_le_mul_of_nonneg_right v0 hz.le
      linarith
    have q1 : quant t.Q (v * 2 ^ t.F) ≤ 2 ^ t.F.toNat := by
      refine quant_le ?_
      rw [← hpw]
      have := mul_le_mul_of_nonneg_right v1 hz.le
      linarith
    obtain ⟨a, b⟩ := Proof.Sincos.fits2 ⟨hS, hW, Or.inl (by omega)⟩ (by omega) q0 q1
    have e : t.cvt v = t.val (quant t.Q (v * 2 ^ t.F)) := by
      unfold Fmt.cvt Fmt.cvtRaw
      rw [ovf_of_range hW1 a b]
    rw [e]
    exact fin _ q0 q1
  · obtain ⟨r, r0, r1, hr⟩ := Fmt.rep_cvt (f := t) hW1 v
    have hWF : t.W - 1 = t.F.toNat := by have := Proof.Sincos.range_W (by omega) hW; omega
    rw [hS] at r0 r1
    simp only [minRaw, maxRaw, if_true, hWF] at r0 r1
    rw [hr]
    exact fin r r0 (by omega)

theorem kv_le_one {t : Fmt} (hI : 1 ≤ t.I) (hW : t.I ≤ t.W) (a : ℕ) :
    |Proof.Sincos.kv t (Proof.Sincos.keyC (a / 512) (a % 512))| ≤ 1 ∧ |Proof.Sincos.kv t (Proof.Sincos.keyS (a / 512) (a % 512))| ≤ 1 := by
  have hl : a % 512 ≤ 511 := by omega
  have hh : |Model.Sincos.half| ≤ 1 := by decide +kernel
  have grid : ∀ k : Proof.Sincos.Key, (k.2.1 = 0 ∨ k.2.1 = 1) → k.2.2 < 512 → |Proof.Sincos.kv t k| ≤ 1 := by
    intro k k1 k2
    obtain ⟨r, r0, r1, re⟩ := Proof.Sincos.kv_grid hI hW k1 k2
    have hz' := Fmt.z_pos (-t.F)
    have hFp := Proof.Sincos.F_pow hW
    have r0' : ((-2 ^ t.F.toNat : ℤ) : ℚ) ≤ r := by exact_mod_cast r0
    have r1' : (r : ℚ) ≤ ((2 ^ t.F.toNat : ℤ) : ℚ) := by exact_mod_cast r1
    rw [Int.cast_neg] at r0'
    have m0 := mul_le_mul_of_nonneg_right r0' hz'.le
    have m1 := mul_le_mul_of_nonneg_right r1' hz'.le
    rw [neg_mul, hFp] at m0
    rw [hFp] at m1
    rw [re]
    exact abs_le.2 ⟨m0, m1⟩
  rcases Proof.Sincos.key_kind hl (o := a / 512) with ⟨h1, h2⟩ | ⟨-, c1, c2, s1, s2⟩
  · have hv : ∀ k : Proof.Sincos.Key, k.2 = (2, 0) → |Proof.Sincos.kv t k| ≤ 1 := by
      rintro ⟨b, k2⟩ h; simp only at h; subst h
      cases b <;> simpa [Proof.Sincos.kv, Proof.Sincos.kb] using hh
    exact ⟨hv _ h1, hv _ h2⟩
  · exact ⟨grid _ c1 c2, grid _ s1 s2⟩

/-- **C86**, table lookup: the sine and cosine never leave `[-1, 1]`, whatever the rounding and overflow modes of the output. -/
theorem C86_lut_range {f t : Fmt} (hf : f.I < f.W) (hS : t.S = true) (hI : 1 ≤ t.I) (hW : t.I ≤ t.W) {x : ℚ} (hx : f.Rep x) :
    ∃ c s : ℚ, Model.Sincos.sincos f t x = some (c, s) ∧ |c| ≤ 1 ∧ |s| ≤ 1 := by
  obtain ⟨r, -, -, rfl⟩ := hx
  have hr : f.raw (f.val r) = r := Fmt.raw_val f r
  obtain ⟨k1, k2⟩ := kv_le_one hI hW (Proof.Sincos.ang (f.W - f.I).toNat (r % 2 ^ (f.W - f.I).toNat))
  exact ⟨_, _, Proof.Sincos.sincos_eq hf hI hW _ (by rw [hr]), cvt_le_one hS hI hW k1, cvt_le_one hS hI hW k2⟩

example : Model.Sincos.sincos ⟨12, 2, true, .TRN, .WRAP⟩ ⟨16, 1, true, .RND, .WRAP⟩ 1 = some (-1, 0) := by decide +kernel

/-- The largest error of the sine and cosine by table lookup, by C37, for angles of type `f`. -/
noncomputable def lutErr (f t : Fmt) : ℝ := 2 ^ (-t.F) + 1 / 2 ^ 47 + (if f.W - f.I ≤ 12 then 0 else 1 / 650)

/-- **C86**, table lookup: the squares of the sine and cosine of one angle add up to 1 but for three times their error and twice
its square. -/
theorem C86_lut_squares {f t : Fmt} (hf : f.I < f.W) (hS : t.S = true) (hW : t.I ≤ t.W)
    (hI : 2 ≤ t.I ∨ (t.I = 1 ∧ 3 ≤ t.W ∧ (t.O = .SAT ∨ t.O = .SAT_SYM))) {x : ℚ} (hx : f.Rep x) :
    ∃ c s : ℚ, Model.Sincos.sincos f t x = some (c, s) ∧ |(s : ℝ) ^ 2 + c ^ 2 - 1| ≤ 3 * lutErr f t + 2 * lutErr f t ^ 2 := by
  obtain ⟨c, s, h, e1, e2⟩ := Props.Sincos.C37_error hf hS hW hI hx
  exact ⟨c, s, h, (pyth e2 e1).2.2⟩

/-- **C86**, the two methods agree: the sine and cosine of one angle by table lookup and by CORDIC (which counts the angle in
half turns, not in turns) differ by at most the sum of their errors. -/
theorem C86_cordic_lut {f g t : Fmt} (hf : f.I < f.W) (hg : g.I ≤ g.W) (h68 : t.W ≤ 68) (hI : 2 ≤ t.I) (hF : 2 ≤ t.F)
    (hS : t.S = true) {x : ℚ} (hx : f.Rep x) (hx2 : g.Rep (2 * x)) :
    ∃ c s c' s' : ℚ, Model.Sincos.sincos f t x = some (c, s) ∧ Model.Cordic.sin g t (2 * x) = some s' ∧
      Model.Cordic.cos g t (2 * x) = some c' ∧ |(s' : ℝ) - s| ≤ cordicErr t + lutErr f t ∧ |(c' : ℝ) - c| ≤ cordicErr t + lutErr f t := by
  obtain ⟨c, s, h, e1, e2⟩ := Props.Sincos.C37_error hf hS (by have : t.F = t.W - t.I := rfl; omega) (Or.inl hI) hx
  obtain ⟨s', c', h1, h2, e3, e4⟩ := Props.Cordic.C38_sin_cos hg h68 hI hF hS hx2
  have ea : Real.pi * ((2 * x : ℚ) : ℝ) = 2 * Real.pi * x := by push_cast; ring
  rw [ea] at e3 e4
  refine ⟨c, s, c', s', h, h1, h2, ?_, ?_⟩
  · rw [abs_sub_comm] at e2; exact (abs_sub_le _ _ _).trans (add_le_add e3 e2)
  · rw [abs_sub_comm] at e1; exact (abs_sub_le _ _ _).trans (add_le_add e4 e1)

example : (⟨12, 2, true, .TRN, .WRAP⟩ : Fmt).Rep (-77 / 64) ∧ (⟨12, 3, true, .TRN, .WRAP⟩ : Fmt).Rep (2 * (-77 / 64)) :=
  ⟨⟨-1232, by decide, by decide, by decide +kernel⟩, ⟨-1232, by decide, by decide, by decide +kernel⟩⟩

/-- **C86**, arcsine and arccosine of one argument add up to a quarter turn (they are counted in half turns), but for the sum of
their errors. -/
theorem C86_arc {o p : Fmt} {h : ℕ} (ho : o.F = h) (hp : p.F = h) (h1 : 1 ≤ h) (h2 : h ≤ 64) (hS : o.S = true) (hI : 1 ≤ o.I)
    (hW : 3 ≤ o.W) (hSp : p.S = false) (hIp : 1 ≤ p.I) {t : ℚ} (ht : |t| ≤ 1) :
    ∃ s c : ℚ, Model.Arcsin.arcsin o t = some s ∧ Model.Arcsin.arccos p t = some c ∧
      |(s : ℝ) + c - 1 / 2| ≤ (2 * √(2 * h + 1) + 3) / 2 ^ h + 16 / 5 * (h + 1) ^ 2 / 4 ^ h + 1 / 2 ^ 116 := by
  obtain ⟨s, h3, e1⟩ := Props.Arcsin.C50_error_partial ho h1 h2 hS hI hW ht
  obtain ⟨c, h4, e2⟩ := Props.Arccos.C51_error hp h1 h2 hSp hIp ht
  refine ⟨s, c, h3, h4, ?_⟩
  have hpi := Real.pi_pos
  have e3 : Real.arcsin (t : ℝ) / Real.pi + Real.arccos t / Real.pi = 1 / 2 := by
    rw [Real.arccos]; field_simp; ring
  have e4 : (s : ℝ) + c - 1 / 2 = (s - Real.arcsin t / Real.pi) + (c - Real.arccos t / Real.pi) := by linear_combination e3
  rw [e4]
  refine (abs_add_le _ _).trans ((add_le_add e1 e2).trans (le_of_eq ?_))
  ring

example : ∃ s c : ℚ, Model.Arcsin.arcsin ⟨16, 2, true, .TRN, .WRAP⟩ (-1 / 3) = some s ∧
    Model.Arcsin.arccos ⟨15, 1, false, .TRN, .WRAP⟩ (-1 / 3) = some c ∧ |(s : ℝ) + c - 1 / 2| ≤
      (2 * √(2 * ((14 : ℕ) : ℝ) + 1) + 3) / 2 ^ 14 + 16 / 5 * (((14 : ℕ) : ℝ) + 1) ^ 2 / 4 ^ 14 + 1 / 2 ^ 116 :=
  C86_arc (by norm_num [Fmt.F]) (by norm_num [Fmt.F]) (by norm_num) (by norm_num) rfl (by norm_num) (by norm_num) rfl (by norm_num)
    (by norm_num [abs_le])

/-- Relative errors of a product. -/
theorem rel_mul {r s a b d e : ℝ} (ha : 0 < a) (hb : 0 < b) (hr : |r - a| ≤ a * d) (hs : |s - b| ≤ b * e) :
    |r * s - a * b| ≤ a * b * (d + e + d * e) := by
  have hd : 0 ≤ a * d := (abs_nonneg _).trans hr
  have he : 0 ≤ b * e := (abs_nonneg _).trans hs
  have e1 : r * s - a * b = (r - a) * (s - b) + a * (s - b) + b * (r - a) := by ring
  rw [e1]
  refine (abs_add_three _ _ _).trans ?_
  rw [abs_mul, abs_mul, abs_mul, abs_of_pos ha, abs_of_pos hb]
  have := mul_le_mul hr hs (abs_nonneg _) hd
  have := mul_le_mul_of_nonneg_left hs ha.le
  have := mul_le_mul_of_nonneg_left hr hb.le
  nlinarith

/-- **C86**, square root times inverse square root is 1 within 1/490. -/
theorem C86_sqrt_inverse (q q' : QMode) {f o o' : Fmt} (hW : 1 ≤ f.W) (hS : f.S = false) (ho : 1 ≤ o.W) (hSo : o.S = false)
    (ho' : 1 ≤ o'.W) (hSo' : o'.S = false) {x : ℚ} (hx : f.Rep x) (h : 0 < x) :
    ∃ r s : ℚ, Model.PwlFixed.sqrt q true f o x = some (o.cvt r) ∧ Model.PwlFixed.inverseSqrt q' true f o' x = some (o'.cvt s) ∧
      |r * s - 1| ≤ 1 / 490 := by
  obtain ⟨r, h1, e1⟩ := Props.SqrtPwl.C30_error q true hW hS ho hSo hx h (Or.inl rfl)
  obtain ⟨s, h2, e2⟩ := Props.IsqrtPwl.C31_error q' true hW hS ho' hSo' hx h (Or.inl rfl)
  refine ⟨r, s, h1, h2, ?_⟩
  have hp : 0 < √(x : ℝ) := Real.sqrt_pos.2 (by exact_mod_cast h)
  rw [div_eq_mul_inv (√(x : ℝ))] at e1
  rw [div_eq_mul_inv (1 / √(x : ℝ))] at e2
  have := rel_mul hp (one_div_pos.2 hp) e1 e2
  rw [mul_one_div_cancel hp.ne'] at this
  rw [← Rat.cast_le (K := ℝ)]
  push_cast
  refine this.trans (by norm_num)

example : (⟨8, 4, false, .TRN, .WRAP⟩ : Fmt).Rep (5 / 16) ∧ (0 : ℚ) < 5 / 16 := ⟨⟨5, by decide, by decide, by decide +kernel⟩, by norm_num⟩

/-- **C86**, the power of a sum is the product of the powers, within 1/133. The three arguments may have different types. -/
theorem C86_pow2_sum (q : QMode) {f g k o : Fmt} (ho : 1 ≤ o.W) (hSo : o.S = false) {x y : ℚ} (hx : f.Rep x) (hy : g.Rep y)
    (hxy : k.Rep (x + y)) :
    ∃ r s p : ℚ, Model.PwlFixed.pow2 q f o x = some (o.cvt r) ∧ Model.PwlFixed.pow2 q g o y = some (o.cvt s) ∧
      Model.PwlFixed.pow2 q k o (x + y) = some (o.cvt p) ∧ |(p : ℝ) - r * s| ≤ 2 ^ ((x + y : ℚ) : ℝ) / 133 := by
  obtain ⟨r, -, h1, -, -, e1, -, -⟩ := Props.PowPwl.C35_pow2 q (out := o) ho hSo hx hx le_rfl
  obtain ⟨s, -, h2, -, -, e2, -, -⟩ := Props.PowPwl.C35_pow2 q (out := o) ho hSo hy hy le_rfl
  obtain ⟨p, -, h3, -, -, e3, -, -⟩ := Props.PowPwl.C35_pow2 q (out := o) ho hSo hxy hxy le_rfl
  refine ⟨r, s, p, h1, h2, h3, ?_⟩
  rw [div_eq_mul_inv] at e1 e2 e3
  have hz : (0 : ℝ) < 2 ^ (x : ℝ) := Real.rpow_pos_of_pos (by norm_num) _
  have hw : (0 : ℝ) < 2 ^ (y : ℝ) := Real.rpow_pos_of_pos (by norm_num) _
  have em := rel_mul hz hw e1 e2
  have ez : (2 : ℝ) ^ ((x + y : ℚ) : ℝ) = 2 ^ (x : ℝ) * 2 ^ (y : ℝ) := by
    push_cast; exact Real.rpow_add (by norm_num) _ _
  rw [ez] at e3 ⊢
  have hm := mul_pos hz hw
  rw [abs_sub_comm] at em
  refine (abs_sub_le _ _ _).trans ((add_le_add e3 em).trans ?_)
  rw [← mul_add, div_eq_mul_inv]
  exact mul_le_mul_of_nonneg_left (by norm_num) hm.le

/-- **C86**, opposite powers multiply to 1 within 1/199. -/
theorem C86_pow2_neg (q : QMode) {f g o : Fmt} (ho : 1 ≤ o.W) (hSo : o.S = false) {x : ℚ} (hx : f.Rep x) (hn : g.Rep (-x)) :
    ∃ r s : ℚ, Model.PwlFixed.pow2 q f o x = some (o.cvt r) ∧ Model.PwlFixed.pow2 q g o (-x) = some (o.cvt s) ∧
      |r * s - 1| ≤ 1 / 199 := by
  obtain ⟨r, -, h1, -, -, e1, -, -⟩ := Props.PowPwl.C35_pow2 q (out := o) ho hSo hx hx le_rfl
  obtain ⟨s, -, h2, -, -, e2, -, -⟩ := Props.PowPwl.C35_pow2 q (out := o) ho hSo hn hn le_rfl
  refine ⟨r, s, h1, h2, ?_⟩
  rw [div_eq_mul_inv] at e1 e2
  have hz : (0 : ℝ) < 2 ^ (x : ℝ) := Real.rpow_pos_of_pos (by norm_num) _
  have hw : (0 : ℝ) < 2 ^ (((-x : ℚ)) : ℝ) := Real.rpow_pos_of_pos (by norm_num) _
  have em := rel_mul hz hw e1 e2
  have ez : (2 : ℝ) ^ (x : ℝ) * 2 ^ (((-x : ℚ)) : ℝ) = 1 := by
    rw [← Real.rpow_add (by norm_num)]; push_cast; simp
  rw [ez] at em
  rw [← Rat.cast_le (K := ℝ)]
  push_cast
  refine em.trans (by norm_num)

example : (⟨8, 4, true, .TRN, .WRAP⟩ : Fmt).Rep (-3 / 2) ∧ (⟨8, 4, true, .TRN, .WRAP⟩ : Fmt).Rep (5 / 2) ∧
    (⟨8, 4, true, .TRN, .WRAP⟩ : Fmt).Rep (-3 / 2 + 5 / 2) ∧ (⟨8, 4, true, .TRN, .WRAP⟩ : Fmt).Rep (-(5 / 2)) :=
  ⟨⟨-24, by decide, by decide, by decide +kernel⟩, ⟨40, by decide, by decide, by decide +kernel⟩,
    ⟨16, by decide, by decide, by decide +kernel⟩, ⟨-40, by decide, by decide, by decide +kernel⟩⟩

/-- **C86**, the logarithm of a product is the sum of the logarithms, within 1/200. -/
theorem C86_log2_mul (q : QMode) {f g k o : Fmt} (hf : 1 ≤ f.W) (hg : 1 ≤ g.W) (hk : 1 ≤ k.W) (hSf : f.S = false)
    (hSg : g.S = false) (hSk : k.S = false) {x y : ℚ} (hx : f.Rep x) (hy : g.Rep y) (hxy : k.Rep (x * y)) (hx0 : 0 < x) (hy0 : 0 < y) :
    ∃ r s p : ℚ, Model.PwlFixed.log2 q true f o x = some (o.cvt r) ∧ Model.PwlFixed.log2 q true g o y = some (o.cvt s) ∧
      Model.PwlFixed.log2 q true k o (x * y) = some (o.cvt p) ∧ |p - (r + s)| ≤ 1 / 200 := by
  obtain ⟨r, -, h1, -, e1, -, -⟩ := Props.LogPwl.C34_log2 q true (out := o) hf hSf hx hx hx0 le_rfl (Or.inl rfl)
  obtain ⟨s, -, h2, -, e2, -, -⟩ := Props.LogPwl.C34_log2 q true (out := o) hg hSg hy hy hy0 le_rfl (Or.inl rfl)
  obtain ⟨p, -, h3, -, e3, -, -⟩ := Props.LogPwl.C34_log2 q true (out := o) hk hSk hxy hxy (mul_pos hx0 hy0) le_rfl (Or.inl rfl)
  refine ⟨r, s, p, h1, h2, h3, ?_⟩
  have hx' : (x : ℝ) ≠ 0 := by exact_mod_cast hx0.ne'
  have hy' : (y : ℝ) ≠ 0 := by exact_mod_cast hy0.ne'
  rw [Rat.cast_mul, Real.logb_mul hx' hy'] at e3
  rw [← Rat.cast_le (K := ℝ)]
  push_cast
  rw [abs_le] at *
  constructor <;> linarith [e1.1, e1.2, e2.1, e2.2, e3.1, e3.2]

example : (⟨8, 4, false, .TRN, .WRAP⟩ : Fmt).Rep (5 / 16) ∧ (⟨16, 8, false, .TRN, .WRAP⟩ : Fmt).Rep (5 / 16 * (5 / 16)) :=
  ⟨⟨5, by decide, by decide, by decide +kernel⟩, ⟨25, by decide, by decide, by decide +kernel⟩⟩

/-- **C86**, the hyperbolic tangent is twice the sigmoid of twice the argument, less 1, within 19/1000. `b` is what the function
reads outside its tables, as in C33. -/
theorem C86_tanh_sigmoid (b : ℕ → ℤ × ℤ) (q : QMode) {f g : Fmt} (hf : 1 ≤ f.W) (hg : 1 ≤ g.W) {x : ℚ} (hx : f.Rep x)
    (hx2 : g.Rep (2 * x)) :
    ∃ y z : ℚ, Model.Pwl.tanhPwl (fun i => some (b i)) q f x = some y ∧ Model.Pwl.sigmoidPwl q g (2 * x) = some z ∧
      |y - (2 * z - 1)| ≤ 19 / 1000 := by
  obtain ⟨y, h1, e1⟩ := Props.Tanh.C33_error b q hf hx
  obtain ⟨z, h2, e2, -⟩ := Props.Sigmoid.C32_error q hg hx2
  refine ⟨y, z, h1, h2, ?_⟩
  have key : Real.tanh (x : ℝ) = 2 * Spec.logistic ((2 * x : ℚ) : ℝ) - 1 := by
    rw [Real.tanh_eq_sinh_div_cosh, Real.sinh_eq, Real.cosh_eq, Spec.logistic]
    push_cast
    have p := Real.exp_pos (x : ℝ)
    have hm : Real.exp (-(2 * (x : ℝ))) = Real.exp (-(x : ℝ)) * Real.exp (-(x : ℝ)) := by rw [← Real.exp_add]; ring_nf
    rw [hm, Real.exp_neg]
    field_simp
    ring
  rw [key] at e1
  rw [← Rat.cast_le (K := ℝ)]
  push_cast
  rw [abs_le] at *
  constructor <;> linarith [e1.1, e1.2, e2.1, e2.2]

example : (⟨8, 4, true, .TRN, .WRAP⟩ : Fmt).Rep (-3 / 2) ∧ (⟨8, 4, true, .TRN, .WRAP⟩ : Fmt).Rep (2 * (-3 / 2)) :=
  ⟨⟨-24, by decide, by decide, by decide +kernel⟩, ⟨-48, by decide, by decide, by decide +kernel⟩⟩

/-- **C86**, in the first quadrant `ac_atan2_cordic` of `(y, x)` and `ac_atan_pwl` of the quotient `y / x`, if a type holds it,
differ by at most 1/177 plus the error of the former (C49). Missing: short vectors, as in C49. -/
theorem C86_atan2_partial (q : QMode) {fy fx f t o : Fmt} (hfy : 1 ≤ fy.W) (hfx : 1 ≤ fx.W) (hSy : fy.S = true) (hSx : fx.S = true)
    (hW : 1 ≤ t.W) (hI : t.I ≤ t.W) (hN : t.W - t.I ≤ 124) (hf : 1 ≤ f.W) (hS : f.S = false) {y x : ℚ} (hy : fy.Rep y)
    (hx : fx.Rep x) (hyx : f.Rep (y / x)) (hx0 : 0 < x)
    (hz : (2 : ℝ) ^ (-t.F) ≤ 4 * ‖((x : ℝ) + (y : ℝ) * Complex.I : ℂ)‖) :
    ∃ r s : ℚ, Model.Atan2.atan2 fy fx t y x = some (t.cvt r) ∧ Model.Atan.atanPwl q f o (y / x) = some (o.cvt s) ∧
      |(r : ℝ) - s| ≤ 1 / 177 + (2 ^ (-t.F) * (2 / 5 + 1 / (40 * ‖((x : ℝ) + (y : ℝ) * Complex.I : ℂ)‖)) + 1 / 2 ^ 51) := by
  obtain ⟨r, h1, e1⟩ := Props.Atan2.C49_angle_partial hfy hfx hSy hSx hW hI hN hy hx hz
  obtain ⟨s, -, h2, -, e2, e3, -, -⟩ := Props.Atan.C43_pwl q o hf hS hyx hyx
  refine ⟨r, s, h1, h2, ?_⟩
  have e4 : |(s : ℝ) - Real.arctan ((y / x : ℚ) : ℝ)| ≤ 1 / 177 := by
    rcases le_or_gt (y / x) 1 with c | c
    · exact (e2 c).trans (by norm_num)
    · exact e3 c
  have ha : Complex.arg ((x : ℝ) + (y : ℝ) * Complex.I) = Real.arctan ((y / x : ℚ) : ℝ) := by
    have hre : ((x : ℝ) + (y : ℝ) * Complex.I : ℂ).re = x := by simp
    have him : ((x : ℝ) + (y : ℝ) * Complex.I : ℂ).im = y := by simp
    have ht := Complex.tan_arg ((x : ℝ) + (y : ℝ) * Complex.I : ℂ)
    rw [hre, him] at ht
    have hb := Complex.abs_arg_lt_pi_div_two_iff.2 (Or.inl (show 0 < ((x : ℝ) + (y : ℝ) * Complex.I : ℂ).re by
      rw [hre]; exact_mod_cast hx0))
    rw [Rat.cast_div, ← ht, Real.arctan_tan (abs_lt.1 hb).1 (abs_lt.1 hb).2]
  rw [ha] at e1
  rw [abs_sub_comm] at e4
  have := (abs_sub_le _ _ _).trans (add_le_add e1 e4)
  linarith

example : (⟨16, 2, true, .TRN, .WRAP⟩ : Fmt).Rep (3 / 2) ∧ (⟨12, 4, true, .TRN, .WRAP⟩ : Fmt).Rep 4 ∧
    (⟨8, 4, false, .TRN, .WRAP⟩ : Fmt).Rep (3 / 2 / 4) :=
  ⟨⟨24576, by decide, by decide, by decide +kernel⟩, ⟨1024, by decide, by decide, by decide +kernel⟩,
    ⟨6, by decide, by decide, by decide +kernel⟩⟩

/-- **C86**, the two base 2 logarithms agree: `ac_log2_cordic` with temporaries of the default widths, for an output type that holds
the logarithm, differs from the number that `ac_log2_pwl` converts by at most the sum of their errors. -/
theorem C86_log2_methods (q tq : QMode) {f o p : Fmt} (hW : 1 ≤ f.W) (hS : f.S = false) (ho : 1 ≤ o.W) (hSo : o.S = true)
    (h44 : max f.W o.F.toNat ≤ 44) {x : ℚ} (hx : f.Rep x) (hx0 : 0 < x)
    (hr : |Real.logb 2 x| + 5 / 2 ^ o.F.toNat ≤ o.maxVal) :
    ∃ z r : ℚ, Model.Hcordic.log2 none tq f o x = some z ∧ Model.PwlFixed.log2 q true f p x = some (p.cvt r) ∧
      |(z : ℝ) - r| ≤ 5 / 2 ^ o.F.toNat + 2 ^ (-o.F) + 1 / 600 := by
  obtain ⟨z, h1, e1⟩ := Props.HcordicLog.C52_log2_partial (tf := none) (tq := tq) hW hS ho hSo h44 hW (Or.inr (Or.inr rfl)) hx hx0 hr
  obtain ⟨r, -, h2, -, e2, -, -⟩ := Props.LogPwl.C34_log2 q true (out := p) hW hS hx hx hx0 le_rfl (Or.inl rfl)
  refine ⟨z, r, h1, h2, ?_⟩
  rw [abs_sub_comm] at e2
  exact (abs_sub_le _ _ _).trans (add_le_add e1 e2)

example : (⟨16, 8, false, .TRN, .WRAP⟩ : Fmt).Rep 4 ∧ |Real.logb 2 ((4 : ℚ) : ℝ)| + 5 / 2 ^ 16 ≤ ((⟨24, 8, true, .TRN, .WRAP⟩ : Fmt).maxVal : ℝ) := by
  refine ⟨⟨1024, by decide, by decide, by decide +kernel⟩, ?_⟩
  rw [show (((4 : ℚ)) : ℝ) = 2 ^ (2 : ℝ) by norm_num, Real.logb_rpow (by norm_num) (by norm_num),
    show (⟨24, 8, true, .TRN, .WRAP⟩ : Fmt).maxVal = 128 - 1 / 2 ^ 16 by decide +kernel]
  norm_num

/-- **C86**, the two powers of two agree: `ac_exp2_cordic` with truncated temporaries, for an output type that holds the power,
differs from the number that `ac_pow2_pwl` converts by at most the sum of their errors. -/
theorem C86_pow2_methods (q : QMode) {f o p : Fmt} (ho : 1 ≤ o.W) (hSo : o.S = false) (hp : 1 ≤ p.W) (hSp : p.S = false)
    (hf : (f.W : ℤ) - f.I ≤ 45) (h44 : o.F.toNat ≤ 44) {x : ℚ} (hx : f.Rep x)
    (hr : (2 : ℝ) ^ (x : ℝ) * (1 + 13 / 2 / 2 ^ o.F.toNat) ≤ o.maxVal) :
    ∃ z r : ℚ, Model.Hcordic.exp2 none .TRN f o x = some z ∧ Model.PwlFixed.pow2 q f p x = some (p.cvt r) ∧
      |(z : ℝ) - r| ≤ (13 / 2 / 2 ^ o.F.toNat + 1 / 400) * 2 ^ (x : ℝ) + 2 ^ (-o.F) := by
  obtain ⟨z, h1, e1⟩ := Props.HcordicExp.C53_exp2_partial (tf := none) (tq := .TRN) ho hSo hf h44 hx (Or.inl rfl) (Or.inr (Or.inr hr))
  obtain ⟨r, -, h2, -, -, e2, -, -⟩ := Props.PowPwl.C35_pow2 q (out := p) hp hSp hx hx le_rfl
  refine ⟨z, r, h1, h2, ?_⟩
  have hz : (0 : ℝ) < 2 ^ (x : ℝ) := Real.rpow_pos_of_pos (by norm_num) _
  have hm : (2 : ℝ) ^ (x : ℝ) ≤ o.maxVal := by
    refine le_trans ?_ hr
    have : (0 : ℝ) ≤ 2 ^ (x : ℝ) * (13 / 2 / 2 ^ o.F.toNat) := by positivity
    linarith
  rw [min_eq_left hm] at e1
  rw [abs_sub_comm] at e2
  refine (abs_sub_le _ _ _).trans ((add_le_add e1 e2).trans (le_of_eq ?_))
  simp only [Props.HcordicExp.bits, Option.getD_none]
  ring

example : (⟨16, 8, true, .TRN, .WRAP⟩ : Fmt).Rep 3 ∧
    (2 : ℝ) ^ ((3 : ℚ) : ℝ) * (1 + 13 / 2 / 2 ^ 16) ≤ ((⟨24, 8, false, .TRN, .WRAP⟩ : Fmt).maxVal : ℝ) := by
  refine ⟨⟨768, by decide, by decide, by decide +kernel⟩, ?_⟩
  rw [show (((3 : ℚ)) : ℝ) = ((3 : ℕ) : ℝ) by norm_num, Real.rpow_natCast,
    show (⟨24, 8, false, .TRN, .WRAP⟩ : Fmt).maxVal = 256 - 1 / 2 ^ 16 by decide +kernel]
  norm_num

end Props.Identities
