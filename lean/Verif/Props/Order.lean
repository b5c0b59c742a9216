import Verif.Proof.SincosOrder
import Verif.Proof.HcordicOrder2
import Verif.Props.Cordic
import Verif.Props.Arcsin
import Verif.Props.Arccos
import Verif.Props.HcordicLog
import Verif.Props.HcordicExp
import Verif.Props.Identities

/-! # Order of the results of the trigonometric functions, logarithms and powers (C88)

A function that rises or falls should keep or reverse the order of its arguments: `x ≤ y` must not give outputs in the wrong
order. The table lookup does, except that some truncating output types put the constant of the odd eighths of a turn on the
wrong side of its neighbours. The logarithm to base 2 keeps the order if its output type holds the result. The other iterative
functions do so only up to their error. -/

namespace Props.Order
open Ac Model.Sincos

/-- The output types for which the table lookup keeps the order: rounding to nearest, truncation toward zero except with 0, 2, 3
or 5 fraction bits, and any mode with 7 or at least 9 fraction bits. -/
def Orderly (t : Fmt) : Prop :=
  t.Q ∈ [QMode.RND, .RND_ZERO, .RND_INF, .RND_MIN_INF, .RND_CONV, .RND_CONV_ODD] ∨
    (t.Q = .TRN_ZERO ∧ t.F ∉ [(0 : ℤ), 2, 3, 5]) ∨ t.F = 7 ∨ 9 ≤ t.F

/-- Cosine by table lookup, of angles in turns: it falls over the first half of every turn and rises over the second. -/
theorem C88_lut_cos {f t : Fmt} (hf : f.I < f.W) (hS : t.S = true) (hW : t.I ≤ t.W)
    (hI : 2 ≤ t.I ∨ (t.I = 1 ∧ 3 ≤ t.W ∧ (t.O = .SAT ∨ t.O = .SAT_SYM))) (hk : Orderly t) {x y : ℚ} (hx : f.Rep x) (hy : f.Rep y)
    (h : x ≤ y) (k : ℤ) :
    ∃ c s c' s' : ℚ, sincos f t x = some (c, s) ∧ sincos f t y = some (c', s') ∧
      (k ≤ x → y ≤ k + 1 / 2 → c' ≤ c) ∧ (k + 1 / 2 ≤ x → y ≤ k + 1 → c ≤ c') := by
  have h1 : 1 ≤ t.I := by omega
  have ht : Proof.Sincos.Out t := ⟨hS, hW, hI⟩
  refine ⟨_, _, _, _, Proof.SincosOrder.sincos_idx hf h1 hW x, Proof.SincosOrder.sincos_idx hf h1 hW y, fun a b => ?_, fun a b => ?_⟩
  · obtain ⟨p0, p1, p2⟩ := Proof.SincosOrder.place hf hx hy (j := 4 * k) (l := 4 * k + 2) (by push_cast; linarith) h
      (by push_cast; linarith)
    exact Proof.SincosOrder.down (fun e e0 e1 => (Proof.SincosOrder.step ht hk e).1 (by omega)) p0 p1 p2
  · obtain ⟨p0, p1, p2⟩ := Proof.SincosOrder.place hf hx hy (j := 4 * k + 2) (l := 4 * k + 4) (by push_cast; linarith) h
      (by push_cast; linarith)
    exact Proof.SincosOrder.up (fun e e0 e1 => (Proof.SincosOrder.step ht hk e).2.1 (by omega)) p0 p1 p2

example : Orderly ⟨16, 2, true, .TRN, .WRAP⟩ ∧ Orderly ⟨5, 2, true, .RND, .WRAP⟩ ∧
    sincos ⟨14, 2, true, .TRN, .WRAP⟩ ⟨16, 2, true, .TRN, .WRAP⟩ (-511 / 4096) = some (11603 / 16384, -11567 / 16384) ∧
    sincos ⟨14, 2, true, .TRN, .WRAP⟩ ⟨16, 2, true, .TRN, .WRAP⟩ (-512 / 4096) = some (11585 / 16384, -11586 / 16384) := by
  refine ⟨by unfold Orderly; decide, by unfold Orderly; decide, ?_, ?_⟩ <;> decide +kernel

/-- Sine by table lookup: it rises from a quarter of a turn before each whole turn to a quarter after it and falls from there to
three quarters. -/
theorem C88_lut_sin {f t : Fmt} (hf : f.I < f.W) (hS : t.S = true) (hW : t.I ≤ t.W)
    (hI : 2 ≤ t.I ∨ (t.I = 1 ∧ 3 ≤ t.W ∧ (t.O = .SAT ∨ t.O = .SAT_SYM))) (hk : Orderly t) {x y : ℚ} (hx : f.Rep x) (hy : f.Rep y)
    (h : x ≤ y) (k : ℤ) :
    ∃ c s c' s' : ℚ, sincos f t x = some (c, s) ∧ sincos f t y = some (c', s') ∧
      (k - 1 / 4 ≤ x → y ≤ k + 1 / 4 → s ≤ s') ∧ (k + 1 / 4 ≤ x → y ≤ k + 3 / 4 → s' ≤ s) := by
  have h1 : 1 ≤ t.I := by omega
  have ht : Proof.Sincos.Out t := ⟨hS, hW, hI⟩
  refine ⟨_, _, _, _, Proof.SincosOrder.sincos_idx hf h1 hW x, Proof.SincosOrder.sincos_idx hf h1 hW y, fun a b => ?_, fun a b => ?_⟩
  · obtain ⟨p0, p1, p2⟩ := Proof.SincosOrder.place hf hx hy (j := 4 * k - 1) (l := 4 * k + 1) (by push_cast; linarith) h
      (by push_cast; linarith)
    exact Proof.SincosOrder.up (fun e e0 e1 => (Proof.SincosOrder.step ht hk e).2.2.1 (by omega)) p0 p1 p2
  · obtain ⟨p0, p1, p2⟩ := Proof.SincosOrder.place hf hx hy (j := 4 * k + 1) (l := 4 * k + 3) (by push_cast; linarith) h
      (by push_cast; linarith)
    exact Proof.SincosOrder.down (fun e e0 e1 => (Proof.SincosOrder.step ht hk e).2.2.2 (by omega)) p0 p1 p2

example : (⟨14, 2, true, .TRN, .WRAP⟩ : Fmt).Rep (-511 / 4096) ∧ (⟨14, 2, true, .TRN, .WRAP⟩ : Fmt).Rep (1 / 4) ∧
    sincos ⟨14, 2, true, .TRN, .WRAP⟩ ⟨6, 1, true, .TRN_ZERO, .SAT⟩ (1 / 4) = some (0, 31 / 32) := by
  refine ⟨⟨-511, by decide, by decide, by decide +kernel⟩, ⟨1024, by decide, by decide, by decide +kernel⟩, ?_⟩
  decide +kernel

/-- The step over an odd eighth of a turn, the cosine before, at and after it: some two of the three are in the wrong order. -/
def outOfOrder (t : Fmt) (a : ℕ) : Bool :=
  let c := fun n : ℕ => (sincos ⟨14, 2, true, .TRN, .WRAP⟩ t ((n : ℚ) / 4096)).map Prod.fst
  match c (a - 1), c a, c (a + 1) with
  | some u, some v, some w => decide (u < v) || decide (v < w)
  | _, _, _ => false

/-- The condition on the output type is needed: with truncation and any other number of fraction bits the cosine rises somewhere
between 511 and 513 or between 1535 and 1537 steps of the table, within the first half turn. -/
theorem C88_lut_wrong : ∀ t ∈ [0, 1, 2, 3, 4, 5, 6, 8].map (fun F => (⟨F + 2, 2, true, .TRN, .WRAP⟩ : Fmt)) ++
      [0, 2, 3, 5].map (fun F => (⟨F + 2, 2, true, .TRN_ZERO, .WRAP⟩ : Fmt)),
    ¬Orderly t ∧ (outOfOrder t 512 = true ∨ outOfOrder t 1536 = true) := by
  unfold Orderly; decide +kernel

/-- The same in numbers: with two fraction bits the cosine is 3/4 just before an eighth of a turn, 1/2 there and 3/4 after it. -/
theorem C88_lut_dip_wrong :
    sincos ⟨14, 2, true, .TRN, .WRAP⟩ ⟨4, 2, true, .TRN, .WRAP⟩ (511 / 4096) = some (3 / 4, 3 / 4) ∧
    sincos ⟨14, 2, true, .TRN, .WRAP⟩ ⟨4, 2, true, .TRN, .WRAP⟩ (512 / 4096) = some (1 / 2, 1 / 2) ∧
    sincos ⟨14, 2, true, .TRN, .WRAP⟩ ⟨4, 2, true, .TRN, .WRAP⟩ (513 / 4096) = some (3 / 4, 3 / 4) := by
  refine ⟨?_, ?_, ?_⟩ <;> decide +kernel

/-- Outputs near values in order are in order up to the two errors. -/
theorem near {a b u v e d : ℝ} (h : u ≤ v) (h1 : |a - u| ≤ e) (h2 : |b - v| ≤ d) : a ≤ b + (e + d) := by
  rw [abs_le] at h1 h2; linarith [h1.2, h2.1]

/-- Sine and cosine by CORDIC, of angles in half turns: where the sine rises and the cosine falls, the outputs are out of order by
at most twice the error of C38. Partial: the order itself fails, see below. -/
theorem C88_cordic_partial {f t : Fmt} (hf : f.I ≤ f.W) (h68 : t.W ≤ 68) (hI : 2 ≤ t.I) (hF : 2 ≤ t.F) (hS : t.S = true) {a b : ℚ}
    (ha : f.Rep a) (hb : f.Rep b) (hab : a ≤ b) :
    ∃ s c s' c' : ℚ, Model.Cordic.sin f t a = some s ∧ Model.Cordic.cos f t a = some c ∧ Model.Cordic.sin f t b = some s' ∧
      Model.Cordic.cos f t b = some c' ∧
      (-1 / 2 ≤ a → b ≤ 1 / 2 → (s : ℝ) ≤ s' + 2 * Props.Identities.cordicErr t) ∧
      (0 ≤ a → b ≤ 1 → (c' : ℝ) ≤ c + 2 * Props.Identities.cordicErr t) := by
  obtain ⟨s, c, h1, h2, e1, e2⟩ := Props.Cordic.C38_sin_cos hf h68 hI hF hS ha
  obtain ⟨s', c', h3, h4, e3, e4⟩ := Props.Cordic.C38_sin_cos hf h68 hI hF hS hb
  have hp := Real.pi_pos
  have hab' : (a : ℝ) ≤ b := by exact_mod_cast hab
  refine ⟨s, c, s', c', h1, h2, h3, h4, fun l u => ?_, fun l u => ?_⟩
  · have l' : (-1 / 2 : ℝ) ≤ a := by have := (Rat.cast_le (K := ℝ)).2 l; push_cast at this; exact this
    have u' : (b : ℝ) ≤ 1 / 2 := by have := (Rat.cast_le (K := ℝ)).2 u; push_cast at this; exact this
    have := Real.sin_le_sin_of_le_of_le_pi_div_two (x := Real.pi * a) (y := Real.pi * b) (by nlinarith) (by nlinarith)
      (mul_le_mul_of_nonneg_left hab' hp.le)
    rw [two_mul]
    exact near this e1 e3
  · have l' : (0 : ℝ) ≤ a := by exact_mod_cast l
    have u' : (b : ℝ) ≤ 1 := by exact_mod_cast u
    have := Real.cos_le_cos_of_nonneg_of_le_pi (x := Real.pi * a) (y := Real.pi * b) (by positivity) (by nlinarith)
      (mul_le_mul_of_nonneg_left hab' hp.le)
    rw [two_mul]
    exact near this e4 e2

/-- The order fails: the sine of a quarter of a half turn is below that of the angle `2^-12` before it, and the cosine above. -/
theorem C88_cordic_wrong :
    Model.Cordic.sin ⟨18, 2, true, .TRN, .WRAP⟩ ⟨10, 2, true, .TRN, .WRAP⟩ (1023 / 4096) = some (181 / 256) ∧
    Model.Cordic.sin ⟨18, 2, true, .TRN, .WRAP⟩ ⟨10, 2, true, .TRN, .WRAP⟩ (1 / 4) = some (180 / 256) ∧
    Model.Cordic.cos ⟨18, 2, true, .TRN, .WRAP⟩ ⟨10, 2, true, .TRN, .WRAP⟩ (1023 / 4096) = some (180 / 256) ∧
    Model.Cordic.cos ⟨18, 2, true, .TRN, .WRAP⟩ ⟨10, 2, true, .TRN, .WRAP⟩ (1 / 4) = some (181 / 256) := by
  refine ⟨?_, ?_, ?_, ?_⟩ <;> decide +kernel

example : (⟨18, 2, true, .TRN, .WRAP⟩ : Fmt).Rep (1023 / 4096) ∧ (⟨18, 2, true, .TRN, .WRAP⟩ : Fmt).Rep (1 / 4) := by
  refine ⟨⟨16368, by decide, by decide, by decide +kernel⟩, ⟨16384, by decide, by decide, by decide +kernel⟩⟩

/-- Arcsine by CORDIC: in order up to twice the error of C50. Partial: the order itself fails at the end of the range, see
below. -/
theorem C88_arcsin_partial {o : Fmt} {h : ℕ} (hF : o.F = h) (h1 : 1 ≤ h) (h2 : h ≤ 64) (hS : o.S = true) (hI : 1 ≤ o.I)
    (hW : 3 ≤ o.W) {t u : ℚ} (ht : -1 ≤ t) (htu : t ≤ u) (hu : u ≤ 1) :
    ∃ z w : ℚ, Model.Arcsin.arcsin o t = some z ∧ Model.Arcsin.arcsin o u = some w ∧
      (z : ℝ) ≤ w + 2 * ((3 / 2 * √(2 * h + 1) + 2) / 2 ^ h + 8 / 5 * (h + 1) ^ 2 / 4 ^ h + 1 / 2 ^ 117) := by
  obtain ⟨z, hz, ez⟩ := Props.Arcsin.C50_error_partial hF h1 h2 hS hI hW (t := t) (abs_le.2 ⟨ht, htu.trans hu⟩)
  obtain ⟨w, hw, ew⟩ := Props.Arcsin.C50_error_partial hF h1 h2 hS hI hW (t := u) (abs_le.2 ⟨ht.trans htu, hu⟩)
  have htu' : (t : ℝ) ≤ u := by exact_mod_cast htu
  refine ⟨z, w, hz, hw, ?_⟩
  rw [two_mul]
  exact near (div_le_div_of_nonneg_right (Real.monotone_arcsin htu') Real.pi_pos.le) ez ew

example : Model.Arcsin.arcsin ⟨12, 2, true, .TRN, .WRAP⟩ (-1 / 3) = some (-111 / 1024) ∧
    Model.Arcsin.arcsin ⟨12, 2, true, .TRN, .WRAP⟩ (1 / 2) = some (85 / 512) := by
  refine ⟨?_, ?_⟩ <;> decide +kernel

/-- The order fails: the arcsine of `1 - 2^-21` is a half and that of 1 is less. -/
theorem C88_arcsin_wrong : Model.Arcsin.arcsin ⟨12, 2, true, .TRN, .WRAP⟩ (1 - 1 / 2 ^ 21) = some (1 / 2) ∧
    Model.Arcsin.arcsin ⟨12, 2, true, .TRN, .WRAP⟩ 1 = some (511 / 1024) := by
  refine ⟨?_, ?_⟩ <;> decide +kernel

/-- Arccosine by CORDIC: in falling order up to twice the error of C51. Partial: the order itself fails at zero, see below. -/
theorem C88_arccos_partial {o : Fmt} {h : ℕ} (hF : o.F = h) (h1 : 1 ≤ h) (h2 : h ≤ 64) (hS : o.S = false) (hI : 1 ≤ o.I)
    {t u : ℚ} (ht : -1 ≤ t) (htu : t ≤ u) (hu : u ≤ 1) :
    ∃ z w : ℚ, Model.Arcsin.arccos o t = some z ∧ Model.Arcsin.arccos o u = some w ∧
      (w : ℝ) ≤ z + 2 * ((√(2 * h + 1) / 2 + 1) / 2 ^ h + 8 / 5 * (h + 1) ^ 2 / 4 ^ h + 1 / 2 ^ 117) := by
  obtain ⟨z, hz, ez⟩ := Props.Arccos.C51_error hF h1 h2 hS hI (t := t) (abs_le.2 ⟨ht, htu.trans hu⟩)
  obtain ⟨w, hw, ew⟩ := Props.Arccos.C51_error hF h1 h2 hS hI (t := u) (abs_le.2 ⟨ht.trans htu, hu⟩)
  have htu' : (t : ℝ) ≤ u := by exact_mod_cast htu
  refine ⟨z, w, hz, hw, ?_⟩
  rw [two_mul]
  exact near (div_le_div_of_nonneg_right (Real.antitone_arccos htu') Real.pi_pos.le) ew ez

example : Model.Arcsin.arccos ⟨12, 2, false, .TRN, .WRAP⟩ (-1 / 3) = some (311 / 512) ∧
    Model.Arcsin.arccos ⟨12, 2, false, .TRN, .WRAP⟩ (1 / 2) = some (341 / 1024) := by
  refine ⟨?_, ?_⟩ <;> decide +kernel

/-- The order fails: the arccosine of a small negative number is less than that of zero. -/
theorem C88_arccos_wrong : Model.Arcsin.arccos ⟨12, 2, false, .TRN, .WRAP⟩ (-1 / 2 ^ 20) = some (511 / 1024) ∧
    Model.Arcsin.arccos ⟨12, 2, false, .TRN, .WRAP⟩ 0 = some (1 / 2) := by
  refine ⟨?_, ?_⟩ <;> decide +kernel

open Model.Hcordic Props.HcordicLog in
/-- Logarithm to base 2 by hyperbolic CORDIC, signed output: the outputs are in order, if the output type holds both. Partial:
an output type that does not hold the logarithm wraps, and overridden temporaries that round up break the order, see below. -/
theorem C88_log2_partial {tf : Option ℕ} {tq : QMode} {f out : Fmt} (hW : 1 ≤ f.W) (hS : f.S = false) (ho : 1 ≤ out.W)
    (hSo : out.S = true) (h44 : max (tf.getD f.W) (bits tf out) ≤ 44)
    (hp1 : 1 ≤ tf.getD f.W) (hq : tq = .TRN ∨ tq = .TRN_ZERO ∨ tf = none) {x y : ℚ} (hx : f.Rep x) (hy : f.Rep y) (hx0 : 0 < x)
    (hxy : x ≤ y) (hrx : |Real.logb 2 x| + ulps2 tf / 2 ^ bits tf out ≤ out.maxVal)
    (hry : |Real.logb 2 y| + ulps2 tf / 2 ^ bits tf out ≤ out.maxVal) :
    ∃ z w : ℚ, log2 tf tq f out x = some z ∧ log2 tf tq f out y = some w ∧ z ≤ w := by
  obtain ⟨r, r', a, b, c, d, e⟩ := Proof.Hcordic.log2_sums hW hS (show fbits tf out.F.toNat = bits tf out from rfl) h44 hp1
    (down_or hq) hx hy hx0 hxy
  rw [ulps2_eq] at c d
  exact ⟨_, _, a, b, Proof.Hcordic.out_mono ho hSo c hrx d hry e⟩

example : (⟨16, 8, false, .TRN, .WRAP⟩ : Fmt).Rep (5 / 2) ∧ (⟨16, 8, false, .TRN, .WRAP⟩ : Fmt).Rep (5 / 2 + 1 / 256) ∧
    Model.Hcordic.log2 none .TRN ⟨16, 8, false, .TRN, .WRAP⟩ ⟨24, 8, true, .TRN, .WRAP⟩ (5 / 2) = some (43317 / 32768) ∧
    Model.Hcordic.log2 none .TRN ⟨16, 8, false, .TRN, .WRAP⟩ ⟨24, 8, true, .TRN, .WRAP⟩ (5 / 2 + 1 / 256) = some (86781 / 65536) := by
  refine ⟨⟨640, by decide, by decide, by decide +kernel⟩, ⟨641, by decide, by decide, by decide +kernel⟩, ?_, ?_⟩ <;> decide +kernel

open Model.Hcordic Props.HcordicLog in
/-- Logarithm to base 2, unsigned output: the outputs are in order, whether or not the output type holds them. -/
theorem C88_log2_unsigned {tf : Option ℕ} {tq : QMode} {f out : Fmt} (hW : 1 ≤ f.W) (hS : f.S = false) (ho : 1 ≤ out.W)
    (hSo : out.S = false) (h44 : max (tf.getD f.W) (bits tf out) ≤ 44)
    (hp1 : 1 ≤ tf.getD f.W) (hq : tq = .TRN ∨ tq = .TRN_ZERO ∨ tf = none) {x y : ℚ} (hx : f.Rep x) (hy : f.Rep y) (hx0 : 0 < x)
    (hxy : x ≤ y) :
    ∃ z w : ℚ, log2 tf tq f out x = some z ∧ log2 tf tq f out y = some w ∧ z ≤ w := by
  obtain ⟨r, r', a, b, -, -, e⟩ := Proof.Hcordic.log2_sums hW hS (show fbits tf out.F.toNat = bits tf out from rfl) h44 hp1
    (down_or hq) hx hy hx0 hxy
  exact ⟨_, _, a, b, Proof.Hcordic.out_mono_unsigned ho hSo e⟩

example : Model.Hcordic.log2 none .TRN ⟨16, 8, false, .TRN, .WRAP⟩ ⟨10, 2, false, .TRN, .WRAP⟩ (1 / 2) = some 0 ∧
    Model.Hcordic.log2 none .TRN ⟨16, 8, false, .TRN, .WRAP⟩ ⟨10, 2, false, .TRN, .WRAP⟩ 200 = some (1023 / 256) := by
  refine ⟨?_, ?_⟩ <;> decide +kernel

/-- A signed output type that does not hold the logarithm breaks the order, even if it saturates: the logarithm of 17 comes out
below that of 8. -/
theorem C88_log2_range_wrong :
    Model.Hcordic.log2 none .TRN ⟨16, 8, false, .TRN, .WRAP⟩ ⟨12, 3, true, .TRN, .SAT⟩ 8 = some 3 ∧
    Model.Hcordic.log2 none .TRN ⟨16, 8, false, .TRN, .WRAP⟩ ⟨12, 3, true, .TRN, .SAT⟩ 17 = some (-501 / 128) := by
  refine ⟨?_, ?_⟩ <;> decide +kernel

/-- Overridden temporaries that round up break the order: the logarithm of `4 - 2^-32` comes out above that of 4. -/
theorem C88_log2_round_wrong :
    Model.Hcordic.log2 (some 16) .RND ⟨40, 8, false, .TRN, .WRAP⟩ ⟨24, 8, true, .TRN, .WRAP⟩ (4 - 1 / 2 ^ 32) = some (181773 / 65536) ∧
    Model.Hcordic.log2 (some 16) .RND ⟨40, 8, false, .TRN, .WRAP⟩ ⟨24, 8, true, .TRN, .WRAP⟩ 4 = some 2 := by
  refine ⟨?_, ?_⟩ <;> decide +kernel

open Model.Hcordic Props.HcordicLog in
/-- Natural logarithm by hyperbolic CORDIC: in order up to the errors of C52 at the two arguments. Partial: the order itself
fails at a power of two, see below. -/
theorem C88_log_partial {tf : Option ℕ} {tq : QMode} {f out : Fmt} (hW : 1 ≤ f.W) (hS : f.S = false) (ho : 1 ≤ out.W)
    (hSo : out.S = true) (h44 : max (tf.getD f.W) (bits tf out) ≤ 44)
    (hp1 : 1 ≤ tf.getD f.W) (hq : tq = .TRN ∨ tq = .TRN_ZERO ∨ tf = none) {x y : ℚ} (hx : f.Rep x) (hy : f.Rep y) (hx0 : 0 < x)
    (hxy : x ≤ y) (hrx : |Real.log x| + ulpsE tf x / 2 ^ bits tf out ≤ out.maxVal)
    (hry : |Real.log y| + ulpsE tf y / 2 ^ bits tf out ≤ out.maxVal) :
    ∃ z w : ℚ, log tf tq f out x = some z ∧ log tf tq f out y = some w ∧
      (z : ℝ) ≤ w + ((ulpsE tf x + ulpsE tf y) / 2 ^ bits tf out + 2 * 2 ^ (-out.F)) := by
  obtain ⟨z, hz, ez⟩ := C52_log_partial hW hS ho hSo h44 hp1 hq hx hx0 hrx
  obtain ⟨w, hw, ew⟩ := C52_log_partial hW hS ho hSo h44 hp1 hq hy (hx0.trans_le hxy) hry
  refine ⟨z, w, hz, hw, ?_⟩
  have hl := Real.log_le_log (show (0 : ℝ) < x by exact_mod_cast hx0) (show (x : ℝ) ≤ y by exact_mod_cast hxy)
  obtain ⟨-, e1⟩ := abs_le.1 ez
  obtain ⟨e2, -⟩ := abs_le.1 ew
  rw [add_div]
  linarith

example : (⟨16, 8, false, .TRN, .WRAP⟩ : Fmt).Rep (5 / 2) ∧
    (Model.Hcordic.log none .TRN ⟨16, 8, false, .TRN, .WRAP⟩ ⟨24, 8, true, .TRN, .WRAP⟩ (5 / 2)).isSome = true := by
  refine ⟨⟨640, by decide, by decide, by decide +kernel⟩, by decide +kernel⟩

/-- The order of natural logarithms fails: with temporaries of 44 bits the logarithm of `2^-8` comes out below that of the number
`2^-52` before it. -/
theorem C88_log_wrong :
    Model.Hcordic.log (some 44) .TRN ⟨45, -7, false, .TRN, .WRAP⟩ ⟨48, 4, true, .TRN, .WRAP⟩ (1 / 2 ^ 8 - 1 / 2 ^ 52) =
      some (-97551793252581 / 2 ^ 44) ∧
    Model.Hcordic.log (some 44) .TRN ⟨45, -7, false, .TRN, .WRAP⟩ ⟨48, 4, true, .TRN, .WRAP⟩ (1 / 2 ^ 8) =
      some (-97551793252582 / 2 ^ 44) := by
  refine ⟨?_, ?_⟩ <;> decide +kernel

example : (⟨45, -7, false, .TRN, .WRAP⟩ : Fmt).Rep (1 / 2 ^ 8 - 1 / 2 ^ 52) ∧ (⟨45, -7, false, .TRN, .WRAP⟩ : Fmt).Rep (1 / 2 ^ 8) := by
  refine ⟨⟨2 ^ 44 - 1, by decide, by decide, by decide +kernel⟩, ⟨2 ^ 44, by decide, by decide, by decide +kernel⟩⟩

open Model.Hcordic Props.HcordicExp in
/-- Power of two by hyperbolic CORDIC: in order up to the errors of C53 at the two arguments. Partial: the order itself fails, see
below. -/
theorem C88_exp2_partial {tf : Option ℕ} {tq : QMode} {f out : Fmt} (ho : 1 ≤ out.W) (hSo : out.S = false) (hf : (f.W : ℤ) - f.I ≤ 45)
    (h44 : bits tf out ≤ 44) {x y : ℚ} (hx : f.Rep x) (hy : f.Rep y) (hxy : x ≤ y)
    (hq : tq = .TRN ∨ tq = .TRN_ZERO ∨ (f.W : ℤ) - f.I ≤ bits tf out)
    (hr : out.O = .SAT ∨ out.O = .SAT_SYM ∨ (2 : ℝ) ^ (y : ℝ) * (1 + 13 / 2 / 2 ^ bits tf out) ≤ out.maxVal) :
    ∃ z w : ℚ, exp2 tf tq f out x = some z ∧ exp2 tf tq f out y = some w ∧
      (z : ℝ) ≤ w + 2 * (13 / 2 / 2 ^ bits tf out * 2 ^ (y : ℝ) + 2 ^ (-out.F)) := by
  have hxy' : (2 : ℝ) ^ (x : ℝ) ≤ 2 ^ (y : ℝ) := Real.rpow_le_rpow_of_exponent_le (by norm_num) (by exact_mod_cast hxy)
  have hq' : ∀ v : ℝ, tq = .TRN ∨ tq = .TRN_ZERO ∨ v ≤ 2 - 3 / 2 ^ bits tf out ∨ (f.W : ℤ) - f.I ≤ bits tf out :=
    fun v => hq.imp_right (Or.imp_right Or.inr)
  have hb : (0 : ℝ) ≤ 13 / 2 / 2 ^ bits tf out := by positivity
  have hrx : out.O = .SAT ∨ out.O = .SAT_SYM ∨ (2 : ℝ) ^ (x : ℝ) * (1 + 13 / 2 / 2 ^ bits tf out) ≤ out.maxVal := by
    rcases hr with h | h | h
    · exact Or.inl h
    · exact Or.inr (Or.inl h)
    · exact Or.inr (Or.inr ((mul_le_mul_of_nonneg_right hxy' (by linarith)).trans h))
  obtain ⟨z, hz, ez⟩ := C53_exp2_partial ho hSo hf h44 hx (hq' _) hrx
  obtain ⟨w, hw, ew⟩ := C53_exp2_partial ho hSo hf h44 hy (hq' _) hr
  refine ⟨z, w, hz, hw, ?_⟩
  have := near (min_le_min_right _ hxy') ez ew
  have := mul_le_mul_of_nonneg_left hxy' hb
  linarith

/-- The order fails at whole exponents: the power of 1 is below that of the argument `2^-12` before it. -/
theorem C88_exp2_wrong :
    Model.Hcordic.exp2 none .TRN ⟨16, 4, true, .TRN, .WRAP⟩ ⟨12, 6, false, .TRN, .WRAP⟩ (1 - 1 / 4096) = some (127 / 64) ∧
    Model.Hcordic.exp2 none .TRN ⟨16, 4, true, .TRN, .WRAP⟩ ⟨12, 6, false, .TRN, .WRAP⟩ 1 = some (126 / 64) := by
  refine ⟨?_, ?_⟩ <;> decide +kernel

example : (⟨16, 4, true, .TRN, .WRAP⟩ : Fmt).Rep (1 - 1 / 4096) ∧ (⟨16, 4, true, .TRN, .WRAP⟩ : Fmt).Rep 1 := by
  refine ⟨⟨4095, by decide, by decide, by decide +kernel⟩, ⟨4096, by decide, by decide, by decide +kernel⟩⟩

end Props.Order
