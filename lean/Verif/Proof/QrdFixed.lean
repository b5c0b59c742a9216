import Verif.Proof.QrdRound
import Verif.Proof.CholRound
import Verif.Proof.CholFns
import Verif.Proof.IsqrtPwl
import Verif.Spec.CholArith
import Mathlib.Tactic.Positivity

/-! # The arithmetic of ac_qrd meets the error bounds -/

namespace Proof.QrdFixed
open Ac Model.QrdFixed Spec.QrdArith Proof.CholRound

/-- Consequences of the size of the sum of squares `q`, `s` after truncation. -/
theorem sizes {q s w ρ X : ℝ} (hw : w = 1 / 4294967296) (hρ : 1 / 16384 ≤ ρ) (hX0 : 0 ≤ X) (h0 : ρ ^ 2 ≤ q) (h1 : q ≤ X ^ 2)
    (hs : |s - q| ≤ w) : ρ ≤ X ∧ 15 / 16 * ρ ^ 2 ≤ s ∧ s ≤ 17 / 16 * X ^ 2 := by
  have hρ0 : 0 < ρ := by linarith
  have hρX : ρ ≤ X := le_of_sq_le_sq (h0.trans h1) hX0
  obtain ⟨s1, s2⟩ := abs_le.1 hs
  have h2 : (1 / 16384 : ℝ) ^ 2 ≤ ρ ^ 2 := pow_le_pow_left₀ (by norm_num) hρ 2
  have h3 : ρ ^ 2 ≤ X ^ 2 := h0.trans h1
  refine ⟨hρX, ?_, ?_⟩
  · norm_num at h2; linarith
  · norm_num at h2; linarith

theorem exact_core {q s g i w ρ X : ℝ} (hw : w = 1 / 4294967296) (hρ : 1 / 16384 ≤ ρ) (hX0 : 0 ≤ X) (hX : X ≤ 268435456)
    (h0 : ρ ^ 2 ≤ q) (h1 : q ≤ X ^ 2) (hs : |s - q| ≤ w) (hg : |g - Real.sqrt s| ≤ w) (hi : |i - 1 / g| ≤ w) :
    |q * i ^ 2 - 1| ≤ w * (3 * X + 3 / ρ + 2 / ρ ^ 2) ∧ 24 / 25 * ρ ≤ g := by
  have hw0 : 0 < w := by rw [hw]; norm_num
  have hρ0 : 0 < ρ := by linarith
  obtain ⟨hρX, slo, shi⟩ := sizes hw hρ hX0 h0 h1 hs
  have hs0 : 0 ≤ s := le_trans (by positivity) slo
  have r1 : 29 / 30 * ρ ≤ Real.sqrt s := by
    apply Real.le_sqrt_of_sq_le
    have := sq_nonneg ρ
    rw [mul_pow]; norm_num; linarith
  have r2 : Real.sqrt s ≤ 31 / 30 * X := by
    rw [Real.sqrt_le_left (by linarith), mul_pow]
    have := sq_nonneg X
    norm_num; linarith
  obtain ⟨g1, g2⟩ := abs_le.1 hg
  have glo : 24 / 25 * ρ ≤ g := by linarith
  have ghi : g ≤ 26 / 25 * X := by linarith
  have g0 : 0 < g := lt_of_lt_of_le (by positivity) glo
  refine ⟨?_, glo⟩
  have wg : w * g ≤ 1 / 15 := by
    have := mul_le_mul_of_nonneg_left (show g ≤ 26 / 25 * 268435456 by linarith) hw0.le
    rw [hw] at this ⊢; linarith
  have ha : |i * g - 1| ≤ w * g := by
    have e : i * g - 1 = (i - 1 / g) * g := by rw [sub_mul, one_div, inv_mul_cancel₀ g0.ne']
    rw [e, abs_mul, abs_of_pos g0]
    exact mul_le_mul_of_nonneg_right hi g0.le
  obtain ⟨a1, a2⟩ := abs_le.1 ha
  have wgp : 0 < w * g := mul_pos hw0 g0
  -- the rounding of the reciprocal
  have b1 : |(i * g) ^ 2 - 1| ≤ w * (3 * X) := by
    have e : (i * g) ^ 2 - 1 = (i * g - 1) * (i * g + 1) := by ring
    rw [e, abs_mul]
    have h2 : |i * g + 1| ≤ 31 / 15 := by rw [abs_le]; constructor <;> linarith
    have h3 := mul_le_mul ha h2 (abs_nonneg _) wgp.le
    have h4 := mul_le_mul_of_nonneg_left ghi hw0.le
    have h5 : 0 ≤ w * X := mul_nonneg hw0.le hX0
    linarith
  -- the rounding of the root and of the sum
  have b2 : |q - g ^ 2| ≤ (w + w ^ 2) + 2 * (w * g) := by
    have e : q - g ^ 2 = -(s - q) + (Real.sqrt s - g) * (Real.sqrt s + g) := by
      have := Real.sq_sqrt hs0
      linear_combination -this
    rw [e]
    have h2 := abs_add_le (-(s - q)) ((Real.sqrt s - g) * (Real.sqrt s + g))
    rw [abs_neg, abs_mul] at h2
    have h3 : |Real.sqrt s + g| ≤ 2 * g + w := by
      have := Real.sqrt_nonneg s
      rw [abs_of_nonneg (by linarith)]; linarith
    have h4 : |Real.sqrt s - g| ≤ w := by rw [abs_sub_comm]; exact hg
    have h5 := mul_le_mul h4 h3 (abs_nonneg _) hw0.le
    linarith
  have hh : 1 / g ≤ 25 / 24 * (1 / ρ) := by
    rw [div_le_iff₀ g0]
    have : 25 / 24 * (1 / ρ) * (24 / 25 * ρ) = 1 := by field_simp
    have h2 := mul_le_mul_of_nonneg_left glo (show 0 ≤ 25 / 24 * (1 / ρ) by positivity)
    linarith
  have hh0 : 0 < 1 / g := by positivity
  have b3 : i ^ 2 ≤ 256 / 225 * (1 / g) ^ 2 := by
    have e : i ^ 2 = (i * g) ^ 2 * (1 / g) ^ 2 := by rw [← mul_pow, mul_assoc, mul_one_div_cancel g0.ne', mul_one]
    rw [e]
    refine mul_le_mul_of_nonneg_right ?_ (by positivity)
    have := pow_le_pow_left₀ (show 0 ≤ i * g by linarith) (show i * g ≤ 16 / 15 by linarith) 2
    norm_num at this ⊢; exact this
  have b4 : |(q - g ^ 2) * i ^ 2| ≤ w * (3 / ρ + 2 / ρ ^ 2) := by
    rw [abs_mul, abs_of_nonneg (sq_nonneg i)]
    have h2 := mul_le_mul b2 b3 (sq_nonneg i) (by positivity)
    have e : ((w + w ^ 2) + 2 * (w * g)) * (256 / 225 * (1 / g) ^ 2) =
        256 / 225 * ((w + w ^ 2) * (1 / g) ^ 2) + 512 / 225 * (w * (1 / g)) := by field_simp; ring
    have h3 : (1 / g) ^ 2 ≤ (25 / 24 * (1 / ρ)) ^ 2 := pow_le_pow_left₀ hh0.le hh 2
    have h4 := mul_le_mul_of_nonneg_left h3 (show 0 ≤ w + w ^ 2 by positivity)
    have h5 := mul_le_mul_of_nonneg_left hh hw0.le
    have h6 : w ^ 2 ≤ 1 / 100 * w := by rw [hw]; norm_num
    have h7 := mul_le_mul_of_nonneg_right h6 (show 0 ≤ (25 / 24 * (1 / ρ)) ^ 2 by positivity)
    have e2 : (25 / 24 * (1 / ρ)) ^ 2 = 625 / 576 * (1 / ρ ^ 2) := by rw [mul_pow, one_div_pow]; norm_num
    have h8 : 0 ≤ w * (1 / ρ ^ 2) := by positivity
    have h9 : 0 ≤ w * (1 / ρ) := by positivity
    have e3 : w * (3 / ρ + 2 / ρ ^ 2) = 3 * (w * (1 / ρ)) + 2 * (w * (1 / ρ ^ 2)) := by ring
    rw [e2] at h4 h7
    rw [e3]
    linarith
  have e : q * i ^ 2 - 1 = (q - g ^ 2) * i ^ 2 + ((i * g) ^ 2 - 1) := by ring
  rw [e]
  have := abs_add_le ((q - g ^ 2) * i ^ 2) ((i * g) ^ 2 - 1)
  linarith

theorem pwl_core {q s b i w ρ X : ℝ} (hw : w = 1 / 4294967296) (hρ : 1 / 16384 ≤ ρ) (hX0 : 0 ≤ X) (hX : X ≤ 268435456)
    (h0 : ρ ^ 2 ≤ q) (h1 : q ≤ X ^ 2) (hs : |s - q| ≤ w) (hb0 : 0 < b) (hb : |b ^ 2 * s - 1| ≤ 3 / 2000) (hi : |i - b| ≤ w) :
    |q * i ^ 2 - 1| ≤ 3 / 2000 + w * (3 * X + 3 / ρ + 2 / ρ ^ 2) := by
  have hw0 : 0 < w := by rw [hw]; norm_num
  have hρ0 : 0 < ρ := by linarith
  obtain ⟨hρX, slo, shi⟩ := sizes hw hρ hX0 h0 h1 hs
  have hr2 : 0 < ρ ^ 2 := by positivity
  have b2 : b ^ 2 ≤ 11 / 10 * (1 / ρ ^ 2) := by
    have h2 := mul_le_mul_of_nonneg_left slo (sq_nonneg b)
    have := (abs_le.1 hb).2
    rw [mul_one_div, le_div_iff₀ hr2]
    linarith
  have q0 : 0 ≤ q := hr2.le.trans h0
  have wr : w * (1 / ρ ^ 2) ≤ 1 / 16 := by
    rw [mul_one_div, div_le_iff₀ hr2]
    have h2 : (1 / 16384 : ℝ) ^ 2 ≤ ρ ^ 2 := pow_le_pow_left₀ (by norm_num) hρ 2
    norm_num at h2; rw [hw]; linarith
  have wb : w * b ^ 2 ≤ 11 / 10 * (w * (1 / ρ ^ 2)) := by
    have := mul_le_mul_of_nonneg_left b2 hw0.le
    linarith
  have t1 : |(q - s) * b ^ 2| ≤ 11 / 10 * (w * (1 / ρ ^ 2)) := by
    rw [abs_mul, abs_of_nonneg (sq_nonneg b), abs_sub_comm]
    exact (mul_le_mul_of_nonneg_right hs (sq_nonneg b)).trans wb
  have qb : q * b ≤ 21 / 20 * X := by
    refine le_of_sq_le_sq ?_ (by linarith)
    have e : (q * b) ^ 2 = q * (q * b ^ 2) := by ring
    have h2 : q * b ^ 2 ≤ 11 / 10 := by
      have e : q * b ^ 2 = (q - s) * b ^ 2 + (b ^ 2 * s - 1) + 1 := by ring
      have h3 := (abs_le.1 t1).2
      have h4 := (abs_le.1 hb).2
      linarith
    have h3 := mul_le_mul h1 h2 (by positivity) (sq_nonneg X)
    have := sq_nonneg X
    rw [e, mul_pow]; norm_num; linarith
  have t2 : |q * (i - b) * (i + b)| ≤ w * (3 * X) := by
    obtain ⟨i1, i2⟩ := abs_le.1 hi
    have h2 : |i + b| ≤ 2 * b + w := by rw [abs_le]; constructor <;> linarith
    rw [abs_mul, abs_mul, abs_of_nonneg q0]
    have h3 := mul_le_mul_of_nonneg_left hi q0
    have h4 := mul_le_mul h3 h2 (abs_nonneg _) (by positivity)
    have h5 : w * q ≤ 1 / 16 * X := by
      have h6 : w * X ≤ 1 / 16 := by
        have := mul_le_mul_of_nonneg_left hX hw0.le
        rw [hw] at this ⊢; linarith
      have h7 := mul_le_mul_of_nonneg_left h1 hw0.le
      have h8 := mul_le_mul_of_nonneg_right h6 hX0
      have e : w * X ^ 2 = w * X * X := by ring
      linarith
    have e : q * w * (2 * b + w) = w * (2 * (q * b) + w * q) := by ring
    rw [e] at h4
    have h6 := mul_le_mul_of_nonneg_left (show 2 * (q * b) + w * q ≤ 3 * X by linarith) hw0.le
    linarith
  have e : q * i ^ 2 - 1 = (b ^ 2 * s - 1) + (q - s) * b ^ 2 + q * (i - b) * (i + b) := by ring
  rw [e]
  have h2 := abs_add_three (b ^ 2 * s - 1) ((q - s) * b ^ 2) (q * (i - b) * (i + b))
  have e3 : w * (3 * X + 3 / ρ + 2 / ρ ^ 2) = w * (3 * X) + 3 * (w * (1 / ρ)) + 2 * (w * (1 / ρ ^ 2)) := by ring
  have h8 : 0 ≤ w * (1 / ρ ^ 2) := by positivity
  have h9 : 0 ≤ w * (1 / ρ) := by positivity
  rw [e3]
  linarith

/-- Deviation of the inverse root. -/
def dev (pwl : Bool) (ρ X : ℚ) : ℚ := (if pwl then 3 / 2000 else 0) + 2 ^ (-32 : ℤ) * (3 * X + 3 / ρ + 2 / ρ ^ 2)

theorem unsigned_nonneg {f : Fmt} (hW : 1 ≤ f.W) (hS : f.S = false) (x : ℚ) : 0 ≤ f.cvt x := by
  obtain ⟨r, r0, -, r2⟩ := Fmt.rep_cvt (f := f) hW x
  have h : minRaw f.W f.S = 0 := by rw [hS]; rfl
  rw [h] at r0
  rw [r2]
  have := Fmt.val_le (f := f).2 r0
  simpa [Fmt.val] using this

theorem irootOf_ok (pwl : Bool) {f : Fmt} (hWs : 1 ≤ f.W) (hS : f.S = false) {k : ℤ} (hk : -31 ≤ k) (junk : ℚ) {ρ X : ℚ}
    (hρ : 1 / 16384 ≤ ρ) (hX0 : 0 ≤ X) (hX : X ≤ 268435456) (hXr : 2 * X ≤ (rootFmt k).maxVal) {q s : ℚ} (hrep : f.Rep s)
    (hs : |s - q| ≤ 2 ^ (-32 : ℤ)) (h0 : ρ ^ 2 ≤ q) (h1 : q ≤ X ^ 2) :
    |q * irootOf pwl f k junk s ^ 2 - 1| ≤ dev pwl ρ X ∧ 0 ≤ irootOf pwl f k junk s := by
  have hWr : 1 ≤ (rootFmt k).W := by simp only [rootFmt]; omega
  have Fr : (rootFmt k).F = 32 := by simp only [Fmt.F, rootFmt]; omega
  have Fi : irootFmt.F = 32 := rfl
  have hq0 : 0 < q := lt_of_lt_of_le (pow_pos (by linarith) 2) h0
  have hw : (((2 : ℚ) ^ (-32 : ℤ) : ℚ) : ℝ) = 1 / 4294967296 := by norm_num
  have hw' : (2 : ℝ) ^ (-32 : ℤ) = 1 / 4294967296 := by norm_num
  have cρ : (1 / 16384 : ℝ) ≤ (ρ : ℝ) := by
    have := (Rat.cast_le (K := ℝ)).2 hρ
    push_cast at this; exact this
  have cX0 : (0 : ℝ) ≤ X := by exact_mod_cast hX0
  have cX : (X : ℝ) ≤ 268435456 := by exact_mod_cast hX
  have c0 : (ρ : ℝ) ^ 2 ≤ q := by exact_mod_cast h0
  have c1 : (q : ℝ) ≤ (X : ℝ) ^ 2 := by exact_mod_cast h1
  have cs : |(s : ℝ) - q| ≤ (((2 : ℚ) ^ (-32 : ℤ) : ℚ) : ℝ) := by
    have := (Rat.cast_le (K := ℝ)).2 hs
    rw [Rat.cast_abs, Rat.cast_sub] at this; exact this
  have hs0 := (sizes hw cρ cX0 c0 c1 cs).2.1
  have hsp : 0 < s := by
    have : (0 : ℝ) < (ρ : ℝ) ^ 2 := pow_pos (by linarith) 2
    have : (0 : ℝ) < s := by linarith
    exact_mod_cast this
  have fin : ∀ x y : ℚ, (x : ℝ) ≤ (y : ℝ) → x ≤ y := fun x y h => Rat.cast_le.1 h
  cases pwl
  · -- ac_sqrt and ac_div
    obtain ⟨y, y0, y1, y2⟩ := hrep
    have e1 : f.raw s = y := by rw [y2, Fmt.raw_val]
    have hx0 : 0 ≤ f.raw s := by
      rw [e1]
      have : minRaw f.W f.S = 0 := by rw [hS]; rfl
      omega
    have hx1 : f.raw s < 2 ^ f.W := by
      rw [e1]
      have : maxRaw f.W f.S = 2 ^ f.W - 1 := by rw [hS]; rfl
      omega
    have e2 := Proof.SqrtFixed.sqrtFixed_eq (fx := f) (fo := rootFmt k) hWs hWr hS rfl hx0 hx1
    rw [show f.val (f.raw s) = s by rw [e1, y2]] at e2
    have hroot : Real.sqrt (s : ℚ) ≤ 31 / 30 * X := by
      rw [Real.sqrt_le_left (by linarith), mul_pow]
      have := (sizes hw cρ cX0 c0 c1 cs).2.2
      have := sq_nonneg (X : ℝ)
      norm_num; linarith
    have near := unsigned_near (f := rootFmt k) (x := Real.sqrt (s : ℚ)) hWr rfl (Real.sqrt_nonneg _) (by
      have := (Rat.cast_le (K := ℝ)).2 hXr
      push_cast at this
      linarith)
    rw [← e2, Fr] at near
    have grep : (rootFmt k).Rep (Model.SqrtFixed.sqrtFixed f (rootFmt k) (f.raw s)) := by
      rw [e2]; exact Fmt.rep_cvt (f := rootFmt k) hWr _
    have hdef : irootOf false f k junk s = (Model.DivFixed.divU false ⟨1, 1, false, .TRN, .WRAP⟩ (rootFmt k) irootFmt 1
        ((rootFmt k).raw (Model.SqrtFixed.sqrtFixed f (rootFmt k) (f.raw s))) junk).1 := rfl
    generalize Model.SqrtFixed.sqrtFixed f (rootFmt k) (f.raw s) = g at *
    rw [hw'] at near
    rw [hw] at cs
    have glo : 24 / 25 * (ρ : ℝ) ≤ g :=
      (exact_core (i := 1 / g) rfl cρ cX0 cX c0 c1 cs near (by simp)).2
    have g0 : (0 : ℝ) < g := lt_of_lt_of_le (by linarith) glo
    have g0' : 0 < g := by exact_mod_cast g0
    obtain ⟨r, r0, r1, r2⟩ := grep
    have hr0 : 0 < r := by
      rw [r2] at g0'
      have : (rootFmt k).val 0 < (rootFmt k).val r := by simpa [Fmt.val] using g0'
      exact Fmt.val_lt.1 this
    have hr1 : r < 2 ^ (rootFmt k).W := by
      have : r ≤ 2 ^ (rootFmt k).W - 1 := r1
      omega
    have hdiv := (Proof.DivFixed.divU_eq (noSat := false) (fn := ⟨1, 1, false, .TRN, .WRAP⟩) (fd := rootFmt k)
      (fq := irootFmt) (by decide) hWr (by decide) rfl (by
        unfold Model.DivFixed.early Model.DivFixed.ZI Model.DivFixed.QF Model.DivFixed.rbitU
        rw [Fr, Fi]
        decide)
      (N := 1) (D := r) (by norm_num) (by norm_num) hr0 hr1 junk).1
    have e3 : (⟨1, 1, false, .TRN, .WRAP⟩ : Fmt).val 1 = 1 := by norm_num [Fmt.val, Fmt.F]
    rw [e3, ← r2] at hdiv
    rw [hdef, r2, Fmt.raw_val, hdiv]
    have hi := unsigned_near (R := ℚ) (f := irootFmt) (x := 1 / g) (by decide) rfl (one_div_nonneg.2 g0'.le) (by
      rw [Rat.cast_id, div_le_iff₀ g0']
      have h3 : irootFmt.maxVal = 65536 - 1 / 4294967296 := by norm_num [Fmt.maxVal, Fmt.val, Fmt.F, irootFmt, maxRaw]
      rw [h3]
      have h4 : (24 / 25 * (1 / 16384) : ℝ) ≤ g := by linarith
      have h5 : 24 / 25 * (1 / 16384) ≤ g := fin _ _ (by push_cast; exact h4)
      linarith)
    rw [Rat.cast_id, Fi] at hi
    refine ⟨?_, unsigned_nonneg (by decide) rfl _⟩
    generalize irootFmt.cvt (1 / g) = i at *
    have ci : |(i : ℝ) - 1 / g| ≤ 1 / 4294967296 := by
      have := (Rat.cast_le (K := ℝ)).2 hi
      rw [hw, Rat.cast_abs, Rat.cast_sub, Rat.cast_div, Rat.cast_one] at this; exact this
    have key := (exact_core rfl cρ cX0 cX c0 c1 cs near ci).1
    apply fin
    unfold dev
    push_cast
    rw [hw']
    simp only [Bool.false_eq_true, if_false, Rat.cast_zero, zero_add]
    exact key
  · -- ac_inverse_sqrt_pwl
    have r1 := Proof.IsqrtPwl.inverseSqrt_eq .TRN true (f := f) (out := irootFmt) hWs hS (by decide) rfl hrep hsp (Or.inl rfl)
    have r2 := Proof.IsqrtPwl.core_err (q := .TRN) (cn := true) (f := f) hWs hS hrep hsp (Or.inl rfl)
    have r3 : irootOf true f k junk s = irootFmt.cvt (Proof.IsqrtPwl.core .TRN true f s) := by
      unfold irootOf
      rw [if_pos rfl, r1]; rfl
    rw [r3]
    generalize Proof.IsqrtPwl.core .TRN true f s = b at *
    obtain ⟨r4, b0⟩ := r2
    have b0' : (0 : ℝ) < b := by exact_mod_cast b0
    have r4' : |(b : ℝ) ^ 2 * s - 1| ≤ 3 / 2000 := by
      have := (Rat.cast_le (K := ℝ)).2 r4
      push_cast at this; exact this
    have hi := unsigned_near (R := ℚ) (f := irootFmt) (x := b) (by decide) rfl b0.le (by
      rw [Rat.cast_id]
      have h3 : irootFmt.maxVal = 65536 - 1 / 4294967296 := by norm_num [Fmt.maxVal, Fmt.val, Fmt.F, irootFmt, maxRaw]
      rw [h3]
      have h4 : b ≤ 32768 := by
        refine le_of_sq_le_sq ?_ (by norm_num)
        have h5 := (abs_le.1 r4).2
        have h6 : (1 / 16384 : ℝ) ^ 2 ≤ (ρ : ℝ) ^ 2 := pow_le_pow_left₀ (by norm_num) cρ 2
        have h7 : (15 / 16 * (1 / 16384 : ℚ) ^ 2 : ℚ) ≤ s := fin _ _ (by push_cast; linarith)
        have h8 := mul_le_mul_of_nonneg_left h7 (sq_nonneg b)
        norm_num at h8 ⊢
        linarith
      linarith)
    rw [Rat.cast_id, Fi] at hi
    refine ⟨?_, unsigned_nonneg (by decide) rfl _⟩
    generalize irootFmt.cvt b = i at *
    have ci : |(i : ℝ) - b| ≤ 1 / 4294967296 := by
      have := (Rat.cast_le (K := ℝ)).2 hi
      rw [hw, Rat.cast_abs, Rat.cast_sub] at this; exact this
    rw [hw] at cs
    have key := pwl_core rfl cρ cX0 cX c0 c1 cs b0' r4' ci
    apply fin
    unfold dev
    push_cast
    rw [hw']
    simp only [if_true]
    push_cast
    exact key

theorem iroot_ok (pwl : Bool) {k : ℤ} (hk : -31 ≤ k) (junk : ℚ) {ρ X : ℚ} (hρ : 1 / 16384 ≤ ρ) (hX0 : 0 ≤ X)
    (hX : X ≤ 268435456) (hX2 : X ^ 2 ≤ (sqrFmt k).maxVal) (hXr : 2 * X ≤ (rootFmt k).maxVal) {q : ℚ} (h0 : ρ ^ 2 ≤ q)
    (h1 : q ≤ X ^ 2) : |q * iroot pwl k junk q ^ 2 - 1| ≤ dev pwl ρ X ∧ 0 ≤ iroot pwl k junk q := by
  have hWs : 1 ≤ (sqrFmt k).W := by simp only [sqrFmt]; omega
  have Fs : (sqrFmt k).F = 32 := by simp only [Fmt.F, sqrFmt]; omega
  have hq0 : 0 < q := lt_of_lt_of_le (pow_pos (by linarith) 2) h0
  have hs := unsigned_near (R := ℚ) (f := sqrFmt k) (x := q) hWs rfl hq0.le (by rw [Rat.cast_id]; exact h1.trans hX2)
  rw [Rat.cast_id, Fs] at hs
  exact irootOf_ok pwl hWs rfl hk junk hρ hX0 hX hXr (Fmt.rep_cvt (f := sqrFmt k) hWs q) hs h0 h1

/-- Coefficients rounded by up to `δ`. -/
theorem unit_core {c s p q : ℂ} {ε δ : ℝ} (hε : ε ≤ 1 / 2) (hδ0 : 0 ≤ δ) (hδ : δ ≤ 1 / 10) (hc : ‖c - p‖ ≤ δ) (hs : ‖s - q‖ ≤ δ)
    (h : |‖p‖ ^ 2 + ‖q‖ ^ 2 - 1| ≤ ε) : |‖c‖ ^ 2 + ‖s‖ ^ 2 - 1| ≤ ε + 5 * δ := by
  have h1 : ‖p‖ + ‖q‖ ≤ 7 / 4 := by
    refine le_of_sq_le_sq ?_ (by norm_num)
    have := (abs_le.1 h).2
    have := sq_nonneg (‖p‖ - ‖q‖)
    nlinarith
  have one : ∀ c p : ℂ, ‖c - p‖ ≤ δ → |‖c‖ ^ 2 - ‖p‖ ^ 2| ≤ δ * (2 * ‖p‖ + δ) := by
    intro c p hc
    have h2 := (abs_norm_sub_norm_le c p).trans hc
    have e : ‖c‖ ^ 2 - ‖p‖ ^ 2 = (‖c‖ - ‖p‖) * (‖c‖ + ‖p‖) := by ring
    have n1 := norm_nonneg c
    have n2 := norm_nonneg p
    rw [e, abs_mul, abs_of_nonneg (show 0 ≤ ‖c‖ + ‖p‖ by linarith)]
    have := (abs_le.1 h2).2
    exact mul_le_mul h2 (by linarith) (by linarith) hδ0
  have o1 := abs_le.1 (one c p hc)
  have o2 := abs_le.1 (one s q hs)
  have h3 := abs_le.1 h
  have h4 := mul_le_mul_of_nonneg_left h1 hδ0
  have h5 := mul_le_mul_of_nonneg_left hδ hδ0
  rw [abs_le]
  constructor <;> linarith [o1.1, o1.2, o2.1, o2.2, h3.1, h3.2]

/-- What a pair of rounded coefficients leaves of the element to be annihilated. -/
theorem annih_core {c s p q a b : ℂ} {δ X : ℝ} (hX : 0 ≤ X) (hc : ‖c - p‖ ≤ δ) (hs : ‖s - q‖ ≤ δ) (h0 : p * b + q * a = 0)
    (h : ‖b‖ ^ 2 + ‖a‖ ^ 2 ≤ X ^ 2) : ‖c * b + s * a‖ ≤ 2 * δ * X := by
  have e : c * b + s * a = (c - p) * b + (s - q) * a := by linear_combination h0
  have hδ : 0 ≤ δ := (norm_nonneg _).trans hc
  have hb : ‖b‖ ≤ X := le_of_sq_le_sq (by have := sq_nonneg ‖a‖; linarith) hX
  have ha : ‖a‖ ≤ X := le_of_sq_le_sq (by have := sq_nonneg ‖b‖; linarith) hX
  rw [e]
  have h1 := norm_add_le ((c - p) * b) ((s - q) * a)
  rw [norm_mul, norm_mul] at h1
  have h2 := mul_le_mul hc hb (norm_nonneg _) hδ
  have h3 := mul_le_mul hs ha (norm_nonneg _) hδ
  linarith

/-- What keeps the other element from being real and nonnegative. -/
theorem upper_core {c s a b : ℂ} {δ X r : ℝ} (hX : 0 ≤ X) (hr : 0 ≤ r) (hc : ‖c - a * r‖ ≤ δ) (hs : ‖s - -b * r‖ ≤ δ)
    (h : ‖b‖ ^ 2 + ‖a‖ ^ 2 ≤ X ^ 2) : Posi (2 * δ * X) (star c * a - star s * b) := by
  have hδ : 0 ≤ δ := (norm_nonneg _).trans hc
  have hb : ‖b‖ ≤ X := le_of_sq_le_sq (by have := sq_nonneg ‖a‖; linarith) hX
  have ha : ‖a‖ ≤ X := le_of_sq_le_sq (by have := sq_nonneg ‖b‖; linarith) hX
  have sr : star (r : ℂ) = r := Complex.conj_ofReal r
  have e : star c * a - star s * b - ((r * (‖a‖ ^ 2 + ‖b‖ ^ 2) : ℝ) : ℂ) = star (c - a * r) * a - star (s - -b * r) * b := by
    have h1 := Proof.QrdRound.nsq a
    have h2 := Proof.QrdRound.nsq b
    simp only [star_sub, star_mul', star_neg, sr]
    push_cast at h1 h2 ⊢
    linear_combination (r : ℂ) * h1 + r * h2
  have h1 := norm_sub_le (star (c - a * r) * a) (star (s - -b * r) * b)
  rw [norm_mul, norm_mul, norm_star, norm_star] at h1
  have h2 := mul_le_mul hc ha (norm_nonneg _) hδ
  have h3 := mul_le_mul hs hb (norm_nonneg _) hδ
  have h4 : Posi 0 (((r * (‖a‖ ^ 2 + ‖b‖ ^ 2) : ℝ) : ℂ)) := by
    refine ⟨by rw [Complex.ofReal_im, abs_zero], ?_⟩
    rw [Complex.ofReal_re, neg_zero]; positivity
  have := h4.near (d := 2 * δ * X) (x := star c * a - star s * b) (by rw [e]; linarith)
  rwa [zero_add] at this

/-- A rotated element fits. -/
theorem rot_core {c s x y : ℂ} {ε X m : ℝ} (hε : 0 ≤ ε) (hX : 0 ≤ X) (h : ‖c‖ ^ 2 + ‖s‖ ^ 2 ≤ 1 + ε) (hx : ‖x‖ ^ 2 + ‖y‖ ^ 2 ≤ X ^ 2)
    (hm : (1 + ε) * X ≤ m) : ‖c * x‖ + ‖s * y‖ ≤ m := by
  rw [norm_mul, norm_mul]
  refine le_trans (Proof.QrdRound.cs_two (show 0 ≤ 1 + ε by linarith) hX ?_ hx) hm
  have := mul_nonneg hε hε
  have e : (1 + ε) ^ 2 = 1 + 2 * ε + ε * ε := by ring
  linarith

theorem cs_max : csFmt.maxVal = 2 - 1 / 4294967296 := by norm_num [Fmt.maxVal, Fmt.val, Fmt.F, csFmt, maxRaw]

/-- Coefficients as they are stored. -/
def Coef (x : ℚ) : Prop := csFmt.Rep x ∧ |x| ≤ 3 / 2

theorem cs_near {x : ℚ} (h : |x| ≤ 5 / 4) : |csFmt.cvt x - x| ≤ 2 ^ (-32 : ℤ) ∧ Coef (csFmt.cvt x) := by
  have h1 : |csFmt.cvt x - x| ≤ 2 ^ (-32 : ℤ) := cvt_near (f := csFmt) (by decide) rfl (by rw [cs_max]; linarith)
  refine ⟨h1, Fmt.rep_cvt (f := csFmt) (by decide) x, ?_⟩
  have h2 : (2 : ℚ) ^ (-32 : ℤ) ≤ 1 / 4 := by norm_num
  have := abs_add_le (csFmt.cvt x - x) x
  rw [sub_add_cancel] at this
  have := h1.trans h2
  linarith

theorem cs_neg {x : ℚ} (h : Coef x) : csFmt.cvt (-x) = -x := by
  obtain ⟨⟨r, r0, r1, r2⟩, h1⟩ := h
  refine Fmt.cvt_rep (by decide) (by decide) ⟨-r, ?_, ?_, ?_⟩
  all_goals
    have e : x = r / 4294967296 := by rw [r2]; norm_num [Fmt.val, Fmt.F, csFmt]; ring
    obtain ⟨h2, h3⟩ := abs_le.1 h1
  · have : (r : ℚ) ≤ 6442450944 := by rw [e] at h3; linarith
    have : r ≤ 6442450944 := by exact_mod_cast this
    change -2 ^ (34 - 1) ≤ -r
    norm_num; omega
  · have : (-6442450944 : ℚ) ≤ r := by rw [e] at h2; linarith
    have : -6442450944 ≤ r := by exact_mod_cast this
    change -r ≤ 2 ^ (34 - 1) - 1
    norm_num; omega
  · rw [r2]; simp [Fmt.val]


/-- The types hold what the rotations produce: `X` bounds the magnitude of two elements of a column, `ρ` is the least magnitude
of a pair of pivots, `ε` the deviation of a rotation. -/
structure Sizes (imd out : Fmt) (pwl : Bool) (k : ℤ) (D X ρ ε δ : ℚ) : Prop where
  outW : 1 ≤ out.W
  outS : out.S = true
  imdW : 1 ≤ imd.W
  imdS : imd.S = true
  imdO : imd.O = .SAT
  imdF : imd.F = 32
  k0 : -31 ≤ k
  ρ0 : 1 / 16384 ≤ ρ
  X0 : 0 ≤ X
  X1 : X ≤ 268435456
  sqr : X ^ 2 ≤ (sqrFmt k).maxVal
  root : 2 * X ≤ (rootFmt k).maxVal
  one : 1 ≤ imd.maxVal
  inp : D ≤ imd.maxVal
  rot : (1 + ε) * X ≤ imd.maxVal
  outp : X ≤ out.maxVal
  dev0 : dev pwl ρ X ≤ 1 / 2
  dev : dev pwl ρ X + 5 * δ = ε

theorem dev_nonneg (pwl : Bool) {ρ X : ℚ} (hρ : 1 / 16384 ≤ ρ) (hX : 0 ≤ X) : 0 ≤ dev pwl ρ X := by
  have hρ0 : 0 < ρ := by linarith
  have h1 : (0 : ℚ) < 2 ^ (-32 : ℤ) := Fmt.z_pos _
  have h2 : 0 < 3 / ρ := by positivity
  have h3 : 0 < 2 / ρ ^ 2 := by positivity
  have h4 : 0 ≤ (2 : ℚ) ^ (-32 : ℤ) * (3 * X + 3 / ρ + 2 / ρ ^ 2) := mul_nonneg h1.le (by linarith)
  unfold dev
  split_ifs <;> linarith

theorem imd_one {imd : Fmt} (hW : 1 ≤ imd.W) (hS : imd.S = true) (hO : imd.O = .SAT) (hF : imd.F = 32) (h : 1 ≤ imd.maxVal) :
    imd.cvt (1 : ℚ) = 1 := by
  refine Fmt.cvt_rep hW (by rw [hO]; decide) ⟨4294967296, ?_, ?_, ?_⟩
  · exact le_trans (minRaw_nonpos _ _) (show (0 : ℤ) ≤ 4294967296 by norm_num)
  · have : imd.val 4294967296 ≤ imd.val (maxRaw imd.W imd.S) := by
      refine le_trans (le_of_eq ?_) h
      norm_num [Fmt.val, hF]
    exact Fmt.val_le.1 this
  · norm_num [Fmt.val, hF]

open Proof.CholFns

theorem norm_rv_sq (q : ℚ) : ‖rv q‖ ^ 2 = ((q * q : ℚ) : ℝ) := by
  rw [norm_rv, ← Rat.cast_pow, sq_abs, pow_two]

theorem rv_add (a b : ℚ) : rv a + rv b = rv (a + b) := by unfold rv; push_cast; rfl

theorem w_cast : (((2 : ℚ) ^ (-32 : ℤ) : ℚ) : ℝ) = 2 ^ (-32 : ℤ) := u_cast _

/-- A part of `a*i_root` is at most 5/4. -/
theorem part_le {x y q r e : ℚ} (he : e ≤ 1 / 2) (hq : x * x + y = q) (hy : 0 ≤ y) (h : |q * r ^ 2 - 1| ≤ e) : |x * r| ≤ 5 / 4 := by
  refine abs_le_of_sq_le_sq ?_ (by norm_num)
  have h1 := (abs_le.1 h).2
  have h2 := mul_nonneg hy (sq_nonneg r)
  have e : (x * r) ^ 2 = (x * x + y) * r ^ 2 - y * r ^ 2 := by ring
  rw [e, hq]
  norm_num
  linarith

theorem real_pe {imd out : Fmt} {pwl : Bool} {k : ℤ} (junk : ℚ) {D X ρ ε δ : ℚ} (hs : Sizes imd out pwl k D X ρ ε δ) {b a : ℚ}
    (h0 : (ρ : ℝ) ^ 2 ≤ ‖rv b‖ ^ 2 + ‖rv a‖ ^ 2) (h1 : ‖rv b‖ ^ 2 + ‖rv a‖ ^ 2 ≤ (X : ℝ) ^ 2) :
    ∃ r : ℚ, (realOps imd out pwl k junk).pe b a = (csFmt.cvt (a * r), csFmt.cvt (-b * r)) ∧
      |(b * b + a * a) * r ^ 2 - 1| ≤ dev pwl ρ X ∧ |a * r| ≤ 5 / 4 ∧ |-b * r| ≤ 5 / 4 ∧ 0 ≤ r := by
  rw [norm_rv_sq, norm_rv_sq, ← Rat.cast_add] at h0 h1
  have h0 : ρ ^ 2 ≤ b * b + a * a := by exact_mod_cast h0
  have h1 : b * b + a * a ≤ X ^ 2 := by exact_mod_cast h1
  obtain ⟨key, pos⟩ := iroot_ok pwl hs.k0 junk hs.ρ0 hs.X0 hs.X1 hs.sqr hs.root h0 h1
  refine ⟨_, rfl, key, part_le hs.dev0 (add_comm _ _) (mul_self_nonneg b) key, ?_, pos⟩
  rw [neg_mul, abs_neg]
  exact part_le hs.dev0 rfl (mul_self_nonneg a) key

theorem real_rot {imd out : Fmt} {pwl : Bool} {k : ℤ} {D X ρ ε δ : ℚ} (hs : Sizes imd out pwl k D X ρ ε δ) (hε : 0 ≤ ε) {x y c s : ℚ}
    (hs' : Coef s) (hcs : ‖rv c‖ ^ 2 + ‖rv s‖ ^ 2 ≤ 1 + (ε : ℝ)) (hx : ‖rv x‖ ^ 2 + ‖rv y‖ ^ 2 ≤ (X : ℝ) ^ 2) :
    ‖rv (imd.cvt (c * x + csFmt.cvt (-s) * y)) - (rv c * rv x - rv s * rv y)‖ ≤ 2 ^ (-32 : ℤ) ∧
    ‖rv (imd.cvt (c * y + s * x)) - (rv c * rv y + rv s * rv x)‖ ≤ 2 ^ (-32 : ℤ) := by
  have e0 : (0 : ℝ) ≤ ε := by exact_mod_cast hε
  have x0 : (0 : ℝ) ≤ X := by exact_mod_cast hs.X0
  have hm : (1 + (ε : ℝ)) * X ≤ (imd.maxVal : ℝ) := by
    have := (Rat.cast_le (K := ℝ)).2 hs.rot
    push_cast at this; exact this
  have f1 : ‖rv c * rv x - rv s * rv y‖ ≤ (imd.maxVal : ℝ) :=
    (norm_sub_le _ _).trans (rot_core e0 x0 hcs hx hm)
  have f2 : ‖rv c * rv y + rv s * rv x‖ ≤ (imd.maxVal : ℝ) :=
    (norm_add_le _ _).trans (rot_core e0 x0 hcs (by rw [add_comm]; exact hx) hm)
  rw [cs_neg hs']
  have e1 : rv c * rv x - rv s * rv y = rv (c * x + -s * y) := by rw [rv_mul, rv_mul, rv_sub, neg_mul, sub_eq_add_neg]
  have e2 : rv c * rv y + rv s * rv x = rv (c * y + s * x) := by rw [rv_mul, rv_mul, rv_add]
  rw [e1, norm_rv] at f1
  rw [e2, norm_rv] at f2
  rw [e1, e2, rv_sub, rv_sub, norm_rv, norm_rv]
  have g1 := cast_near hs.imdW hs.imdS f1
  have g2 := cast_near hs.imdW hs.imdS f2
  rw [hs.imdF] at g1 g2
  exact ⟨g1, g2⟩

theorem Sizes.ε0 {imd out : Fmt} {pwl : Bool} {k : ℤ} {D X ρ ε δ : ℚ} (hs : Sizes imd out pwl k D X ρ ε δ) (hδ : 0 ≤ δ) : 0 ≤ ε := by
  have := dev_nonneg pwl hs.ρ0 hs.X0
  have := hs.dev
  linarith

theorem real_acc {imd out : Fmt} {pwl : Bool} {k : ℤ} (junk : ℚ) {D X ρ ε : ℚ} (hs : Sizes imd out pwl k D X ρ ε (2 ^ (-32 : ℤ))) :
    Accurate (realOps imd out pwl k junk) rv rv rv rv Coef D X ρ (2 ^ (-32 : ℤ)) (2 ^ (-32 : ℤ)) (2 ^ (-out.F)) ε
      (2 * 2 ^ (-32 : ℤ) * X) where
  load b h := by
    rw [norm_rv] at h
    have := cast_near hs.imdW hs.imdS (h.trans (Rat.cast_le.2 hs.inp))
    rw [hs.imdF] at this
    simp only [realOps]
    rw [rv_sub, norm_rv]; exact this
  one := by simp only [realOps]; rw [imd_one hs.imdW hs.imdS hs.imdO hs.imdF hs.one]; simp [rv]
  zero := by simp only [realOps]; rw [Fmt.cvt_zero' hs.imdW]; simp [rv]
  okc b a h0 h1 := by
    obtain ⟨r, e, -, h3, h4, -⟩ := real_pe junk hs h0 h1
    rw [e]
    exact ⟨(cs_near h3).2, (cs_near h4).2⟩
  unit b a h0 h1 := by
    obtain ⟨r, e, h2, h3, h4, -⟩ := real_pe junk hs h0 h1
    rw [e]
    have n1 : ‖rv (csFmt.cvt (a * r)) - rv (a * r)‖ ≤ 2 ^ (-32 : ℤ) := by
      rw [rv_sub, norm_rv, ← w_cast]; exact Rat.cast_le.2 (cs_near h3).1
    have n2 : ‖rv (csFmt.cvt (-b * r)) - rv (-b * r)‖ ≤ 2 ^ (-32 : ℤ) := by
      rw [rv_sub, norm_rv, ← w_cast]; exact Rat.cast_le.2 (cs_near h4).1
    have d0 : ((dev pwl ρ X : ℚ) : ℝ) ≤ 1 / 2 := by
      have := (Rat.cast_le (K := ℝ)).2 hs.dev0
      push_cast at this; exact this
    have key := unit_core d0 (zpow_nonneg (by norm_num) _) (by norm_num) n1 n2 (by
      rw [norm_rv_sq, norm_rv_sq]
      have := (Rat.cast_le (K := ℝ)).2 h2
      rw [Rat.cast_abs] at this
      refine le_trans (le_of_eq ?_) this
      congr 1
      push_cast; ring)
    refine key.trans (le_of_eq ?_)
    rw [← hs.dev, Rat.cast_add, Rat.cast_mul, w_cast]
    norm_num
  annih b a h0 h1 := by
    obtain ⟨r, e, -, h3, h4, -⟩ := real_pe junk hs h0 h1
    rw [e]
    have n1 : ‖rv (csFmt.cvt (a * r)) - rv (a * r)‖ ≤ 2 ^ (-32 : ℤ) := by
      rw [rv_sub, norm_rv, ← w_cast]; exact Rat.cast_le.2 (cs_near h3).1
    have n2 : ‖rv (csFmt.cvt (-b * r)) - rv (-b * r)‖ ≤ 2 ^ (-32 : ℤ) := by
      rw [rv_sub, norm_rv, ← w_cast]; exact Rat.cast_le.2 (cs_near h4).1
    refine annih_core (by exact_mod_cast hs.X0) n1 n2 ?_ h1
    rw [rv_mul, rv_mul, rv_add]
    have : a * r * b + -b * r * a = 0 := by ring
    rw [this]; simp [rv]
  upper b a h0 h1 := by
    obtain ⟨r, e, -, h3, h4, r0⟩ := real_pe junk hs h0 h1
    rw [e]
    have n1 : ‖rv (csFmt.cvt (a * r)) - rv a * ((r : ℝ) : ℂ)‖ ≤ 2 ^ (-32 : ℤ) := by
      have : rv a * ((r : ℝ) : ℂ) = rv (a * r) := rv_mul a r
      rw [this, rv_sub, norm_rv, ← w_cast]; exact Rat.cast_le.2 (cs_near h3).1
    have n2 : ‖rv (csFmt.cvt (-b * r)) - -rv b * ((r : ℝ) : ℂ)‖ ≤ 2 ^ (-32 : ℤ) := by
      have : -rv b * ((r : ℝ) : ℂ) = rv (-b * r) := by unfold rv; push_cast; rfl
      rw [this, rv_sub, norm_rv, ← w_cast]; exact Rat.cast_le.2 (cs_near h4).1
    exact upper_core (by exact_mod_cast hs.X0) (by exact_mod_cast r0) n1 n2 h1
  rotR x y c s _ hs' hcs hx := by
    rw [star_rv, star_rv]; exact real_rot hs (hs.ε0 (Fmt.z_pos _).le) hs' hcs hx
  rotQ x y c s _ hs' hcs hx := by
    rw [star_rv, star_rv]; exact real_rot hs (hs.ε0 (Fmt.z_pos _).le) hs' hcs hx
  store x h := by
    rw [norm_rv] at h
    have := cast_near hs.outW hs.outS (h.trans (Rat.cast_le.2 hs.outp))
    simp only [realOps]
    rw [rv_sub, norm_rv]; exact this

open Spec.CholArith

theorem cv_mul (a b : ℚ × ℚ) : cv a * cv b = cv (cmul a b) := by
  apply Complex.ext <;> simp [cv, cmul]

theorem cv_add (a b : ℚ × ℚ) : cv a + cv b = cv (a.1 + b.1, a.2 + b.2) := by
  apply Complex.ext <;> simp [cv]

theorem star_cv (a : ℚ × ℚ) : star (cv a) = cv (a.1, -a.2) := by
  apply Complex.ext <;> simp [cv]

theorem neg_cv (a : ℚ × ℚ) : -cv a = cv (-a.1, -a.2) := by
  apply Complex.ext <;> simp [cv]

theorem cv_scale (a b r : ℚ) : cv (a * r, b * r) = cv (a, b) * ((r : ℝ) : ℂ) := by
  apply Complex.ext <;> simp [cv]

/-- Both parts are coefficients as they are stored. -/
def Coef2 (c : ℚ × ℚ) : Prop := Coef c.1 ∧ Coef c.2

theorem crow_near {imd : Fmt} (hW : 1 ≤ imd.W) (hS : imd.S = true) (hF : imd.F = 32) (c0 x c1 y : ℚ × ℚ)
    (h : ‖cv c0 * cv x + cv c1 * cv y‖ ≤ (imd.maxVal : ℝ)) :
    ‖cv (crow imd c0 x c1 y) - (cv c0 * cv x + cv c1 * cv y)‖ ≤ 2 * 2 ^ (-32 : ℤ) := by
  rw [cv_mul, cv_mul, cv_add] at h ⊢
  have g1 := cast_near hW hS ((re_cv _).trans h)
  have g2 := cast_near hW hS ((im_cv _).trans h)
  rw [hF] at g1 g2
  rw [cv_sub]
  refine (norm_cv_le _).trans ?_
  rw [two_mul]
  exact add_le_add g1 g2

theorem complex_pe {imd out : Fmt} {pwl : Bool} {k : ℤ} (junk : ℚ) {D X ρ ε δ : ℚ} (hs : Sizes imd out pwl k D X ρ ε δ)
    {b a : ℚ × ℚ} (h0 : (ρ : ℝ) ^ 2 ≤ ‖cv b‖ ^ 2 + ‖cv a‖ ^ 2) (h1 : ‖cv b‖ ^ 2 + ‖cv a‖ ^ 2 ≤ (X : ℝ) ^ 2) :
    ∃ r : ℚ, (complexOps imd out pwl k junk).pe b a =
        ((csFmt.cvt (a.1 * r), csFmt.cvt (a.2 * r)), (csFmt.cvt (-b.1 * r), csFmt.cvt (-b.2 * r))) ∧
      |((b.1 * b.1 + b.2 * b.2) + (a.1 * a.1 + a.2 * a.2)) * r ^ 2 - 1| ≤ dev pwl ρ X ∧
      (|a.1 * r| ≤ 5 / 4 ∧ |a.2 * r| ≤ 5 / 4) ∧ (|-b.1 * r| ≤ 5 / 4 ∧ |-b.2 * r| ≤ 5 / 4) ∧ 0 ≤ r := by
  rw [norm_cv_sq, norm_cv_sq, ← Rat.cast_add] at h0 h1
  have h0 : ρ ^ 2 ≤ (b.1 * b.1 + b.2 * b.2) + (a.1 * a.1 + a.2 * a.2) := by exact_mod_cast h0
  have h1 : (b.1 * b.1 + b.2 * b.2) + (a.1 * a.1 + a.2 * a.2) ≤ X ^ 2 := by exact_mod_cast h1
  obtain ⟨key, pos⟩ := iroot_ok pwl hs.k0 junk hs.ρ0 hs.X0 hs.X1 hs.sqr hs.root h0 h1
  have p1 := mul_self_nonneg b.1
  have p2 := mul_self_nonneg b.2
  have p3 := mul_self_nonneg a.1
  have p4 := mul_self_nonneg a.2
  refine ⟨_, rfl, key, ⟨?_, ?_⟩, ⟨?_, ?_⟩, pos⟩
  · exact part_le (y := b.1 * b.1 + b.2 * b.2 + a.2 * a.2) hs.dev0 (by ring) (by linarith) key
  · exact part_le (y := b.1 * b.1 + b.2 * b.2 + a.1 * a.1) hs.dev0 (by ring) (by linarith) key
  · rw [neg_mul, abs_neg]
    exact part_le (y := b.2 * b.2 + (a.1 * a.1 + a.2 * a.2)) hs.dev0 (by ring) (by linarith) key
  · rw [neg_mul, abs_neg]
    exact part_le (y := b.1 * b.1 + (a.1 * a.1 + a.2 * a.2)) hs.dev0 (by ring) (by linarith) key

theorem cs_near2 {x y : ℚ} (hx : |x| ≤ 5 / 4) (hy : |y| ≤ 5 / 4) :
    ‖cv (csFmt.cvt x, csFmt.cvt y) - cv (x, y)‖ ≤ 2 * 2 ^ (-32 : ℤ) := by
  rw [cv_sub]
  refine (norm_cv_le _).trans ?_
  rw [two_mul, ← w_cast]
  exact add_le_add (Rat.cast_le.2 (cs_near hx).1) (Rat.cast_le.2 (cs_near hy).1)

theorem cvt_near2 {f : Fmt} (hW : 1 ≤ f.W) (hS : f.S = true) {x : ℚ × ℚ} (h : ‖cv x‖ ≤ (f.maxVal : ℝ)) :
    ‖cv (f.cvt x.1, f.cvt x.2) - cv x‖ ≤ 2 * 2 ^ (-f.F) := by
  have g1 := cast_near hW hS ((re_cv _).trans h)
  have g2 := cast_near hW hS ((im_cv _).trans h)
  rw [cv_sub]
  refine (norm_cv_le _).trans ?_
  rw [two_mul]
  exact add_le_add g1 g2

theorem complex_rot {imd out : Fmt} {pwl : Bool} {k : ℤ} {D X ρ ε δ : ℚ} (hs : Sizes imd out pwl k D X ρ ε δ) (hε : 0 ≤ ε)
    {c s : ℂ} {x y : ℚ × ℚ} (hcs : ‖c‖ ^ 2 + ‖s‖ ^ 2 ≤ 1 + (ε : ℝ)) (hx : ‖cv x‖ ^ 2 + ‖cv y‖ ^ 2 ≤ (X : ℝ) ^ 2) {c0 c1 : ℚ × ℚ}
    (h0 : cv c0 = c) (h1 : cv c1 = s) :
    ‖cv (crow imd c0 x c1 y) - (c * cv x + s * cv y)‖ ≤ 2 * 2 ^ (-32 : ℤ) := by
  rw [← h0, ← h1]
  rw [← h0, ← h1] at hcs
  have hm : (1 + (ε : ℝ)) * X ≤ (imd.maxVal : ℝ) := by
    have := (Rat.cast_le (K := ℝ)).2 hs.rot
    push_cast at this; exact this
  exact crow_near hs.imdW hs.imdS hs.imdF c0 x c1 y ((norm_add_le _ _).trans
    (rot_core (by exact_mod_cast hε) (by exact_mod_cast hs.X0) hcs hx hm))

theorem complex_acc {imd out : Fmt} {pwl : Bool} {k : ℤ} (junk : ℚ) {D X ρ ε : ℚ} (hs : Sizes imd out pwl k D X ρ ε (2 * 2 ^ (-32 : ℤ))) :
    Accurate (complexOps imd out pwl k junk) cv cv cv cv Coef2 D X ρ (2 * 2 ^ (-32 : ℤ)) (2 * 2 ^ (-32 : ℤ)) (2 * 2 ^ (-out.F)) ε
      (2 * (2 * 2 ^ (-32 : ℤ)) * X) where
  load b h := by
    have := cvt_near2 hs.imdW hs.imdS (h.trans (Rat.cast_le.2 hs.inp))
    rw [hs.imdF] at this
    exact this
  one := by
    simp only [complexOps]
    rw [imd_one hs.imdW hs.imdS hs.imdO hs.imdF hs.one, Fmt.cvt_zero' hs.imdW]
    apply Complex.ext <;> simp [cv]
  zero := by
    simp only [complexOps]
    rw [Fmt.cvt_zero' hs.imdW]
    apply Complex.ext <;> simp [cv]
  okc b a h0 h1 := by
    obtain ⟨r, e, -, ⟨h3, h4⟩, ⟨h5, h6⟩, -⟩ := complex_pe junk hs h0 h1
    rw [e]
    exact ⟨⟨(cs_near h3).2, (cs_near h4).2⟩, (cs_near h5).2, (cs_near h6).2⟩
  unit b a h0 h1 := by
    obtain ⟨r, e, h2, ⟨h3, h4⟩, ⟨h5, h6⟩, -⟩ := complex_pe junk hs h0 h1
    rw [e]
    have d0 : ((dev pwl ρ X : ℚ) : ℝ) ≤ 1 / 2 := by
      have := (Rat.cast_le (K := ℝ)).2 hs.dev0
      push_cast at this; exact this
    have key := unit_core d0 (by norm_num) (by norm_num) (cs_near2 h3 h4) (cs_near2 h5 h6) (by
      rw [norm_cv_sq, norm_cv_sq]
      have := (Rat.cast_le (K := ℝ)).2 h2
      rw [Rat.cast_abs] at this
      refine le_trans (le_of_eq ?_) this
      congr 1
      push_cast; ring)
    refine key.trans (le_of_eq ?_)
    rw [← hs.dev, Rat.cast_add, Rat.cast_mul, Rat.cast_mul, w_cast]
    norm_num
  annih b a h0 h1 := by
    obtain ⟨r, e, -, ⟨h3, h4⟩, ⟨h5, h6⟩, -⟩ := complex_pe junk hs h0 h1
    rw [e]
    refine annih_core (by exact_mod_cast hs.X0) (cs_near2 h3 h4) (cs_near2 h5 h6) ?_ h1
    rw [cv_mul, cv_mul, cv_add]
    apply Complex.ext
    · simp only [cv, cmul, Complex.zero_re]
      norm_cast
      ring
    · simp only [cv, cmul, Complex.zero_im]
      norm_cast
      ring
  upper b a h0 h1 := by
    obtain ⟨r, e, -, ⟨h3, h4⟩, ⟨h5, h6⟩, r0⟩ := complex_pe junk hs h0 h1
    rw [e]
    have n1 := cs_near2 h3 h4
    have n2 := cs_near2 h5 h6
    rw [cv_scale] at n1
    rw [cv_scale (-b.1) (-b.2), show cv (-b.1, -b.2) = -cv b from (neg_cv b).symm] at n2
    exact upper_core (by exact_mod_cast hs.X0) (by exact_mod_cast r0) n1 n2 h1
  rotR x y c s hc hs' hcs hx := by
    have e0 := hs.ε0 (mul_nonneg (by norm_num) (Fmt.z_pos _).le)
    have k1 := complex_rot hs e0 (c := star (cv c)) (s := -star (cv s)) (by rw [norm_neg, norm_star, norm_star]; exact hcs) hx
      (c0 := cconj c) (c1 := cnegconj s) (by rw [star_cv]; unfold cconj; rw [cs_neg hc.2])
      (by rw [star_cv, neg_cv, neg_neg]; unfold cnegconj; rw [cs_neg hs'.1])
    have k2 := complex_rot hs e0 hcs (x := y) (y := x) (by rw [add_comm]; exact hx) rfl rfl
    rw [neg_mul, ← sub_eq_add_neg] at k1
    exact ⟨k1, k2⟩
  rotQ x y c s hc hs' hcs hx := by
    have e0 := hs.ε0 (mul_nonneg (by norm_num) (Fmt.z_pos _).le)
    have k1 := complex_rot hs e0 (c := cv c) (s := -cv s) (by rw [norm_neg]; exact hcs) hx
      (c0 := c) (c1 := cneg s) rfl (by rw [neg_cv]; unfold cneg; rw [cs_neg hs'.1, cs_neg hs'.2])
    have k2 := complex_rot hs e0 (c := star (cv c)) (s := star (cv s)) (x := y) (y := x) (by rw [norm_star, norm_star]; exact hcs)
      (by rw [add_comm]; exact hx) (c0 := cconj c) (c1 := cconj s) (by rw [star_cv]; unfold cconj; rw [cs_neg hc.2])
      (by rw [star_cv]; unfold cconj; rw [cs_neg hs'.2])
    rw [neg_mul, ← sub_eq_add_neg] at k1
    exact ⟨k1, k2⟩
  store x h := cvt_near2 hs.outW hs.outS (h.trans (Rat.cast_le.2 hs.outp))

end Proof.QrdFixed
