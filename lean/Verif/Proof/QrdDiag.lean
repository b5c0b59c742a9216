import Verif.Proof.QrdFixed
import Verif.Proof.SqrtPwl

/-! # The stage of ac_qrd for `real_diag` meets the error bounds -/

namespace Proof.QrdDiag
open Ac Model.QrdFixed Spec.QrdArith Spec.CholArith Proof.CholRound Proof.CholFns Proof.QrdFixed

/-- Relative error of the PWL root. -/
def rel (pwl : Bool) : ℚ := if pwl then 1 / 440 else 0

theorem magOf_ok (pwl : Bool) {f : Fmt} (hWs : 1 ≤ f.W) (hS : f.S = false) {k : ℤ} (hk : -31 ≤ k) (junk : ℚ) {X s : ℚ}
    (hX0 : 0 ≤ X) (hXr : 2 * X ≤ (rootFmt k).maxVal) (hrep : f.Rep s) (h0 : 0 < s) (h1 : s ≤ X ^ 2) :
    |((magOf pwl f k junk s : ℚ) : ℝ) - Real.sqrt s| ≤ rel pwl * Real.sqrt s + 2 ^ (-32 : ℤ) ∧
    (rootFmt k).Rep (magOf pwl f k junk s) := by
  have hWr : 1 ≤ (rootFmt k).W := by simp only [rootFmt]; omega
  have Fr : (rootFmt k).F = 32 := by simp only [Fmt.F, rootFmt]; omega
  have hsX : Real.sqrt s ≤ X := by
    rw [Real.sqrt_le_left (by exact_mod_cast hX0)]
    exact_mod_cast h1
  have cXr : 2 * (X : ℝ) ≤ (((rootFmt k).maxVal : ℚ) : ℝ) := by
    have := (Rat.cast_le (K := ℝ)).2 hXr
    push_cast at this; exact this
  have s0 := Real.sqrt_nonneg (s : ℝ)
  cases pwl
  · obtain ⟨y, y0, y1, y2⟩ := hrep
    have e1 : f.raw s = y := by rw [y2, Fmt.raw_val]
    have hx0 : 0 ≤ f.raw s := by
      rw [e1]
      have : minRaw f.W f.S = 0 := by rw [hS]; rfl
      omega
    have hx1 : f.raw s < 2 ^ f.W := by
      rw [e1]
      have : maxRaw f.W f.S = 2 ^ f.W - 1 := by rw [hS]; rfl
      omega
    have e2 := Proof.SqrtFixed.sqrtFixed_eq (fx := f) (fo := rootFmt k) hWs hWr hS rfl hx0 hx1
    rw [show f.val (f.raw s) = s by rw [e1, y2]] at e2
    have e3 : magOf false f k junk s = Model.SqrtFixed.sqrtFixed f (rootFmt k) (f.raw s) := rfl
    rw [e3, e2]
    refine ⟨?_, Fmt.rep_cvt (f := rootFmt k) hWr _⟩
    have near := unsigned_near (f := rootFmt k) (x := Real.sqrt (s : ℚ)) hWr rfl (Real.sqrt_nonneg _) (by linarith)
    rw [Fr] at near
    have : ((rel false : ℚ) : ℝ) = 0 := by simp [rel]
    rw [this, zero_mul, zero_add]
    exact near
  · have r1 := Proof.SqrtPwl.sqrt_eq .TRN true (f := f) (out := rootFmt k) hWs hS hWr rfl hrep h0 (Or.inl rfl)
    have r2 := Proof.SqrtPwl.core_err (q := .TRN) (cn := true) (f := f) hWs hS hrep h0 (Or.inl rfl)
    have r3 : magOf true f k junk s = (rootFmt k).cvt (Proof.SqrtPwl.core .TRN true f s) := by
      unfold magOf
      rw [if_pos rfl, r1]; rfl
    rw [r3]
    refine ⟨?_, Fmt.rep_cvt (f := rootFmt k) hWr _⟩
    generalize Proof.SqrtPwl.core .TRN true f s = g at *
    obtain ⟨r4, g0⟩ := r2
    have g0' : (0 : ℝ) < g := by exact_mod_cast g0
    have r5 : |(g : ℝ) ^ 2 - s| ≤ s / 440 := by
      have := (Rat.cast_le (K := ℝ)).2 r4
      push_cast at this; exact this
    have sp : (0 : ℝ) < Real.sqrt s := Real.sqrt_pos.2 (by exact_mod_cast h0)
    have sq : Real.sqrt (s : ℝ) * Real.sqrt s = s := Real.mul_self_sqrt (by exact_mod_cast h0.le)
    have hrel : ((rel true : ℚ) : ℝ) = 1 / 440 := by norm_num [rel]
    have r6 : |(g : ℝ) - Real.sqrt s| ≤ 1 / 440 * Real.sqrt s := by
      generalize Real.sqrt (s : ℝ) = t at *
      rw [← sq] at r5
      have e : (g : ℝ) ^ 2 - t * t = (g - t) * (g + t) := by ring
      rw [e, abs_mul, abs_of_pos (show 0 < (g : ℝ) + t by linarith)] at r5
      have h2 := mul_le_mul_of_nonneg_left (show t ≤ g + t by linarith) (abs_nonneg ((g : ℝ) - t))
      have h3 : |(g : ℝ) - t| * t ≤ 1 / 440 * t * t := by linarith
      exact le_of_mul_le_mul_right h3 sp
    have near := unsigned_near (R := ℚ) (f := rootFmt k) (x := g) hWr rfl g0.le (by
      rw [Rat.cast_id]
      apply (Rat.cast_le (K := ℝ)).1
      have := (abs_le.1 r6).2
      linarith)
    rw [Fr, Rat.cast_id] at near
    have near : |(((rootFmt k).cvt g : ℚ) : ℝ) - g| ≤ 2 ^ (-32 : ℤ) := by
      have := (Rat.cast_le (K := ℝ)).2 near
      rw [Rat.cast_abs, Rat.cast_sub, w_cast] at this; exact this
    rw [hrel]
    have := abs_add_le ((((rootFmt k).cvt g : ℚ) : ℝ) - g) (g - Real.sqrt s)
    rw [sub_add_sub_cancel] at this
    refine this.trans ?_
    rw [add_comm]
    exact add_le_add r6 near

/-- The product of the root and the inverse root. -/
theorem prod_core {q i m d τ w σ : ℝ} (hσ : 0 < σ) (hq : σ ^ 2 ≤ q) (hi0 : 0 ≤ i) (hd : d ≤ 1 / 2) (h : |q * i ^ 2 - 1| ≤ d)
    (hτ : 0 ≤ τ) (hw : 0 ≤ w) (hm : |m - Real.sqrt q| ≤ τ * Real.sqrt q + w) : |i * m - 1| ≤ d + 3 / 2 * (τ + w / σ) := by
  have hq0 : 0 ≤ q := le_trans (by positivity) hq
  have hs := Real.mul_self_sqrt hq0
  have s0 : σ ≤ Real.sqrt q := Real.le_sqrt_of_sq_le hq
  generalize Real.sqrt q = t at *
  have t0 : 0 < t := by linarith
  have it0 : 0 ≤ i * t := by positivity
  have h1 : |i * t - 1| ≤ d := by
    rw [← hs] at h
    have e : t * t * i ^ 2 - 1 = (i * t - 1) * (i * t + 1) := by ring
    rw [e, abs_mul, abs_of_pos (show 0 < i * t + 1 by linarith)] at h
    have := mul_le_mul_of_nonneg_left (show 1 ≤ i * t + 1 by linarith) (abs_nonneg (i * t - 1))
    linarith
  have h2 : i * t ≤ 3 / 2 := by have := (abs_le.1 h1).2; linarith
  have h3 : i ≤ 3 / 2 * (1 / σ) := by
    rw [mul_one_div, le_div_iff₀ hσ]
    have := mul_le_mul_of_nonneg_left s0 hi0
    linarith
  have h4 := mul_le_mul_of_nonneg_left hm hi0
  rw [← abs_of_nonneg hi0, ← abs_mul, abs_of_nonneg hi0] at h4
  have h5 := mul_le_mul_of_nonneg_left h2 hτ
  have h6 := mul_le_mul_of_nonneg_left h3 hw
  have e : i * m - 1 = i * (m - t) + (i * t - 1) := by ring
  rw [e]
  have h7 := abs_add_le (i * (m - t)) (i * t - 1)
  have e2 : w * (3 / 2 * (1 / σ)) = 3 / 2 * (w / σ) := by ring
  rw [e2] at h6
  have e3 : i * (τ * t + w) = τ * (i * t) + w * i := by ring
  rw [e3] at h4
  linarith

/-- The types hold what the stage produces; `σ` is the least magnitude of the bottom right element. -/
structure DSizes (imd out : Fmt) (pwl : Bool) (X σ : ℚ) : Prop where
  σ0 : 1 / 16384 ≤ σ
  dev0 : dev pwl σ X ≤ 1 / 2
  mag : (1 + rel pwl) * X + 2 ^ (-32 : ℤ) ≤ imd.maxVal
  omag : (1 + rel pwl) * X + 2 ^ (-32 : ℤ) ≤ out.maxVal
  outp : (1 + (dev pwl σ X + 5 * (2 * 2 ^ (-32 : ℤ)))) * X ≤ out.maxVal

/-- Error of the product of the coefficient and the new element. -/
def polarErr (pwl : Bool) (X σ : ℚ) : ℚ :=
  X * (dev pwl σ X + 3 / 2 * (rel pwl + 2 ^ (-32 : ℤ) / σ)) + 2 * 2 ^ (-32 : ℤ) * ((1 + rel pwl) * X + 2 ^ (-32 : ℤ))

theorem rep_sqr {imd : Fmt} {x y : ℚ} (hW : 1 ≤ imd.W) (hS : imd.S = true) (hx : imd.Rep x) (hy : imd.Rep y) :
    (magFmt imd).Rep (x * x + y * y) := by
  obtain ⟨r, r0, r1, r2⟩ := hx
  obtain ⟨t, t0, t1, t2⟩ := hy
  have hF : (magFmt imd).F = imd.F + imd.F := by simp only [Fmt.F, magFmt]; push_cast; ring
  have sq : ∀ n : ℤ, minRaw imd.W imd.S ≤ n → n ≤ maxRaw imd.W imd.S → n * n ≤ 2 ^ (2 * (imd.W - 1)) := by
    intro n h0 h1
    rw [hS] at h0 h1
    simp only [minRaw, maxRaw, if_true] at h0 h1
    have : |n| ≤ 2 ^ (imd.W - 1) := abs_le.2 ⟨by omega, by omega⟩
    rw [← abs_mul_abs_self, two_mul, pow_add]
    exact mul_le_mul this this (abs_nonneg _) (by positivity)
  refine ⟨r * r + t * t, ?_, ?_, ?_⟩
  · have := mul_self_nonneg r
    have := mul_self_nonneg t
    show (0 : ℤ) ≤ _
    omega
  · have h1 := sq r r0 r1
    have h2 := sq t t0 t1
    show _ ≤ (2 : ℤ) ^ (2 * imd.W) - 1
    have e : (2 : ℤ) ^ (2 * imd.W) = 4 * 2 ^ (2 * (imd.W - 1)) := by
      rw [show 2 * imd.W = 2 + 2 * (imd.W - 1) by omega, pow_add]; norm_num
    have : (0 : ℤ) < 2 ^ (2 * (imd.W - 1)) := by positivity
    rw [e]
    omega
  · rw [r2, t2]
    unfold Fmt.val
    rw [hF, neg_add, zpow_add₀ (by norm_num)]
    push_cast
    ring

theorem cvt_nonneg {f : Fmt} (hW : 1 ≤ f.W) {x : ℚ} (h0 : 0 ≤ x) (h1 : x ≤ f.maxVal) : 0 ≤ f.cvt x := by
  have hp : (0 : ℚ) < 2 ^ f.F := Fmt.z_pos _
  have q0 : 0 ≤ quant f.Q (x * 2 ^ f.F) :=
    le_trans (Int.floor_nonneg.2 (mul_nonneg h0 hp.le)) (floor_le_quant _ _)
  have q1 : quant f.Q (x * 2 ^ f.F) ≤ maxRaw f.W f.S := by
    have h2 := mul_le_mul_of_nonneg_right h1 hp.le
    have e : f.maxVal * 2 ^ f.F = maxRaw f.W f.S := Fmt.val_mul_pow f _
    rw [e] at h2
    exact quant_le h2
  have e : f.cvt x = f.val (quant f.Q (x * 2 ^ f.F)) := by
    unfold Fmt.cvt Fmt.cvtRaw
    rw [ovf_of_range hW ((loRaw_nonpos _ _ _).trans q0) q1]
  rw [e]
  have := Fmt.val_le (f := f).2 q0
  simpa [Fmt.val] using this

/-- What the stage computes from an element of A1. -/
theorem diag_ok {imd out : Fmt} {pwl : Bool} {k : ℤ} (junk : ℚ) {D X ρ ε δ σ : ℚ} (hs : Sizes imd out pwl k D X ρ ε δ)
    (hd : DSizes imd out pwl X σ) (b : ℚ × ℚ) (hb : imd.Rep b.1 ∧ imd.Rep b.2) (h0 : (σ : ℝ) ≤ ‖cv b‖) (h1 : ‖cv b‖ ≤ X) :
    ∃ m i : ℚ, (complexDiag imd out pwl k junk).diag b = ((m, 0), (phaseFmt.cvt (b.1 * i), phaseFmt.cvt (b.2 * i))) ∧
      0 ≤ m ∧ m ≤ (1 + rel pwl) * X + 2 ^ (-32 : ℤ) ∧ |(b.1 * b.1 + b.2 * b.2) * i ^ 2 - 1| ≤ dev pwl σ X ∧
      |b.1 * i| ≤ 5 / 4 ∧ |b.2 * i| ≤ 5 / 4 ∧ |(i : ℝ) * m - 1| ≤ dev pwl σ X + 3 / 2 * (rel pwl + 2 ^ (-32 : ℤ) / σ) := by
  have hσ0 : 0 < σ := lt_of_lt_of_le (by norm_num) hd.σ0
  have cσ0 : (0 : ℝ) < σ := by exact_mod_cast hσ0
  have hWr : 1 ≤ (rootFmt k).W := by have := hs.k0; simp only [rootFmt]; omega
  have Fr : (rootFmt k).F = 32 := by have := hs.k0; simp only [Fmt.F, rootFmt]; omega
  have c1 : (brFmt imd).cvt b.1 = b.1 := by
    refine Fmt.cvt_rep (f := brFmt imd) hs.imdW (by simp [brFmt]) ?_
    obtain ⟨r, r0, r1, r2⟩ := hb.1
    rw [hs.imdS] at r0 r1
    exact ⟨r, r0, r1, r2⟩
  have c2 : (brFmt imd).cvt b.2 = b.2 := by
    refine Fmt.cvt_rep (f := brFmt imd) hs.imdW (by simp [brFmt]) ?_
    obtain ⟨r, r0, r1, r2⟩ := hb.2
    rw [hs.imdS] at r0 r1
    exact ⟨r, r0, r1, r2⟩
  have hrep := rep_sqr hs.imdW hs.imdS hb.1 hb.2
  have g0 : (σ : ℝ) ^ 2 ≤ ‖cv b‖ ^ 2 := pow_le_pow_left₀ cσ0.le h0 2
  have g1 : ‖cv b‖ ^ 2 ≤ (X : ℝ) ^ 2 := pow_le_pow_left₀ (norm_nonneg _) h1 2
  rw [norm_cv_sq] at g0 g1
  have g0' : σ ^ 2 ≤ b.1 * b.1 + b.2 * b.2 := by exact_mod_cast g0
  have g1' : b.1 * b.1 + b.2 * b.2 ≤ X ^ 2 := by exact_mod_cast g1
  have hWm : 1 ≤ (magFmt imd).W := by have := hs.imdW; simp only [magFmt]; omega
  have sp : 0 < b.1 * b.1 + b.2 * b.2 := lt_of_lt_of_le (pow_pos hσ0 2) g0'
  obtain ⟨i1, i2⟩ := irootOf_ok pwl hWm rfl hs.k0 junk hd.σ0 hs.X0 hs.X1 hs.root hrep (by
    rw [sub_self, abs_zero]; exact (Fmt.z_pos _).le) g0' g1'
  obtain ⟨m1, m2⟩ := magOf_ok pwl hWm rfl hs.k0 junk hs.X0 hs.root hrep sp g1'
  have hdef : (complexDiag imd out pwl k junk).diag b =
      ((imd.cvt (magOf pwl (magFmt imd) k junk (b.1 * b.1 + b.2 * b.2)), imd.cvt (0 : ℚ)),
        (phaseFmt.cvt (b.1 * irootOf pwl (magFmt imd) k junk (b.1 * b.1 + b.2 * b.2)),
          phaseFmt.cvt (b.2 * irootOf pwl (magFmt imd) k junk (b.1 * b.1 + b.2 * b.2)))) := by
    simp only [complexDiag, c1, c2]
  generalize magOf pwl (magFmt imd) k junk (b.1 * b.1 + b.2 * b.2) = m at *
  generalize irootOf pwl (magFmt imd) k junk (b.1 * b.1 + b.2 * b.2) = i at *
  have rel0 : 0 ≤ rel pwl := by unfold rel; split_ifs <;> norm_num
  have rel0' : (0 : ℝ) ≤ rel pwl := by exact_mod_cast rel0
  have hw0 : (0 : ℝ) < 2 ^ (-32 : ℤ) := by norm_num
  obtain ⟨r, r0, r1, r2⟩ := m2
  have r0 : 0 ≤ r := r0
  have m0 : 0 ≤ m := by
    rw [r2]
    have := Fmt.val_le (f := rootFmt k).2 r0
    simpa [Fmt.val] using this
  have mX : m ≤ (1 + rel pwl) * X + 2 ^ (-32 : ℤ) := by
    apply (Rat.cast_le (K := ℝ)).1
    rw [Rat.cast_add, Rat.cast_mul, w_cast, Rat.cast_add, Rat.cast_one]
    have hsX : Real.sqrt ((b.1 * b.1 + b.2 * b.2 : ℚ) : ℝ) ≤ X := by
      rw [Real.sqrt_le_left (by exact_mod_cast hs.X0)]; exact g1
    have h2 := (abs_le.1 m1).2
    have h3 := mul_le_mul_of_nonneg_left hsX rel0'
    linarith
  have mi : imd.cvt m = m := by
    refine Fmt.cvt_rep hs.imdW (by rw [hs.imdO]; decide) ⟨r, (minRaw_nonpos _ _).trans r0, ?_, ?_⟩
    · have : imd.val r ≤ imd.val (maxRaw imd.W imd.S) := by
        have e : imd.val r = m := by rw [r2]; unfold Fmt.val; rw [hs.imdF, Fr]
        rw [e]
        exact mX.trans hd.mag
      exact Fmt.val_le.1 this
    · rw [r2]; unfold Fmt.val; rw [hs.imdF, Fr]
  refine ⟨m, i, ?_, m0, mX, i1, ?_, ?_, ?_⟩
  · rw [hdef, mi, Fmt.cvt_zero' hs.imdW]
  · exact part_le hd.dev0 rfl (mul_self_nonneg b.2) i1
  · exact part_le hd.dev0 (add_comm _ _) (mul_self_nonneg b.1) i1
  · have d0 : ((dev pwl σ X : ℚ) : ℝ) ≤ 1 / 2 := by
      have := (Rat.cast_le (K := ℝ)).2 hd.dev0
      push_cast at this; exact this
    refine prod_core cσ0 g0 (by exact_mod_cast i2) d0 ?_ rel0' hw0.le m1
    have := (Rat.cast_le (K := ℝ)).2 i1
    rw [Rat.cast_abs, Rat.cast_sub, Rat.cast_mul, Rat.cast_pow, Rat.cast_one] at this
    exact this

theorem phase_near2 {x y : ℚ} (hx : |x| ≤ 5 / 4) (hy : |y| ≤ 5 / 4) :
    ‖cv (phaseFmt.cvt x, phaseFmt.cvt y) - cv (x, y)‖ ≤ 2 * 2 ^ (-32 : ℤ) := by
  have hm : phaseFmt.maxVal = 2 - 1 / 4294967296 := by norm_num [Fmt.maxVal, Fmt.val, Fmt.F, phaseFmt, maxRaw]
  have one : ∀ z : ℚ, |z| ≤ 5 / 4 → |phaseFmt.cvt z - z| ≤ 2 ^ (-32 : ℤ) := fun z hz =>
    cvt_near (f := phaseFmt) (by decide) rfl (by rw [hm]; linarith)
  rw [cv_sub]
  refine (norm_cv_le _).trans ?_
  rw [two_mul, ← w_cast]
  exact add_le_add (Rat.cast_le.2 (one x hx)) (Rat.cast_le.2 (one y hy))

/-- Both parts are numbers of the intermediate type. -/
def Rep2 (f : Fmt) (x : ℚ × ℚ) : Prop := f.Rep x.1 ∧ f.Rep x.2

theorem rep2_cvt {f : Fmt} (hW : 1 ≤ f.W) (x y : ℚ) : Rep2 f (f.cvt x, f.cvt y) := ⟨Fmt.rep_cvt hW x, Fmt.rep_cvt hW y⟩

theorem diag_acc {imd out : Fmt} {pwl : Bool} {k : ℤ} (junk : ℚ) {D X ρ ε δ σ : ℚ} (hs : Sizes imd out pwl k D X ρ ε δ)
    (hd : DSizes imd out pwl X σ) :
    DiagAccurate (complexOps imd out pwl k junk) (complexDiag imd out pwl k junk) cv cv cv (Rep2 imd) X σ
      (((1 + rel pwl) * X + 2 ^ (-32 : ℤ) : ℚ) : ℝ) (2 * 2 ^ (-out.F)) ((dev pwl σ X + 5 * (2 * 2 ^ (-32 : ℤ)) : ℚ) : ℝ)
      (polarErr pwl X σ : ℚ) where
  load b := rep2_cvt hs.imdW _ _
  one := rep2_cvt hs.imdW _ _
  zero := rep2_cvt hs.imdW _ _
  rotR x y c s := ⟨rep2_cvt hs.imdW _ _, rep2_cvt hs.imdW _ _⟩
  rotQ x y c s := ⟨rep2_cvt hs.imdW _ _, rep2_cvt hs.imdW _ _⟩
  unit b hb h0 h1 := by
    obtain ⟨m, i, e, -, -, h2, h3, h4, -⟩ := diag_ok junk hs hd b hb h0 h1
    rw [e]
    have d0 : ((dev pwl σ X : ℚ) : ℝ) ≤ 1 / 2 := by
      have := (Rat.cast_le (K := ℝ)).2 hd.dev0
      push_cast at this; exact this
    have key := unit_core (s := 0) (q := 0) d0 (by norm_num) (by norm_num) (phase_near2 h3 h4) (by norm_num) (by
      rw [norm_cv_sq, norm_zero]
      have := (Rat.cast_le (K := ℝ)).2 h2
      rw [Rat.cast_abs] at this
      refine le_trans (le_of_eq ?_) this
      congr 1
      push_cast; ring)
    rw [norm_zero] at key
    refine le_trans (le_of_eq ?_) (key.trans (le_of_eq ?_))
    · congr 1; ring
    · push_cast; rfl
  polar b hb h0 h1 := by
    obtain ⟨m, i, e, m0, m1, -, h3, h4, h5⟩ := diag_ok junk hs hd b hb h0 h1
    rw [e]
    have n1 := phase_near2 h3 h4
    have e1 : cv (m, 0) = ((m : ℝ) : ℂ) := by apply Complex.ext <;> simp [cv]
    rw [cv_scale] at n1
    simp only []
    rw [e1]
    generalize cv (phaseFmt.cvt (b.1 * i), phaseFmt.cvt (b.2 * i)) = p at *
    have e2 : cv b - p * ((m : ℝ) : ℂ) = -(cv b * (((i : ℝ) * m - 1 : ℝ) : ℂ)) + -((p - cv (b.1, b.2) * ((i : ℝ) : ℂ)) * ((m : ℝ) : ℂ)) := by
      push_cast; ring
    have cm0 : (0 : ℝ) ≤ m := by exact_mod_cast m0
    have cm1 : (m : ℝ) ≤ (1 + rel pwl) * X + 2 ^ (-32 : ℤ) := by
      have := (Rat.cast_le (K := ℝ)).2 m1
      rw [Rat.cast_add, Rat.cast_mul, w_cast, Rat.cast_add, Rat.cast_one] at this
      exact this
    have h6 := norm_add_le (-(cv b * (((i : ℝ) * m - 1 : ℝ) : ℂ))) (-((p - cv (b.1, b.2) * ((i : ℝ) : ℂ)) * ((m : ℝ) : ℂ)))
    rw [norm_neg, norm_neg, norm_mul, norm_mul, Complex.norm_real, Complex.norm_real, Real.norm_eq_abs, Real.norm_eq_abs,
      abs_of_nonneg cm0] at h6
    have h7 := mul_le_mul h1 h5 (abs_nonneg _) (by exact_mod_cast hs.X0)
    have h8 := mul_le_mul n1 cm1 cm0 (by norm_num)
    rw [e2]
    refine h6.trans ((add_le_add h7 h8).trans (le_of_eq ?_))
    unfold polarErr
    push_cast
    rfl
  size b hb h0 h1 := by
    obtain ⟨m, i, e, m0, m1, -⟩ := diag_ok junk hs hd b hb h0 h1
    rw [e]
    have e1 : cv (m, 0) = ((m : ℝ) : ℂ) := by apply Complex.ext <;> simp [cv]
    simp only []
    rw [e1, Complex.norm_real, Real.norm_eq_abs, abs_of_nonneg (by exact_mod_cast m0)]
    exact Rat.cast_le.2 m1
  store b hb h0 h1 := by
    obtain ⟨m, i, e, m0, m1, -⟩ := diag_ok junk hs hd b hb h0 h1
    rw [e]
    refine cvt_near2 (x := (m, 0)) hs.outW hs.outS ?_
    have e1 : cv (m, 0) = ((m : ℝ) : ℂ) := by apply Complex.ext <;> simp [cv]
    rw [e1, Complex.norm_real, Real.norm_eq_abs, abs_of_nonneg (by exact_mod_cast m0)]
    exact Rat.cast_le.2 (m1.trans hd.omag)
  real b hb h0 h1 := by
    obtain ⟨m, i, e, m0, m1, -⟩ := diag_ok junk hs hd b hb h0 h1
    rw [e]
    have h2 := cvt_nonneg hs.outW m0 (m1.trans hd.omag)
    simp only [complexOps]
    rw [Fmt.cvt_zero' hs.outW]
    refine ⟨by simp [cv], ?_⟩
    simp only [cv]
    exact_mod_cast h2
  storeMul x c hx hc := by
    have e : cv x * cv c = cv (cmul x c) := cv_mul x c
    rw [e]
    refine cvt_near2 (x := cmul x c) hs.outW hs.outS ?_
    rw [← e, norm_mul]
    have dn := dev_nonneg pwl hd.σ0 hs.X0
    have hw0 : (0 : ℚ) < 2 ^ (-32 : ℤ) := Fmt.z_pos _
    have δ0 : 0 ≤ dev pwl σ X + 5 * (2 * 2 ^ (-32 : ℤ)) := by linarith
    have hm := (Rat.cast_le (K := ℝ)).2 hd.outp
    rw [Rat.cast_mul, Rat.cast_add, Rat.cast_one] at hm
    generalize dev pwl σ X + 5 * (2 * 2 ^ (-32 : ℤ)) = δ at *
    have cδ : (0 : ℝ) ≤ δ := by exact_mod_cast δ0
    have p1 : ‖cv c‖ ≤ 1 + δ := by
      refine le_of_sq_le_sq ?_ (by linarith)
      have := (abs_le.1 hc).2
      have := mul_nonneg cδ cδ
      have e : (1 + (δ : ℝ)) ^ 2 = 1 + 2 * δ + δ * δ := by ring
      linarith
    have := mul_le_mul p1 hx (norm_nonneg _) (by linarith)
    linarith

end Proof.QrdDiag
