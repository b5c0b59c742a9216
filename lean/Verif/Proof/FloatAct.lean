import Verif.Proof.FloatTrig
import Verif.Proof.FloatCvt
import Verif.Proof.SigmoidErr
import Verif.Proof.TanhErr
import Verif.Props.Tan
import Mathlib.Analysis.SpecialFunctions.Trigonometric.DerivHyp
import Mathlib.Analysis.SpecialFunctions.Trigonometric.ArctanDeriv

/-! # Lemmas for C66 -/

namespace Proof.FloatAct
open Ac Model.Float Model.FloatTrig Spec

/-- Rounding to nearest, saturating. -/
theorem sat_cases {g : Fmt} (hQ : g.Q = .RND) (hO : g.O = .SAT) (x : ℚ) : |g.cvt x - x| ≤ 2 ^ (-g.F) / 2 ∨
    (g.maxVal ≤ x ∧ g.cvt x = g.maxVal) ∨ (x ≤ g.minVal ∧ g.cvt x = g.minVal) := by
  have hz := Fmt.z_pos (-g.F)
  have e3 : x = x * 2 ^ g.F * 2 ^ (-g.F) := by rw [mul_assoc, Fmt.z_add]; simp
  have hr := Proof.Sincos.rnd_err (x * 2 ^ g.F)
  obtain ⟨r0, r1⟩ := abs_le.1 hr
  have e : g.cvt x = g.val (if maxRaw g.W g.S < quant .RND (x * 2 ^ g.F) then maxRaw g.W g.S
      else if quant .RND (x * 2 ^ g.F) < minRaw g.W g.S then minRaw g.W g.S else quant .RND (x * 2 ^ g.F)) := by
    unfold Fmt.cvt Fmt.cvtRaw; rw [hQ, hO]; rfl
  rw [e]
  split_ifs with h1 h2
  · refine Or.inr (Or.inl ⟨?_, rfl⟩)
    have h : ((maxRaw g.W g.S + 1 : ℤ) : ℚ) ≤ quant .RND (x * 2 ^ g.F) := by exact_mod_cast h1
    push_cast at h
    have := mul_le_mul_of_nonneg_right (show ((maxRaw g.W g.S : ℤ) : ℚ) ≤ x * 2 ^ g.F by linarith) hz.le
    rw [← e3] at this
    exact this
  · refine Or.inr (Or.inr ⟨?_, rfl⟩)
    have h : ((quant .RND (x * 2 ^ g.F) + 1 : ℤ) : ℚ) ≤ minRaw g.W g.S := by exact_mod_cast h2
    push_cast at h
    have := mul_le_mul_of_nonneg_right (show x * 2 ^ g.F ≤ ((minRaw g.W g.S : ℤ) : ℚ) by linarith) hz.le
    rw [← e3] at this
    exact this
  · left
    unfold Fmt.val
    have e4 : (quant .RND (x * 2 ^ g.F) : ℚ) * 2 ^ (-g.F) - x = (quant .RND (x * 2 ^ g.F) - x * 2 ^ g.F) * 2 ^ (-g.F) := by
      rw [sub_mul, ← e3]
    rw [e4, abs_mul, abs_of_pos hz]
    have := mul_le_mul_of_nonneg_right hr hz.le
    linarith

theorem act_cases (x : ℚ) : |actIn.cvt x - x| ≤ 1 / 2 ^ 11 ∨ (5 ≤ x ∧ actIn.cvt x = 8 - 1 / 2 ^ 10) ∨ (x ≤ -5 ∧ actIn.cvt x = -8) := by
  have e1 : (2 : ℚ) ^ (-actIn.F) / 2 = 1 / 2 ^ 11 := by decide +kernel
  have e2 : actIn.maxVal = 8 - 1 / 2 ^ 10 := by decide +kernel
  have e3 : actIn.minVal = -8 := by decide +kernel
  have := sat_cases (g := actIn) rfl rfl x
  rw [e1, e2, e3] at this
  rcases this with h | ⟨h, h'⟩ | ⟨h, h'⟩
  · exact Or.inl h
  · exact Or.inr (Or.inl ⟨by linarith, h'⟩)
  · exact Or.inr (Or.inr ⟨by linarith, h'⟩)

theorem act_mono {x y : ℚ} (h : x ≤ y) : actIn.cvt x ≤ actIn.cvt y := Fmt.cvt_mono (Or.inl rfl) h

theorem act_rep (x : ℚ) : actIn.Rep (actIn.cvt x) := Fmt.rep_cvt (by decide) x

/-! ## The sigmoid -/

/-- The table value of a signed argument. -/
def S (x : ℚ) : ℚ := if x < 0 then 1 - Proof.Sigmoid.mag |x| else Proof.Sigmoid.mag |x|

theorem mag_unit (z : ℚ) : ∃ k : ℤ, 513 * 1024 ≤ k ∧ k < 2 ^ 20 ∧ Proof.Sigmoid.mag |z| = k / 2 ^ 20 := Proof.Sigmoid.mag_raw (abs_nonneg z)

theorem S_unit (x : ℚ) : ∃ k : ℤ, 0 < k ∧ k < 2 ^ 20 ∧ S x = k / 2 ^ 20 := by
  obtain ⟨k, k0, k1, hk⟩ := mag_unit x
  unfold S
  rw [hk]
  split_ifs
  · exact ⟨2 ^ 20 - k, by omega, by omega, by push_cast; ring⟩
  · exact ⟨k, by omega, k1, rfl⟩

theorem S_mono {x x' : ℚ} (h : x ≤ x') : S x ≤ S x' := by
  unfold S
  split_ifs with h1 h2 h2
  · have := Proof.Sigmoid.mag_mono (abs_nonneg x') (show |x'| ≤ |x| by rw [abs_of_neg h1, abs_of_neg h2]; linarith)
    linarith
  · have e : ∀ z : ℚ, 1 / 2 ≤ Proof.Sigmoid.mag |z| := by
      intro z
      obtain ⟨k, k0, k1, hk⟩ := mag_unit z
      rw [hk, div_le_div_iff₀ (by norm_num) (by norm_num)]
      have : ((513 * 1024 : ℤ) : ℚ) ≤ k := by exact_mod_cast k0
      push_cast at this; linarith
    have := e x
    have := e x'
    linarith
  · linarith
  · exact Proof.Sigmoid.mag_mono (abs_nonneg x) (by rw [abs_of_nonneg (by linarith), abs_of_nonneg (by linarith)]; exact h)

theorem S_err (x : ℚ) : |(S x : ℝ) - logistic x| ≤ 7 / 1000 ∧ (|x| < 5 → |(S x : ℝ) - logistic x| ≤ 1 / 256) := by
  have key : ∀ ε : ℝ, |((Proof.Sigmoid.mag |x| : ℚ) : ℝ) - logistic ((|x| : ℚ) : ℝ)| ≤ ε → |(S x : ℝ) - logistic x| ≤ ε := by
    intro ε h
    unfold S
    split_ifs with hx0
    · rw [abs_of_neg hx0] at h ⊢
      push_cast at h ⊢
      rw [Proof.Sigmoid.logistic_neg] at h
      rw [show (1 : ℝ) - (Proof.Sigmoid.mag (-x) : ℝ) - logistic x = -((Proof.Sigmoid.mag (-x) : ℝ) - (1 - logistic x)) by ring,
        abs_neg]
      exact h
    · rw [abs_of_nonneg (not_lt.1 hx0)] at h ⊢
      exact h
  refine ⟨key _ (Proof.Sigmoid.mag_err (abs_nonneg x)), fun h => key _ ?_⟩
  unfold Proof.Sigmoid.mag
  rw [if_neg (by linarith)]
  exact Proof.Sigmoid.seg_err (abs_nonneg x) h

theorem S_high {x : ℚ} (h : 5 ≤ x) : S x = 1 - 1 / 2 ^ 20 := by
  unfold S
  rw [if_neg (by linarith), abs_of_nonneg (by linarith)]
  unfold Proof.Sigmoid.mag
  rw [if_pos h]

theorem S_low {x : ℚ} (h : x ≤ -5) : S x = 1 / 2 ^ 20 := by
  unfold S
  rw [if_pos (by linarith), abs_of_neg (by linarith)]
  unfold Proof.Sigmoid.mag
  rw [if_pos (by linarith)]; ring

/-- Values of 20 fraction bits below one are stored exactly. -/
theorem cvt_unit {k : ℤ} (h0 : 0 ≤ k) (h1 : k < 2 ^ 20) (s : Bool) : (⟨21, 1, s, .TRN, .WRAP⟩ : Fmt).cvt (k / 2 ^ 20 : ℚ) = k / 2 ^ 20 := by
  have e : (k / 2 ^ 20 : ℚ) = (⟨21, 1, s, .TRN, .WRAP⟩ : Fmt).val k := by
    unfold Fmt.val
    rw [show (2 : ℚ) ^ (-(⟨21, 1, s, .TRN, .WRAP⟩ : Fmt).F) = 1 / 2 ^ 20 by cases s <;> decide +kernel]; ring
  rw [e]
  refine Fmt.cvt_val (by norm_num) (le_trans (loRaw_nonpos _ _ _) h0) ?_
  cases s
  · show k ≤ 2 ^ 21 - 1
    omega
  · show k ≤ 2 ^ 20 - 1
    omega

theorem sigmoid_eq (q : QMode) {t : FFmt} (hW : 1 ≤ t.W) (d : Dst) {m : ℚ} (hm : t.mant.Rep m) (e : ℤ) :
    sigmoid q t d m e = some (d.cvt (S (actIn.cvt (m * 2 ^ e)))) := by
  unfold sigmoid
  rw [Proof.FloatTrig.shift_mant hW (g := actIn) (by decide) rfl hm e]
  unfold Model.Pwl.sigmoid
  rw [Proof.Sigmoid.sigmoidPwl_eq q (f := actIn) (by decide) (act_rep _)]
  obtain ⟨k, k0, k1, hk⟩ := S_unit (actIn.cvt (m * 2 ^ e))
  have := cvt_unit k0.le k1 false
  rw [← hk] at this
  show some (d.cvt ((⟨21, 1, false, .TRN, .WRAP⟩ : Fmt).cvt (S _))) = _
  rw [this]

/-! ## The hyperbolic tangent -/

theorem tanh_lip {x y : ℝ} (h : y ≤ x) : Real.tanh x - Real.tanh y ≤ x - y := by
  have hd : ∀ z : ℝ, HasDerivAt (fun z => z - Real.tanh z) (1 - (Real.cosh z * Real.cosh z - Real.sinh z * Real.sinh z) / Real.cosh z ^ 2) z := by
    intro z
    have := ((Real.hasDerivAt_sinh z).div (Real.hasDerivAt_cosh z) (Real.cosh_pos z).ne')
    have e : Real.tanh = fun z => Real.sinh z / Real.cosh z := by funext w; exact Real.tanh_eq_sinh_div_cosh w
    rw [e]
    exact (hasDerivAt_id z).sub this
  have hm : Monotone (fun z => z - Real.tanh z) := by
    apply monotone_of_deriv_nonneg (fun z => (hd z).differentiableAt)
    intro z
    rw [(hd z).deriv]
    have c := Real.cosh_sq z
    have c1 := Real.one_le_cosh z
    have : (Real.cosh z * Real.cosh z - Real.sinh z * Real.sinh z) / Real.cosh z ^ 2 ≤ 1 := by
      rw [div_le_one (by positivity)]
      nlinarith [sq_nonneg (Real.sinh z)]
    linarith
  have := hm h
  simp only [] at this
  linarith

theorem tanh_near (x y : ℝ) : |Real.tanh x - Real.tanh y| ≤ |x - y| := by
  rcases le_total y x with h | h
  · rw [abs_of_nonneg (sub_nonneg.2 (Proof.Tanh.tanh_mono h)), abs_of_nonneg (sub_nonneg.2 h)]; exact tanh_lip h
  · rw [abs_sub_comm, abs_sub_comm x y, abs_of_nonneg (sub_nonneg.2 (Proof.Tanh.tanh_mono h)), abs_of_nonneg (sub_nonneg.2 h)]
    exact tanh_lip h

theorem logistic_tanh (x : ℝ) : logistic x = (1 + Real.tanh (x / 2)) / 2 := by
  rw [Proof.Sigmoid.logistic_eq, Proof.Tanh.tanh_eq, show 2 * (x / 2) = x by ring]
  have := Real.exp_pos x
  field_simp
  ring

theorem logistic_near (x y : ℝ) : |logistic x - logistic y| ≤ |x - y| / 4 := by
  rw [logistic_tanh, logistic_tanh, show (1 + Real.tanh (x / 2)) / 2 - (1 + Real.tanh (y / 2)) / 2 =
    (Real.tanh (x / 2) - Real.tanh (y / 2)) / 2 by ring, abs_div, abs_of_pos (by norm_num : (0 : ℝ) < 2)]
  have := tanh_near (x / 2) (y / 2)
  rw [← sub_div, abs_div, abs_of_pos (by norm_num : (0 : ℝ) < 2)] at this
  linarith

/-- The table value of a signed argument. -/
def T (x : ℚ) : ℚ := if x < 0 then -Proof.Tanh.mag |x| else Proof.Tanh.mag |x|

theorem T_unit (x : ℚ) : ∃ k : ℤ, 0 < k ∧ k < 2 ^ 20 ∧ T x = (if x < 0 then -k else k : ℤ) / 2 ^ 20 := by
  obtain ⟨k, k0, k1, hk⟩ := Proof.Tanh.mag_raw (abs_nonneg x)
  refine ⟨k, by omega, k1, ?_⟩
  unfold T
  rw [hk]
  split_ifs <;> push_cast <;> ring

theorem T_mono {x x' : ℚ} (h : x ≤ x') : T x ≤ T x' := by
  have e : ∀ z : ℚ, 0 ≤ Proof.Tanh.mag |z| := by
    intro z
    obtain ⟨k, k0, k1, hk⟩ := Proof.Tanh.mag_raw (abs_nonneg z)
    rw [hk]
    exact div_nonneg (by exact_mod_cast (by omega : 0 ≤ k)) (by norm_num)
  unfold T
  split_ifs with h1 h2 h2
  · have := Proof.Tanh.mag_mono (abs_nonneg x') (show |x'| ≤ |x| by rw [abs_of_neg h1, abs_of_neg h2]; linarith)
    linarith
  · have := e x
    have := e x'
    linarith
  · linarith
  · exact Proof.Tanh.mag_mono (abs_nonneg x) (by rw [abs_of_nonneg (by linarith), abs_of_nonneg (by linarith)]; exact h)

theorem T_err (x : ℚ) : |(T x : ℝ) - Real.tanh x| ≤ 1 / 200 := by
  have h := Proof.Tanh.mag_err (abs_nonneg x)
  unfold T
  split_ifs with hx0
  · rw [abs_of_neg hx0] at h ⊢
    push_cast at h ⊢
    rw [Real.tanh_neg] at h
    rw [show -(Proof.Tanh.mag (-x) : ℝ) - Real.tanh x = -((Proof.Tanh.mag (-x) : ℝ) - -Real.tanh x) by ring, abs_neg]
    exact h
  · rw [abs_of_nonneg (not_lt.1 hx0)] at h ⊢
    exact h

theorem T_high {x : ℚ} (h : 3 ≤ x) : T x = 1 - 1 / 2 ^ 20 := by
  unfold T
  rw [if_neg (by linarith), abs_of_nonneg (by linarith)]
  unfold Proof.Tanh.mag
  rw [if_pos h]

theorem T_low {x : ℚ} (h : x ≤ -3) : T x = -(1 - 1 / 2 ^ 20) := by
  unfold T
  rw [if_pos (by linarith), abs_of_neg (by linarith)]
  unfold Proof.Tanh.mag
  rw [if_pos (by linarith)]

theorem T_stored (x : ℚ) : (⟨21, 1, true, .TRN, .WRAP⟩ : Fmt).cvt (T x) = T x := by
  obtain ⟨k, k0, k1, hk⟩ := T_unit x
  rw [hk]
  generalize hj : (if x < 0 then -k else k : ℤ) = j
  have j0 : -(2 ^ 20) ≤ j := by split_ifs at hj <;> omega
  have j1 : j ≤ 2 ^ 20 - 1 := by split_ifs at hj <;> omega
  have e : (j / 2 ^ 20 : ℚ) = (⟨21, 1, true, .TRN, .WRAP⟩ : Fmt).val j := by
    unfold Fmt.val
    rw [show (2 : ℚ) ^ (-(⟨21, 1, true, .TRN, .WRAP⟩ : Fmt).F) = 1 / 2 ^ 20 by decide +kernel]; ring
  rw [e]
  exact Fmt.cvt_val (by norm_num) j0 j1

theorem tanh_eq (g : ℕ → ℤ × ℤ) (q : QMode) {t : FFmt} (hW : 1 ≤ t.W) (d : Dst) {m : ℚ} (hm : t.mant.Rep m) (e : ℤ) :
    tanh (fun i => some (g i)) q t d m e = some (d.cvt (T (actIn.cvt (m * 2 ^ e)))) := by
  unfold tanh
  rw [Proof.FloatTrig.shift_mant hW (g := actIn) (by decide) rfl hm e]
  unfold Model.Pwl.tanh
  rw [Proof.Tanh.tanhPwl_some g q (f := actIn) (by decide) (act_rep _)]
  show some (d.cvt ((⟨21, 1, true, .TRN, .WRAP⟩ : Fmt).cvt (T _))) = _
  rw [T_stored]

/-! ## The tangent -/

/-- `tan_output_fi`. -/
def tanOut : Fmt := ⟨36, 7, false, .TRN, .WRAP⟩

theorem tan_shift {t : FFmt} (hW : 2 ≤ t.W) {m : ℚ} (hm : t.mant.Rep m) (h0 : 0 ≤ m) (e : ℤ) :
    Model.Shift.leftUS (tanMant t) tanIn ((tanMant t).raw ((tanMant t).cvt m)) e = tanIn.cvt (m * 2 ^ e) := by
  obtain ⟨r, r0, r1, rfl⟩ := hm
  have hF : (tanMant t).F = t.mant.F := by
    unfold tanMant FFmt.mant Fmt.F
    simp only []
    push_cast [Nat.cast_sub (show 1 ≤ t.W by omega)]; ring
  have hr : 0 ≤ r := by
    by_contra hc
    have : (r : ℚ) < 0 := by exact_mod_cast not_le.1 hc
    have := mul_neg_of_neg_of_pos this (Fmt.z_pos (-t.mant.F))
    unfold Fmt.val at h0
    linarith
  have hr1 : r ≤ maxRaw (tanMant t).W (tanMant t).S := by
    have : r ≤ 2 ^ (t.W - 1) - 1 := by simpa [maxRaw, FFmt.mant] using r1
    simpa [maxRaw, tanMant] using this
  have e1 : t.mant.val r = (tanMant t).val r := by unfold Fmt.val; rw [hF]
  have hW' : 1 ≤ (tanMant t).W := by show 1 ≤ t.W - 1; omega
  rw [e1, Fmt.cvt_val hW' (le_trans (loRaw_nonpos _ _ _) hr) hr1, Fmt.raw_val]
  exact Proof.Shift.leftUS_eq hW' (by decide) rfl rfl ⟨le_trans (minRaw_nonpos _ _) hr, hr1⟩ e

/-- Angles up to 8/5 are rounded to 21 fraction bits. -/
theorem tan_in {x : ℚ} (h0 : 0 ≤ x) (h1 : x ≤ 8 / 5) : tanIn.cvt x = quant .RND (x * 2 ^ 21) / 2 ^ 21 ∧ |tanIn.cvt x - x| ≤ 1 / 2 ^ 22 := by
  have q0 : 0 ≤ quant .RND (x * 2 ^ 21) := by
    have : ((0 : ℤ) : ℚ) ≤ x * 2 ^ 21 := by push_cast; positivity
    exact le_quant this
  have q1 : quant .RND (x * 2 ^ 21) ≤ 2 ^ 22 - 1 := by
    have : x * 2 ^ 21 ≤ ((2 ^ 22 - 1 : ℤ) : ℚ) := by push_cast; linarith
    exact quant_le this
  have e : tanIn.cvt x = (quant .RND (x * 2 ^ 21) : ℚ) / 2 ^ 21 := by
    have hF : (2 : ℚ) ^ tanIn.F = 2 ^ 21 := by decide +kernel
    have hF' : (2 : ℚ) ^ (-tanIn.F) = 1 / 2 ^ 21 := by decide +kernel
    unfold Fmt.cvt Fmt.cvtRaw
    rw [hF]
    show tanIn.val (wrap 22 false (quant .RND (x * 2 ^ 21))) = _
    rw [wrap_of_range (by decide) (by simpa [minRaw] using q0) (by simpa [maxRaw] using q1)]
    unfold Fmt.val
    rw [hF']; ring
  refine ⟨e, ?_⟩
  have hr := Proof.Sincos.rnd_err (x * 2 ^ 21)
  rw [e]
  generalize ((quant .RND (x * 2 ^ 21) : ℤ) : ℚ) = y at *
  rw [abs_le] at hr ⊢
  constructor
  · linarith [hr.1]
  · linarith [hr.2]

theorem tan_in_mono {x x' : ℚ} (h0 : 0 ≤ x) (h : x ≤ x') (h1 : x' ≤ 8 / 5) : tanIn.cvt x ≤ tanIn.cvt x' := by
  rw [(tan_in h0 (le_trans h h1)).1, (tan_in (le_trans h0 h) h1).1]
  have : quant .RND (x * 2 ^ 21) ≤ quant .RND (x' * 2 ^ 21) := quant_mono _ (by linarith)
  have : ((quant .RND (x * 2 ^ 21) : ℤ) : ℚ) ≤ quant .RND (x' * 2 ^ 21) := by exact_mod_cast this
  exact div_le_div_of_nonneg_right this (by norm_num)

/-- Tangents below 128 are truncated to 29 fraction bits. -/
theorem tan_out {r : ℚ} (h0 : 0 ≤ r) (h1 : r < 128) : tanOut.cvt r = ⌊r * 2 ^ 29⌋ / 2 ^ 29 := by
  have hF : (2 : ℚ) ^ tanOut.F = 2 ^ 29 := by decide +kernel
  have hF' : (2 : ℚ) ^ (-tanOut.F) = 1 / 2 ^ 29 := by decide +kernel
  have q0 : 0 ≤ ⌊r * 2 ^ 29⌋ := Int.floor_nonneg.2 (by positivity)
  have q1 : ⌊r * 2 ^ 29⌋ ≤ 2 ^ 36 - 1 := by
    have : ⌊r * 2 ^ 29⌋ < 2 ^ 36 := by rw [Int.floor_lt]; push_cast; linarith
    omega
  unfold Fmt.cvt Fmt.cvtRaw
  rw [hF]
  show tanOut.val (wrap 36 false ⌊r * 2 ^ 29⌋) = _
  rw [wrap_of_range (by decide) (by simpa [minRaw] using q0) (by simpa [maxRaw] using q1)]
  unfold Fmt.val
  rw [hF']; ring

theorem arctan_near (x y : ℝ) : |Real.arctan x - Real.arctan y| ≤ |x - y| := by
  have key : ∀ {x y : ℝ}, y ≤ x → Real.arctan x - Real.arctan y ≤ x - y := by
    intro x y h
    have hm : Monotone (fun z => z - Real.arctan z) := by
      apply monotone_of_deriv_nonneg (fun z => ((hasDerivAt_id z).sub (Real.hasDerivAt_arctan z)).differentiableAt)
      intro z
      have hd := ((hasDerivAt_id z).sub (Real.hasDerivAt_arctan z)).deriv
      rw [hd]
      have : 1 / (1 + z ^ 2) ≤ 1 := by rw [div_le_one (by positivity)]; nlinarith [sq_nonneg z]
      linarith
    have := hm h
    simp only [] at this
    linarith
  have mono := Real.arctan_strictMono.monotone
  rcases le_total y x with h | h
  · rw [abs_of_nonneg (sub_nonneg.2 (mono h)), abs_of_nonneg (sub_nonneg.2 h)]; exact key h
  · rw [abs_sub_comm, abs_sub_comm x y, abs_of_nonneg (sub_nonneg.2 (mono h)), abs_of_nonneg (sub_nonneg.2 h)]; exact key h

/-- The complement of the angle of a large tangent. -/
theorem arctan_large {r : ℝ} (h : 0 < r) : Real.pi / 2 - 1 / r ≤ Real.arctan r := by
  have h1 := Real.arctan_inv_of_pos h
  have h2 : Real.arctan r⁻¹ ≤ r⁻¹ := by
    have := arctan_near r⁻¹ 0
    rw [Real.arctan_zero, sub_zero, sub_zero, abs_of_pos (inv_pos.2 h)] at this
    exact le_trans (le_abs_self _) this
  rw [one_div]
  linarith

theorem arctan_small {z : ℝ} (h : 0 ≤ z) (h1 : z ≤ 1 / 100) : z * (1 - 1 / 9999) ≤ Real.arctan z := by
  have := Proof.Cordic.arctan_near h (by linarith) 1
  rw [abs_le] at this
  have h2 := this.2
  simp only [Finset.sum_range_one, pow_zero, one_mul, mul_zero, zero_add, pow_one, Nat.cast_one, div_one] at h2
  have h3 : z ^ 2 ≤ 1 / 10000 := by nlinarith
  have h4 : z * z ^ 2 / (1 - z ^ 2) ≤ z * (1 / 9999) := by
    rw [mul_div_assoc]
    refine mul_le_mul_of_nonneg_left ?_ h
    rw [div_le_div_iff₀ (by linarith) (by norm_num)]
    linarith
  linarith

/-- The value that is converted to the output type. -/
def tau (q : QMode) (x : ℚ) : ℚ := (Model.Tan.tan q tanIn tanOut (tanIn.cvt x)).get (Props.Tan.C44_in_table q _ _ _)

theorem tan_eq (q : QMode) {t : FFmt} (hW : 2 ≤ t.W) (d : Dst) {m : ℚ} (hm : t.mant.Rep m) (h0 : 0 ≤ m) (e : ℤ) :
    tan q t d m e = some (d.cvt (tau q (m * 2 ^ e))) := by
  unfold tan
  simp only []
  rw [tan_shift hW hm h0 e]
  have : Model.Tan.tan q tanIn tanOut (tanIn.cvt (m * 2 ^ e)) = some (tau q (m * 2 ^ e)) := (Option.some_get _).symm
  unfold tanOut at this
  rw [this]; rfl

theorem tanIn_ok : Props.Tan.Compiles tanIn ∧ Props.Tan.Fits tanIn := by
  constructor
  · unfold Props.Tan.Compiles; decide
  · unfold Props.Tan.Fits; decide

theorem tanOut_max : tanOut.maxVal = 128 - 1 / 2 ^ 29 := by decide +kernel

/-- Below the threshold the stored tangent. -/
theorem tan_low (q : QMode) {x x' : ℚ} (h0 : 0 ≤ x) (h1 : x ≤ 8 / 5) (h0' : 0 ≤ x') (h1' : x' ≤ 8 / 5)
    (hs : tanIn.cvt x < 1.556640625) (hs' : tanIn.cvt x' < 1.556640625) :
    0 ≤ tau q x ∧ tau q x ≤ tanOut.maxVal ∧ (tanIn.cvt x < 804 / 1024 → |Real.arctan (tau q x) - (tanIn.cvt x : ℚ)| ≤ 1 / 668 + 1 / 2 ^ 29) ∧
      |Real.arctan (tau q x) - (tanIn.cvt x : ℚ)| ≤ 1 / 210 + 1 / 2 ^ 29 ∧ (tanIn.cvt x ≤ tanIn.cvt x' → tau q x ≤ tau q x') := by
  have key : ∀ {x r : ℚ}, 0 ≤ x → x ≤ 8 / 5 → tanIn.cvt x < 1.556640625 → 0 ≤ r → |Real.arctan r - (tanIn.cvt x : ℚ)| ≤ 1 / 210 →
      r < 128 := by
    intro x r h0 h1 hs hr he
    rcases lt_or_ge r 128 with h | h
    · exact h
    exfalso
    have hr' : (128 : ℝ) ≤ r := by exact_mod_cast h
    have a := arctan_large (r := r) (by linarith)
    have b : 1 / (r : ℝ) ≤ 1 / 128 := one_div_le_one_div_of_le (by norm_num) hr'
    have c : ((tanIn.cvt x : ℚ) : ℝ) < ((1.556640625 : ℚ) : ℝ) := Rat.cast_lt.2 hs
    have hp := Real.pi_gt_d6
    have := (abs_le.1 he).2
    norm_num at c
    linarith
  have thr : ∀ {a : ℚ}, a < 1.556640625 → a < 1594 / 1024 := fun h => by norm_num at h ⊢; exact h
  have two : ∀ (a : ℚ), (if Model.Tan.exceeds tanIn a then (1 : ℝ) / 210 else 1 / 668) ≤ 1 / 210 := fun a => by split_ifs <;> norm_num
  obtain ⟨r, r', e1, e2, hr, c', d', -, mono⟩ := Proof.Tan.spec2 q tanOut (f := tanIn) rfl tanIn_ok.1 tanIn_ok.2
    (Fmt.rep_cvt (by decide) x) (Fmt.rep_cvt (by decide) x') (thr hs) (thr hs')
  have c := le_trans c' (two _)
  have d := le_trans d' (two _)
  have hr128 := key h0 h1 hs hr c
  have t1 : tau q x = ⌊r * 2 ^ 29⌋ / 2 ^ 29 := by
    rw [← tan_out hr hr128]; unfold tau; rw [Option.get_of_eq_some _ e1]
  have t2' : tau q x' = tanOut.cvt r' := by unfold tau; rw [Option.get_of_eq_some _ e2]
  have f0 := Int.floor_le (r * 2 ^ 29)
  have f1' := Int.lt_floor_add_one (r * 2 ^ 29)
  have n0 : (0 : ℚ) ≤ ⌊r * 2 ^ 29⌋ := by exact_mod_cast Int.floor_nonneg.2 (by positivity : (0 : ℚ) ≤ r * 2 ^ 29)
  have near : |tau q x - r| ≤ 1 / 2 ^ 29 := by
    rw [t1, abs_le]
    generalize ((⌊r * 2 ^ 29⌋ : ℤ) : ℚ) = k at *
    constructor <;> linarith
  have near' : |Real.arctan (tau q x) - Real.arctan r| ≤ 1 / 2 ^ 29 := by
    refine le_trans (arctan_near _ _) ?_
    have := (Rat.cast_le (K := ℝ)).2 near
    push_cast at this
    exact this
  have tri := abs_sub_le (Real.arctan (tau q x)) (Real.arctan r) ((tanIn.cvt x : ℚ) : ℝ)
  refine ⟨?_, ?_, fun h => ?_, ?_, fun h => ?_⟩
  · rw [t1]; exact div_nonneg n0 (by norm_num)
  · rw [tanOut_max, t1]
    have : ⌊r * 2 ^ 29⌋ ≤ 2 ^ 36 - 1 := by
      have : ⌊r * 2 ^ 29⌋ < 2 ^ 36 := by rw [Int.floor_lt]; push_cast; linarith
      omega
    have : ((⌊r * 2 ^ 29⌋ : ℤ) : ℚ) ≤ ((2 ^ 36 - 1 : ℤ) : ℚ) := by exact_mod_cast this
    push_cast at this
    rw [div_le_iff₀ (by norm_num)]
    norm_num at this ⊢
    linarith
  · rw [if_neg (fun c => absurd c.2 (by linarith))] at c'
    linarith
  · linarith
  · rw [t2', t1, tan_out (le_trans hr (mono h)) (key h0' h1' hs' (le_trans hr (mono h)) d)]
    have : ⌊r * 2 ^ 29⌋ ≤ ⌊r' * 2 ^ 29⌋ := Int.floor_mono (by have := mono h; linarith)
    have : ((⌊r * 2 ^ 29⌋ : ℤ) : ℚ) ≤ ⌊r' * 2 ^ 29⌋ := by exact_mod_cast this
    exact div_le_div_of_nonneg_right this (by norm_num)

theorem tau_high (q : QMode) {x : ℚ} (h : 1.556640625 ≤ tanIn.cvt x) : tau q x = 128 - 1 / 2 ^ 29 := by
  have := Props.Tan.C44_saturation q tanIn tanOut h
  unfold tau
  rw [Option.get_of_eq_some _ this, tanOut_max]

end Proof.FloatAct
