import Verif.Proof.FloatNum
import Verif.Proof.CholFns
import Verif.Props.FloatDiv

/-! # The element arithmetic of ac_chol_d for ac_float is accurate -/

namespace Proof.CholFloat
open Ac Model.Float Model.CholFloat Model.Chol Spec.CholArith Proof.FloatNum Proof.CholFns Spec.CholFloat
open Props.FloatRec (Num)
open Props.FloatDiv (Keeps)
open Props.FloatSqrt (Normal InNormal)

theorem pre_pos (pwl : Bool) (out imd : FFmt) : 0 < preRoot pwl out imd := by
  unfold preRoot; split_ifs
  · norm_num
  · exact Fmt.z_pos _

theorem preRec_pos (pwl : Bool) (out imd : FFmt) : 0 < preRec pwl out imd := by
  unfold preRec; split_ifs
  · norm_num
  · exact Fmt.z_pos _

theorem pre_le (pwl : Bool) (out imd : FFmt) : preRoot pwl out imd ≤ rootErr pwl out imd := by
  unfold rootErr
  have := mul_pos (show 0 < 1 + preRoot pwl out imd by linarith [pre_pos pwl out imd]) (Fmt.z_pos (2 - (out.W : ℤ)))
  linarith

theorem root_pos (pwl : Bool) (out imd : FFmt) : 0 < rootErr pwl out imd := (pre_pos pwl out imd).trans_le (pre_le pwl out imd)

theorem preRec_le (pwl : Bool) (out imd : FFmt) : preRec pwl out imd ≤ recErr pwl out imd := by
  have h0 := preRec_pos pwl out imd
  have h1 := mul_pos (show 0 < 1 + preRec pwl out imd by linarith) (Fmt.z_pos (2 - (imd.W : ℤ)))
  have h2 := root_pos pwl out imd
  unfold recErr
  dsimp only
  generalize (2 : ℚ) ^ (2 - (imd.W : ℤ)) = z at *
  split_ifs
  · have := mul_pos (show 0 < preRec pwl out imd + (1 + preRec pwl out imd) * z by linarith) h2
    linarith
  · linarith

theorem cast_z (n : ℤ) : (((2 : ℚ) ^ n : ℚ) : ℝ) = 2 ^ n := u_cast n

/-- The square root. -/
theorem diag_err {pwl : Bool} {out imd : FFmt} {κ B : ℚ} (h : Range pwl out imd κ B) (junk : ℚ) {p : ℚ} (hp : IsNum imd p)
    (h0 : κ ^ 2 ≤ p) (h1 : p ≤ B ^ 2) (hB : 0 ≤ B) :
    IsNum out (diag pwl out imd junk p) ∧
      |((diag pwl out imd junk p : ℚ) : ℝ) - Real.sqrt p| ≤ ((rootErr pwl out imd : ℚ) : ℝ) * Real.sqrt p := by
  have hW := h.imdW
  have hp0 : 0 < p := lt_of_lt_of_le (pow_pos h.pos 2) h0
  have hpr : (0 : ℝ) < (p : ℝ) := by exact_mod_cast hp0
  have hr : 0 < Real.sqrt p := Real.sqrt_pos.2 hpr
  obtain ⟨m0, e0, e1, hv⟩ := rep_num (by omega) h.imdE hp
  have hn : Normal imd (rep imd p).1 := rep_normal (h.sumLow.trans h0)
  have hN : Props.FloatDiv.Norm imd (rep imd p).1 := by
    unfold Props.FloatDiv.Norm; rw [abs_of_nonneg]
    · exact hn
    · exact (Fmt.z_pos (imd.I - 2)).le.trans hn
  have hδ := pre_pos pwl out imd
  have hδ1 := pre_le pwl out imd
  have hε : rootErr pwl out imd < 1 := by
    by_contra hc
    have := mul_nonpos_of_nonpos_of_nonneg (show 1 - rootErr pwl out imd ≤ 0 by linarith) h.pos.le
    have := h.outLow
    have := Fmt.z_pos (out.I - 2 - 2 ^ (out.E - 1))
    linarith
  have pre : ∃ y : ℚ, diag pwl out imd junk p = out.cvt y ∧
      |(y : ℝ) - Real.sqrt p| ≤ ((preRoot pwl out imd : ℚ) : ℝ) * Real.sqrt p := by
    cases pwl
    · obtain ⟨y, y1, -, y2⟩ := Props.FloatDiv.C64_sqrt_partial .TRN (out.W - out.I) imd (rep imd p).1 (rep imd p).2 (by omega)
        (h.rootBits rfl) (Or.inl (Or.inl rfl)) ⟨m0, e0, e1⟩ ((Fmt.z_pos (imd.I - 2)).le.trans hn)
      refine ⟨y, ?_, ?_⟩
      · simp only [diag]; exact y1 _
      · have := y2 hN
        rw [hv] at this
        unfold preRoot
        rw [if_neg (by simp), cast_z]; exact this
    · obtain ⟨y, y1, -, y2⟩ := Props.FloatSqrt.C61_sqrt_partial .TRN imd out.dst (rep imd p).1 (rep imd p).2 (by omega)
        ⟨m0, e0, e1⟩ hn
      refine ⟨y, ?_, ?_⟩
      · simp only [diag, if_true]; rw [y1]; rfl
      · rw [hv] at y2
        unfold preRoot
        rw [if_pos rfl]; push_cast; exact y2
  obtain ⟨y, y1, y2⟩ := pre
  have hout := h.outW
  refine ⟨by rw [y1]; exact cvt_isNum (by omega) y, ?_⟩
  have hκ : (κ : ℝ) ≤ Real.sqrt p := by
    apply Real.le_sqrt_of_sq_le; exact_mod_cast h0
  have hBr : Real.sqrt p ≤ (B : ℝ) := by
    rw [Real.sqrt_le_left (by exact_mod_cast hB)]; exact_mod_cast h1
  have hδr : (0 : ℝ) < (preRoot pwl out imd : ℝ) := by exact_mod_cast hδ
  have hδ1r : (preRoot pwl out imd : ℝ) ≤ (rootErr pwl out imd : ℝ) := by exact_mod_cast hδ1
  have hεr : (rootErr pwl out imd : ℝ) < 1 := by exact_mod_cast hε
  have hy0 : 0 < y := by
    have := (abs_le.1 y2).1
    have h3 := mul_lt_mul_of_pos_right (hδ1r.trans_lt hεr) hr
    have : (0 : ℝ) < (y : ℝ) := by linarith
    exact_mod_cast this
  have hin : InNormal out ((preRoot pwl out imd : ℚ) : ℝ) (Real.sqrt p) := by
    constructor
    · have a : ((2 ^ (out.I - 2 - 2 ^ (out.E - 1)) : ℚ) : ℝ) ≤ (((1 - rootErr pwl out imd) * κ : ℚ) : ℝ) := Rat.cast_le.2 h.outLow
      push_cast at a ⊢
      refine a.trans ?_
      exact mul_le_mul (by linarith) hκ (by exact_mod_cast h.pos.le) (by linarith)
    · have a : (((1 + rootErr pwl out imd) * B : ℚ) : ℝ) ≤ ((out.maxVal : ℚ) : ℝ) := Rat.cast_le.2 h.outHigh
      push_cast at a
      refine le_trans ?_ a
      exact mul_le_mul (by linarith) hBr hr.le (by linarith)
  have := Props.FloatSqrt.output hy0 hr y2 hin
  rw [y1]
  have e : ((rootErr pwl out imd : ℚ) : ℝ) =
      ((preRoot pwl out imd : ℚ) : ℝ) + (1 + ((preRoot pwl out imd : ℚ) : ℝ)) * 2 ^ (2 - (out.W : ℤ)) := by
    unfold rootErr; push_cast; rfl
  rw [e]; exact this

/-- The diagonal element, its square and its reciprocal. -/
theorem fns_err {pwl : Bool} {out imd : FFmt} {κ B : ℚ} (h : Range pwl out imd κ B) (junk : ℚ) {p : ℚ} (hp : IsNum imd p)
    (h0 : κ ^ 2 ≤ p) (h1 : p ≤ B ^ 2) (hB : 0 ≤ B) :
    (1 - rootErr pwl out imd) * κ ≤ diag pwl out imd junk p ∧ diag pwl out imd junk p ≤ (1 + rootErr pwl out imd) * B ∧
      |diag pwl out imd junk p ^ 2 - p| ≤ rootErr pwl out imd * (2 + rootErr pwl out imd) * p ∧
      |recip pwl out imd junk p * diag pwl out imd junk p - 1| ≤ recErr pwl out imd := by
  obtain ⟨hd, hdr⟩ := diag_err h junk hp h0 h1 hB
  have hp0 : 0 < p := lt_of_lt_of_le (pow_pos h.pos 2) h0
  have hpr : (0 : ℝ) < (p : ℝ) := by exact_mod_cast hp0
  set r := Real.sqrt p with hrd
  have hr : 0 < r := Real.sqrt_pos.2 hpr
  have hrr : r ^ 2 = p := Real.sq_sqrt hpr.le
  have hκ : (κ : ℝ) ≤ r := by
    apply Real.le_sqrt_of_sq_le; exact_mod_cast h0
  have hBr : r ≤ (B : ℝ) := by
    rw [hrd, Real.sqrt_le_left (by exact_mod_cast hB)]; exact_mod_cast h1
  have hε := root_pos pwl out imd
  have hoz := Fmt.z_pos (out.I - 2 - 2 ^ (out.E - 1))
  have hiz := Fmt.z_pos (imd.I - 2 - 2 ^ (imd.E - 1))
  have hε1 : rootErr pwl out imd < 1 := by
    by_contra hc
    have := mul_nonpos_of_nonpos_of_nonneg (show 1 - rootErr pwl out imd ≤ 0 by linarith) h.pos.le
    have := h.outLow
    linarith
  have hεr : (0 : ℝ) < (rootErr pwl out imd : ℝ) := by exact_mod_cast hε
  have hε1r : (rootErr pwl out imd : ℝ) < 1 := by exact_mod_cast hε1
  obtain ⟨a1, a2⟩ := abs_le.1 hdr
  have hlow : (1 - rootErr pwl out imd) * κ ≤ diag pwl out imd junk p := by
    have := mul_le_mul_of_nonneg_left hκ (show 0 ≤ 1 - (rootErr pwl out imd : ℝ) by linarith)
    have : (((1 - rootErr pwl out imd) * κ : ℚ) : ℝ) ≤ ((diag pwl out imd junk p : ℚ) : ℝ) := by push_cast; linarith
    exact Rat.cast_le.1 this
  have hhigh : diag pwl out imd junk p ≤ (1 + rootErr pwl out imd) * B := by
    have := mul_le_mul_of_nonneg_left hBr (show 0 ≤ 1 + (rootErr pwl out imd : ℝ) by linarith)
    have : ((diag pwl out imd junk p : ℚ) : ℝ) ≤ (((1 + rootErr pwl out imd) * B : ℚ) : ℝ) := by push_cast; linarith
    exact Rat.cast_le.1 this
  refine ⟨hlow, hhigh, ?_, ?_⟩
  · have : ((|diag pwl out imd junk p ^ 2 - p| : ℚ) : ℝ) ≤ ((rootErr pwl out imd * (2 + rootErr pwl out imd) * p : ℚ) : ℝ) := by
      push_cast
      rw [← hrr]
      have e : ((diag pwl out imd junk p : ℚ) : ℝ) ^ 2 - r ^ 2 =
        (((diag pwl out imd junk p : ℚ) : ℝ) - r) * (((diag pwl out imd junk p : ℚ) : ℝ) + r) := by ring
      rw [e, abs_mul]
      have h2 : |((diag pwl out imd junk p : ℚ) : ℝ) + r| ≤ (2 + (rootErr pwl out imd : ℝ)) * r := by
        have h3 := mul_lt_mul_of_pos_right hε1r hr
        rw [abs_le]; constructor <;> linarith
      have := mul_le_mul hdr h2 (abs_nonneg _) (mul_nonneg hεr.le hr.le)
      linarith
    exact Rat.cast_le.1 this
  · have hκ' : 0 < (1 - rootErr pwl out imd) * κ := hoz.trans_le h.outLow
    have hd0 : 0 < diag pwl out imd junk p := hκ'.trans_le hlow
    have hB' : 0 < (1 + rootErr pwl out imd) * B := hd0.trans_le hhigh
    have hpr0 := preRec_pos pwl out imd
    have hprl := preRec_le pwl out imd
    have hrec1 : recErr pwl out imd < 1 := by
      have := mul_pos hiz hB'
      linarith [h.recLow]
    -- the conversion of a good reciprocal of a number in range
    have conv : ∀ (y : ℚ) (x : ℝ), 0 < y → (((1 - rootErr pwl out imd) * κ : ℚ) : ℝ) ≤ x →
        x ≤ (((1 + rootErr pwl out imd) * B : ℚ) : ℝ) → |(y : ℝ) * x - 1| ≤ ((preRec pwl out imd : ℚ) : ℝ) →
        |((imd.cvt y : ℚ) : ℝ) * x - 1| ≤ ((preRec pwl out imd : ℚ) : ℝ) + (1 + ((preRec pwl out imd : ℚ) : ℝ)) * 2 ^ (2 - (imd.W : ℤ)) := by
      intro y x hy hx0 hx1 hyx
      have hx : 0 < x := lt_of_lt_of_le (by exact_mod_cast hκ') hx0
      have sc : ∀ z : ℝ, |z - 1 / x| * x = |z * x - 1| := by
        intro z
        nth_rewrite 2 [← abs_of_pos hx]
        rw [← abs_mul, sub_mul, one_div, inv_mul_cancel₀ hx.ne']
      have key : |(y : ℝ) - 1 / x| ≤ ((preRec pwl out imd : ℚ) : ℝ) * (1 / x) := by
        rw [mul_one_div, le_div_iff₀ hx, sc]; exact hyx
      have hpr0r : (0 : ℝ) < (preRec pwl out imd : ℝ) := by exact_mod_cast hpr0
      have hprlr : (preRec pwl out imd : ℝ) ≤ (recErr pwl out imd : ℝ) := by exact_mod_cast hprl
      have hin : InNormal imd ((preRec pwl out imd : ℚ) : ℝ) (1 / x) := by
        constructor
        · have a : ((2 ^ (imd.I - 2 - 2 ^ (imd.E - 1)) * ((1 + rootErr pwl out imd) * B) : ℚ) : ℝ) ≤
            ((1 - recErr pwl out imd : ℚ) : ℝ) := Rat.cast_le.2 h.recLow
          rw [Rat.cast_mul] at a
          rw [mul_one_div, le_div_iff₀ hx]
          have b := mul_le_mul_of_nonneg_left hx1 (show (0 : ℝ) ≤ ((2 ^ (imd.I - 2 - 2 ^ (imd.E - 1)) : ℚ) : ℝ) by exact_mod_cast hiz.le)
          refine b.trans (a.trans ?_)
          push_cast; linarith
        · have a : ((1 + recErr pwl out imd : ℚ) : ℝ) ≤ ((imd.maxVal * ((1 - rootErr pwl out imd) * κ) : ℚ) : ℝ) := Rat.cast_le.2 h.recHigh
          rw [mul_one_div, div_le_iff₀ hx]
          rw [Rat.cast_mul] at a
          have b := mul_le_mul_of_nonneg_left hx0 (show (0 : ℝ) ≤ ((imd.maxVal : ℚ) : ℝ) by exact_mod_cast Proof.FloatCvt.max_nonneg imd)
          refine le_trans ?_ (a.trans b)
          push_cast; linarith
      have := Props.FloatSqrt.output hy (one_div_pos.2 hx) key hin
      rwa [mul_one_div, le_div_iff₀ hx, sc] at this
    have hout := h.outW
    have himd := h.imdW
    cases pwl
    · -- the division
      obtain ⟨m0, e0, e1, hv⟩ := rep_num (by omega) h.outE hd
      have hn := rep_normal (t := out) (h.outLow.trans hlow)
      have hN : Props.FloatDiv.Norm out (rep out (diag false out imd junk p)).1 := by
        unfold Props.FloatDiv.Norm; rw [abs_of_nonneg]
        · exact hn
        · exact (Fmt.z_pos (out.I - 2)).le.trans hn
      obtain ⟨q, -, q1, q2⟩ := Props.FloatDiv.C64_div_partial ⟨2, 2, 2, .TRN⟩ out imd 1 0 (rep out (diag false out imd junk p)).1
        (rep out (diag false out imd junk p)).2 (by decide) hout (by decide) h.outE (h.recBits rfl)
        ⟨⟨1, by decide, by decide, by decide +kernel⟩, by decide, by decide⟩ ⟨m0, e0, e1⟩
        (by unfold Props.FloatDiv.Norm; norm_num) hN
      have hrec : recip false out imd junk p = imd.cvt q := by
        simp only [recip]; exact (q2 false imd.dst junk).1
      rw [hv] at q1
      simp only [zpow_zero, mul_one] at q1
      generalize diag false out imd junk p = d at *
      have hpre : preRec false out imd = 2 ^ (1 + out.I + imd.I - 2 - imd.W) := by
        unfold preRec; rw [if_neg (by simp)]; congr 1; ring
      rw [← hpre, abs_of_pos (one_div_pos.2 hd0), mul_one_div, le_div_iff₀ hd0] at q1
      have q3 : |q * d - 1| ≤ preRec false out imd := by
        have : |q - 1 / d| * d = |q * d - 1| := by
          nth_rewrite 2 [← abs_of_pos hd0]
          rw [← abs_mul, sub_mul, one_div, inv_mul_cancel₀ hd0.ne']
        rw [← this]; exact q1
      have hq0 : 0 < q := by
        by_contra hc
        have := mul_nonpos_of_nonpos_of_nonneg (not_lt.1 hc) hd0.le
        have := (abs_le.1 q3).1
        linarith
      have c := conv q d hq0 (Rat.cast_le.2 hlow) (Rat.cast_le.2 hhigh) (by exact_mod_cast (Rat.cast_le (K := ℝ)).2 q3)
      rw [hrec]
      have e : recErr false out imd = preRec false out imd + (1 + preRec false out imd) * 2 ^ (2 - (imd.W : ℤ)) := by
        unfold recErr; simp
      rw [e]
      have : ((|imd.cvt q * d - 1| : ℚ) : ℝ) ≤
          ((preRec false out imd + (1 + preRec false out imd) * 2 ^ (2 - (imd.W : ℤ)) : ℚ) : ℝ) := by
        push_cast; exact c
      exact Rat.cast_le.1 this
    · -- the inverse square root
      obtain ⟨m0, e0, e1, hv⟩ := rep_num (by omega) h.imdE hp
      have hn : Normal imd (rep imd p).1 := rep_normal (h.sumLow.trans h0)
      obtain ⟨y, y1, y0, y2⟩ := Props.FloatSqrt.C61_inverse_sqrt_partial .TRN imd.Q imd imd.dst (rep imd p).1 (rep imd p).2 himd
        ⟨m0, e0, e1⟩ hn
      rw [hv] at y2
      have hrec : recip true out imd junk p = imd.cvt y := by
        simp only [recip, if_true]; rw [y1]; rfl
      have hpre : ((preRec true out imd : ℚ) : ℝ) = 1 / 1100 := by unfold preRec; rw [if_pos rfl]; push_cast; rfl
      have c := conv y r y0 (by
          push_cast
          have := mul_pos hεr hr
          have h4 := mul_le_mul_of_nonneg_left hκ (show 0 ≤ 1 - (rootErr true out imd : ℝ) by linarith)
          linarith) (by
          push_cast
          have := mul_le_mul_of_nonneg_left hBr (show 0 ≤ 1 + (rootErr true out imd : ℝ) by linarith)
          have := mul_pos hεr hr
          linarith) (by rw [hpre]; exact y2)
      rw [hrec]
      generalize diag true out imd junk p = d at *
      have e : recErr true out imd = (preRec true out imd + (1 + preRec true out imd) * 2 ^ (2 - (imd.W : ℤ))) * (1 + rootErr true out imd) +
          rootErr true out imd := by
        unfold recErr; simp
      rw [e]
      have : ((|imd.cvt y * d - 1| : ℚ) : ℝ) ≤
          (((preRec true out imd + (1 + preRec true out imd) * 2 ^ (2 - (imd.W : ℤ))) * (1 + rootErr true out imd) +
          rootErr true out imd : ℚ) : ℝ) := by
        push_cast
        generalize ((imd.cvt y : ℚ) : ℝ) = z at *
        generalize ((preRec true out imd : ℚ) : ℝ) + (1 + ((preRec true out imd : ℚ) : ℝ)) * 2 ^ (2 - (imd.W : ℤ)) = η at *
        generalize (rootErr true out imd : ℝ) = ε at *
        generalize (d : ℝ) = dr at *
        -- dr = r * (1 + a)
        have ha : |dr / r - 1| ≤ ε := by
          have : dr / r - 1 = (dr - r) / r := by rw [sub_div, div_self hr.ne']
          rw [this, abs_div, abs_of_pos hr, div_le_iff₀ hr]; exact hdr
        have e2 : z * dr - 1 = (z * r - 1) * (dr / r) + (dr / r - 1) := by
          field_simp; ring
        have hb : |dr / r| ≤ 1 + ε := by
          obtain ⟨b1, b2⟩ := abs_le.1 ha
          rw [abs_le]; constructor <;> linarith
        rw [e2]
        have t1 := abs_add_le ((z * r - 1) * (dr / r)) (dr / r - 1)
        rw [abs_mul] at t1
        have t2 := mul_le_mul c hb (abs_nonneg _) ((abs_nonneg _).trans c)
        linarith
      exact Rat.cast_le.1 this

theorem cvt_sum {imd : FFmt} {X u x : ℚ} (hX : X ≤ imd.maxVal)
    (hu : X * 2 ^ (2 - (imd.W : ℤ)) + 2 ^ (imd.I - imd.W - 2 ^ (imd.E - 1)) ≤ u) (h : |x| ≤ X) : |imd.cvt x - x| ≤ u := by
  obtain ⟨h1, h2⟩ := abs_le.1 h
  have := Proof.FloatCvt.cvt_abs (t := imd) (x := x) (by have := Proof.FloatRec.minVal_le imd; linarith) (by linarith)
  have := mul_le_mul_of_nonneg_right h (Fmt.z_pos (2 - (imd.W : ℤ))).le
  linarith

theorem float_acc {pwl : Bool} {out imd : FFmt} {κ B X u lo hi σ : ℚ} (h : Range pwl out imd κ B) {sub : ℚ → ℚ → ℚ} (junk : ℚ)
    (hsub : SubOk imd sub X u) (hX : X ≤ imd.maxVal)
    (hu : X * 2 ^ (2 - (imd.W : ℤ)) + 2 ^ (imd.I - imd.W - 2 ^ (imd.E - 1)) ≤ u) (hlo : κ ^ 2 ≤ lo) (hhi : hi ≤ B ^ 2) (hB : 0 ≤ B)
    (hσ : σ * (1 + recErr pwl out imd) ≤ out.maxVal * ((1 - rootErr pwl out imd) * κ)) :
    Accurate (floatOps pwl out imd sub junk) rv rv (fun s => (s : ℝ)) rv (IsNum imd) X u lo hi σ
      (((1 - rootErr pwl out imd) * κ : ℚ) : ℝ) (((1 + rootErr pwl out imd) * B : ℚ) : ℝ)
      ((rootErr pwl out imd * (2 + rootErr pwl out imd) * hi : ℚ) : ℝ)
      ((σ * recErr pwl out imd + σ * (1 + recErr pwl out imd) * 2 ^ (2 - (out.W : ℤ)) +
        (1 + rootErr pwl out imd) * B * 2 ^ (out.I - out.W - 2 ^ (out.E - 1)) : ℚ) : ℝ) where
  okInit a := by have := h.imdW; exact cvt_isNum (by omega) a
  okStep p x := (hsub _ _).1
  dInit a ha := by
    rw [norm_rv] at ha
    have := cvt_sum hX hu (Rat.cast_le.1 ha)
    simp only [floatOps, rv, Complex.ofReal_re]
    exact_mod_cast (Rat.cast_le (K := ℝ)).2 this
  dStep p x h1 h2 := by
    rw [norm_rv, ← Rat.cast_pow, sq_abs] at h2 ⊢
    have h1' : |p| ≤ X + u := by exact_mod_cast h1
    have h2' : |p - x * x| ≤ X := by rw [← pow_two]; exact_mod_cast h2
    have := (hsub p (x * x)).2 h1' h2'
    simp only [floatOps]
    rw [← pow_two] at this ⊢
    exact_mod_cast (Rat.cast_le (K := ℝ)).2 this
  pos p := by
    change decide (p ≤ 0) = false ↔ _
    rw [decide_eq_false_iff_not, not_le]
    exact_mod_cast Iff.rfl
  diag p hp h0 h1 := by
    have h0 : lo ≤ p := by exact_mod_cast h0
    have h1 : p ≤ hi := by exact_mod_cast h1
    obtain ⟨d1, d2, d3, -⟩ := fns_err h junk hp (hlo.trans h0) (h1.trans hhi) hB
    refine ⟨(diag pwl out imd junk p : ℚ), rfl, ?_, ?_, ?_⟩
    · exact_mod_cast (Rat.cast_le (K := ℝ)).2 d1
    · exact_mod_cast (Rat.cast_le (K := ℝ)).2 d2
    · have hε := root_pos pwl out imd
      have := mul_le_mul_of_nonneg_left h1 (mul_pos hε (show 0 < 2 + rootErr pwl out imd by linarith)).le
      exact_mod_cast (Rat.cast_le (K := ℝ)).2 (d3.trans this)
  oInit a ha := by
    rw [norm_rv] at ha
    simp only [floatOps]
    rw [rv_sub, norm_rv]
    exact Rat.cast_le.2 (cvt_sum hX hu (Rat.cast_le.1 ha))
  oStep q x y h1 h2 := by
    simp only [floatOps] at h2 ⊢
    rw [norm_rv] at h1
    rw [star_rv, rv_mul, rv_sub, norm_rv] at h2
    rw [star_rv, rv_mul, rv_sub, rv_sub, norm_rv]
    have h1' : |q| ≤ X + u := by exact_mod_cast h1
    exact Rat.cast_le.2 ((hsub q (x * y)).2 h1' (Rat.cast_le.1 h2))
  off p q hp h0 h1 hq := by
    have h0 : lo ≤ p := by exact_mod_cast h0
    have h1 : p ≤ hi := by exact_mod_cast h1
    rw [norm_rv] at hq
    have hq : |q| ≤ σ := Rat.cast_le.1 hq
    obtain ⟨d1, d2, -, d4⟩ := fns_err h junk hp (hlo.trans h0) (h1.trans hhi) hB
    simp only [floatOps]
    rw [rv_mul, rv_sub, norm_rv]
    apply Rat.cast_le.2
    have hκ' : 0 < (1 - rootErr pwl out imd) * κ := (Fmt.z_pos _).trans_le h.outLow
    generalize diag pwl out imd junk p = d at *
    generalize recip pwl out imd junk p = r at *
    have hd0 : 0 < d := hκ'.trans_le d1
    have hrd : |r * d| ≤ 1 + recErr pwl out imd := by
      obtain ⟨b1, b2⟩ := abs_le.1 d4
      rw [abs_le]; constructor <;> linarith
    have hσ0 : 0 ≤ σ := (abs_nonneg _).trans hq
    have hrq : |r * q| * d ≤ σ * (1 + recErr pwl out imd) := by
      have : |r * q| * d = |q| * |r * d| := by rw [abs_mul, abs_mul r d, abs_of_pos hd0]; ring
      rw [this]
      exact mul_le_mul hq hrd (abs_nonneg _) hσ0
    have hmax : |r * q| ≤ out.maxVal := by
      have a := mul_le_mul_of_nonneg_left d1 (Proof.FloatCvt.max_nonneg out)
      exact le_of_mul_le_mul_right (hrq.trans (hσ.trans a)) hd0
    obtain ⟨m1, m2⟩ := abs_le.1 hmax
    have hc := Proof.FloatCvt.cvt_abs (t := out) (x := r * q) (by have := Proof.FloatRec.minVal_le out; linarith) m2
    have e : out.cvt (r * q) * d - q = (out.cvt (r * q) - r * q) * d + (r * d - 1) * q := by ring
    rw [e]
    have t1 := abs_add_le ((out.cvt (r * q) - r * q) * d) ((r * d - 1) * q)
    rw [abs_mul, abs_mul (r * d - 1), abs_of_pos hd0] at t1
    have t2 := mul_le_mul_of_nonneg_right hc hd0.le
    have t3 := mul_le_mul d4 hq (abs_nonneg _) ((abs_nonneg _).trans d4)
    have t4 := mul_le_mul_of_nonneg_right hrq (Fmt.z_pos (2 - (out.W : ℤ))).le
    have t5 := mul_le_mul_of_nonneg_right d2 (Fmt.z_pos (out.I - out.W - 2 ^ (out.E - 1))).le
    generalize (2 : ℚ) ^ (2 - (out.W : ℤ)) = z1 at *
    generalize (2 : ℚ) ^ (out.I - out.W - 2 ^ (out.E - 1)) = z2 at *
    generalize |r * q| = w at *
    have e5 : (w * z1 + z2) * d = w * d * z1 + d * z2 := by ring
    linarith
  zero := by simp [floatOps, rv]

end Proof.CholFloat
